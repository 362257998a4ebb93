import Verif.Lemmas.KdTree

/-! # k-nearest-neighbour queries -/

namespace Verif
variable {R W : Type*} [LinearOrder R] [LinearOrder W]

theorem boxStep_le {ar : Arith R W} (ha : ar.Lawful) {lo hi x p : R} (h1 : lo ≤ x) (h2 : x ≤ hi) :
    ar.zero ≤ ar.add (if lo > p then ar.diff lo p else ar.zero) (if p > hi then ar.diff p hi else ar.zero) ∧
    ar.sq (ar.add (if lo > p then ar.diff lo p else ar.zero) (if p > hi then ar.diff p hi else ar.zero)) ≤ ar.sq (ar.diff p x) := by
  by_cases hl : lo > p
  · have hh : ¬ p > hi := fun h => absurd (h1.trans h2) (not_le.2 (lt_trans h hl))
    rw [if_pos hl, if_neg hh]
    have h0 := ha.add_nonneg (ar.diff lo p) ar.zero (ha.diff_nonneg _ _ hl.le) le_rfl
    refine ⟨h0, ?_⟩
    rw [ha.sq_symm p x]
    exact ha.sq_mono _ _ h0 ((ha.add_zero _ _ hl.le).trans (ha.diff_mono p lo x hl.le h1).1)
  · rw [if_neg hl]
    by_cases hh : p > hi
    · rw [if_pos hh]
      have h0 := ha.add_nonneg ar.zero (ar.diff p hi) le_rfl (ha.diff_nonneg _ _ hh.le)
      exact ⟨h0, ha.sq_mono _ _ h0 ((ha.zero_add _ _ hh.le).trans (ha.diff_mono x hi p h2 hh.le).2)⟩
    · rw [if_neg hh]
      have h0 := ha.add_nonneg ar.zero ar.zero le_rfl le_rfl
      refine ⟨h0, ?_⟩
      rcases le_total p x with h | h
      · rw [ha.sq_symm p x]
        exact ha.sq_mono _ _ h0 (ha.zero_zero.trans (ha.diff_nonneg _ _ h))
      · exact ha.sq_mono _ _ h0 (ha.zero_zero.trans (ha.diff_nonneg _ _ h))

/-- The distance to a box is a lower bound for the distance to any point inside. -/
theorem boxDist_le_rdist {ar : Arith R W} (ha : ar.Lawful) (dims : ℕ) (lo hi pt x : ℕ → R)
    (h : ∀ j < dims, lo j ≤ x j ∧ x j ≤ hi j) : boxDist ar dims lo hi pt ≤ rdist ar dims pt x := by
  unfold boxDist rdist
  have key : ∀ (l : List ℕ) (r r' : W), (∀ j ∈ l, j < dims) → ar.zero ≤ r → r ≤ r' →
      l.foldl (fun r i =>
        let dLo := if lo i > pt i then ar.diff (lo i) (pt i) else ar.zero
        let dHi := if pt i > hi i then ar.diff (pt i) (hi i) else ar.zero
        ar.add r (ar.sq (ar.add dLo dHi))) r ≤
      l.foldl (fun r i => ar.add r (ar.sq (ar.diff (pt i) (x i)))) r' := by
    intro l
    induction l with
    | nil => intro r r' _ _ h; exact h
    | cons a l ih =>
      intro r r' hl h0 hr
      rw [List.foldl_cons, List.foldl_cons]
      obtain ⟨h1, h2⟩ := h a (hl a List.mem_cons_self)
      obtain ⟨b1, b2⟩ := boxStep_le ha (p := pt a) h1 h2
      have b3 := ha.sq_nonneg _ b1
      exact ih _ _ (fun j hj => hl j (List.mem_cons_of_mem _ hj)) (ha.add_nonneg _ _ h0 b3) (ha.add_mono _ _ _ _ h0 hr b3 b2)
  exact key _ _ _ (fun j hj => List.mem_range.1 hj) le_rfl le_rfl

/-- The candidate that the point `q` gives. -/
def candOf (ar : Arith R W) (dims : ℕ) (pts : ℕ → ℕ → R) (pt : ℕ → R) (q : ℕ) : W × Option ℕ := (rdist ar dims pt (pts q), some q)

theorem queryLeaf_spec (ar : Arith R W) (dims : ℕ) (pts : ℕ → ℕ → R) (pt : ℕ → R) {k : ℕ} (hk : k ≤ 32768) (h0 : 0 < k) (qs : List ℕ)
    (h : ℕ → W × Option ℕ) (hh : HeapOrder k h) :
    ∃ h', queryLeaf ar dims pts pt k qs h = some h' ∧ HeapOrder k h' ∧
      SmallestOf (entries k h') (entries k h ++ qs.map (candOf ar dims pts pt)) := by
  induction qs generalizing h with
  | nil => exact ⟨h, rfl, hh, SmallestOf.refl _⟩
  | cons q qs ih =>
    unfold queryLeaf
    simp only
    by_cases hlt : rdist ar dims pt (pts q) < (h 0).1
    · rw [if_pos hlt]
      obtain ⟨h1, e, a, b⟩ := heapPush_smallest hk h0 h hh (rdist ar dims pt (pts q)) (some q)
      obtain ⟨h2, e2, a2, b2⟩ := ih h1 a
      exact ⟨h2, by rw [e]; exact e2, a2, b.trans b2 (by rw [entries_length, entries_length])⟩
    · rw [if_neg hlt]
      obtain ⟨h2, e2, a2, b2⟩ := ih h hh
      refine ⟨h2, e2, a2, ?_⟩
      have b : SmallestOf (entries k h) (entries k h ++ [candOf ar dims pts pt q]) := by
        have := (SmallestOf.refl (entries k h)).skip (b := [candOf ar dims pts pt q]) (fun x hx y hy => by
          rw [List.mem_singleton.1 hy]
          exact (hh.le_root hx).trans (not_lt.1 hlt))
        simpa using this
      exact b.trans b2 (by rw [entries_length, entries_length])

theorem queryRec_spec {ar : Arith R W} (ha : ar.Lawful) (dims : ℕ) (pts : ℕ → ℕ → R) (t : KdTree R) (pt : ℕ → R) {k : ℕ}
    (hk : k ≤ 32768) (h0 : 0 < k) {nNodes v s e : ℕ} (hc : t.Covers pts dims nNodes v s e) (g : ℕ) (hg : nNodes ≤ g + v)
    (h : ℕ → W × Option ℕ) (hh : HeapOrder k h) :
    ∃ h', queryRec ar dims pts t pt k g v (boxDist ar dims (t.lo v) (t.hi v) pt) h = some h' ∧ HeapOrder k h' ∧
      SmallestOf (entries k h') (entries k h ++ (slice t.idx s e).map (candOf ar dims pts pt)) := by
  induction hc generalizing g h with
  | leaf v s e hv hse hst hsp hl hbox _ =>
    obtain ⟨g, rfl⟩ : ∃ g', g = g' + 1 := ⟨g - 1, by omega⟩
    unfold queryRec
    by_cases hb : boxDist ar dims (t.lo v) (t.hi v) pt > (h 0).1
    · rw [if_pos hb]
      refine ⟨h, rfl, hh, ?_⟩
      have := (SmallestOf.refl (entries k h)).skip (b := (slice t.idx s e).map (candOf ar dims pts pt)) (fun x hx y hy => by
        obtain ⟨q, hq, rfl⟩ := List.mem_map.1 hy
        obtain ⟨i, i1, i2, rfl⟩ := mem_slice.1 hq
        exact ((hh.le_root hx).trans hb.le).trans (boxDist_le_rdist ha dims _ _ pt _ (hbox.inside i i1 i2)))
      simpa using this
    · rw [if_neg hb, if_pos hl, hst, hsp]
      exact queryLeaf_spec ar dims pts pt hk h0 _ h hh
  | node v s m e hv hst hsp hl hbox hm hsplit c1 c2 ih1 ih2 =>
    obtain ⟨g, rfl⟩ : ∃ g', g = g' + 1 := ⟨g - 1, by omega⟩
    have l1 := c1.lt
    have l2 := c2.lt
    unfold queryRec
    by_cases hb : boxDist ar dims (t.lo v) (t.hi v) pt > (h 0).1
    · rw [if_pos hb]
      refine ⟨h, rfl, hh, ?_⟩
      have := (SmallestOf.refl (entries k h)).skip (b := (slice t.idx s e).map (candOf ar dims pts pt)) (fun x hx y hy => by
        obtain ⟨q, hq, rfl⟩ := List.mem_map.1 hy
        obtain ⟨i, i1, i2, rfl⟩ := mem_slice.1 hq
        exact ((hh.le_root hx).trans hb.le).trans (boxDist_le_rdist ha dims _ _ pt _ (hbox.inside i i1 i2)))
      simpa using this
    · rw [if_neg hb, if_neg (by simp [hl])]
      simp only
      rw [slice_append t.idx l1.le l2.le, List.map_append]
      by_cases hd : boxDist ar dims (t.lo (2 * v + 1)) (t.hi (2 * v + 1)) pt ≤
          boxDist ar dims (t.lo (2 * v + 1 + 1)) (t.hi (2 * v + 1 + 1)) pt
      · rw [if_pos hd]
        obtain ⟨h1, e1, a1, b1⟩ := ih1 g (by omega) h hh
        obtain ⟨h2, e2, a2, b2⟩ := ih2 g (by omega) h1 a1
        refine ⟨h2, by rw [e1]; exact e2, a2, b1.trans b2 (by rw [entries_length, entries_length])⟩
      · rw [if_neg hd]
        obtain ⟨h1, e1, a1, b1⟩ := ih2 g (by omega) h hh
        obtain ⟨h2, e2, a2, b2⟩ := ih1 g (by omega) h1 a1
        refine ⟨h2, by rw [show 2 * v + 1 + 1 = 2 * v + 2 from rfl, e1]; exact e2, a2, ?_⟩
        exact (b1.trans b2 (by rw [entries_length, entries_length])).perm_right (List.Perm.append_left _ List.perm_append_comm)

theorem treeQuery_spec [OrderTop W] {ar : Arith R W} (ha : ar.Lawful) {rt : W → W} (hrt : Monotone rt) (dims : ℕ) (pts : ℕ → ℕ → R)
    {t : KdTree R} {n nNodes : ℕ} (ht : t.Valid pts dims n nNodes) {k : ℕ} (hk : k ≤ 32768) (h0 : 0 < k) (pt : ℕ → R) :
    ∃ out, treeQuery ar rt dims pts t nNodes k pt = some out ∧ out.length = k ∧ out.Pairwise (fun x y => x.1 ≤ y.1) ∧
      SmallestOf out (List.replicate k (rt ⊤, none) ++ (List.range n).map fun q => (rt (rdist ar dims pt (pts q)), some q)) := by
  obtain ⟨h, e, a, b⟩ := queryRec_spec ha dims pts t pt hk h0 ht.covers nNodes (by omega) (fun _ => (⊤, none)) (heapOrder_const k ⊤ none)
  have a' : HeapOrder k (fun i => (rt (h i).1, (h i).2)) := fun c h1 h2 => hrt (a c h1 h2)
  obtain ⟨d1, d2⟩ := drainHeap_entries _ a'
  refine ⟨entries k (drainHeap Prod.fst 0 k fun i => (rt (h i).1, (h i).2)), by unfold treeQuery; rw [e]; rfl, entries_length _ _, d2, ?_⟩
  refine SmallestOf.perm_left ?_ d1
  have b' := b.map hrt
  have e1 : (entries k h).map (fun x => (rt x.1, x.2)) = entries k (fun i => (rt (h i).1, (h i).2)) := by
    unfold entries; rw [List.map_map]; rfl
  rw [e1] at b'
  refine b'.perm_right ?_
  rw [List.map_append]
  refine List.Perm.append ?_ ?_
  · unfold entries
    rw [List.map_map]
    have : ((fun x : W × Option ℕ => (rt x.1, x.2)) ∘ fun _ : ℕ => ((⊤ : W), (none : Option ℕ))) = fun _ => (rt ⊤, none) := rfl
    rw [this, List.map_const', List.length_range]
  · rw [slice_eq_entries, List.map_map]
    exact (ht.perm.map _)

theorem Node_covers {t : KdTree R} {pts : ℕ → ℕ → R} {dims n nNodes : ℕ} (ht : t.Valid pts dims n nNodes) {v d : ℕ}
    (hv : t.Node v d) : ∃ s e, t.Covers pts dims nNodes v s e ∧ n / 2 ^ d ≤ e - s ∧ (e - s) * 2 ^ d < n + 2 ^ d ∧
      2 ^ d ≤ v + 1 ∧ v + 1 < 2 * 2 ^ d := by
  induction hv with
  | root => exact ⟨0, n, ht.covers, by simp, by simp, by simp, by simp⟩
  | left v d _ hl ih =>
    obtain ⟨s, e, hc, h1, h2, h3, h4⟩ := ih
    cases hc with
    | leaf _ _ _ _ _ _ _ h => rw [h] at hl; simp at hl
    | node _ _ m _ _ _ _ _ _ hm _ c1 c2 =>
      have l1 := c1.lt
      refine ⟨s, m, c1, ?_, ?_, ?_, ?_⟩
      · rw [Nat.pow_succ, ← Nat.div_div_eq_div_mul]
        have := Nat.div_le_div_right (c := 2) h1
        omega
      · have h5 : (m - s) * 2 ≤ e - s := by omega
        calc (m - s) * 2 ^ (d + 1) = (m - s) * 2 * 2 ^ d := by rw [Nat.pow_succ, Nat.mul_comm (2 ^ d) 2, Nat.mul_assoc]
          _ ≤ (e - s) * 2 ^ d := Nat.mul_le_mul_right _ h5
          _ < n + 2 ^ (d + 1) := by rw [Nat.pow_succ]; omega
      · rw [Nat.pow_succ]; omega
      · rw [Nat.pow_succ]; omega
  | right v d _ hl ih =>
    obtain ⟨s, e, hc, h1, h2, h3, h4⟩ := ih
    cases hc with
    | leaf _ _ _ _ _ _ _ h => rw [h] at hl; simp at hl
    | node _ _ m _ _ _ _ _ _ hm _ c1 c2 =>
      have l1 := c1.lt
      have l2 := c2.lt
      refine ⟨m, e, c2, ?_, ?_, ?_, ?_⟩
      · rw [Nat.pow_succ, ← Nat.div_div_eq_div_mul]
        have := Nat.div_le_div_right (c := 2) h1
        omega
      · have h5 : (e - m) * 2 ≤ e - s + 1 := by omega
        calc (e - m) * 2 ^ (d + 1) = (e - m) * 2 * 2 ^ d := by rw [Nat.pow_succ, Nat.mul_comm (2 ^ d) 2, Nat.mul_assoc]
          _ ≤ (e - s + 1) * 2 ^ d := Nat.mul_le_mul_right _ h5
          _ < n + 2 ^ (d + 1) := by rw [Nat.pow_succ, Nat.add_mul]; omega
      · rw [Nat.pow_succ]; omega
      · rw [Nat.pow_succ]; omega

/-- Leaves hold between `leafSize` and `2 * leafSize` points. -/
theorem leaf_occupancy {t : KdTree R} {pts : ℕ → ℕ → R} {dims n leafSize : ℕ} (hl : 1 ≤ leafSize) (hn : leafSize < n)
    (ht : t.Valid pts dims n (numNodes n leafSize)) {v d : ℕ} (hv : t.Node v d) (hleaf : t.leaf v = true) :
    leafSize ≤ t.stop v - t.start v ∧ t.stop v - t.start v ≤ 2 * leafSize := by
  obtain ⟨s, e, hc, h1, h2, h3, h4⟩ := Node_covers ht hv
  cases hc with
  | node _ _ m _ _ _ _ h => rw [h] at hleaf; simp at hleaf
  | leaf _ _ _ hvn hse hst hsp _ _ hroom =>
    rw [hst, hsp]
    have hq : 1 ≤ (n - 1) / leafSize := (Nat.one_le_div_iff (by omega)).2 (by omega)
    have hmax : max 1 ((n - 1) / leafSize) = (n - 1) / leafSize := max_eq_right hq
    unfold numNodes numLevels at hvn hroom
    rw [hmax] at hvn hroom
    set L := Nat.log2 ((n - 1) / leafSize) with hL
    have hL1 : 2 ^ L ≤ (n - 1) / leafSize := Nat.log2_self_le (by omega)
    have hL2 : (n - 1) / leafSize < 2 ^ (L + 1) := Nat.lt_log2_self
    have hL3 : leafSize * 2 ^ L ≤ n - 1 := by
      have := (Nat.le_div_iff_mul_le (by omega : 0 < leafSize)).1 hL1
      rw [Nat.mul_comm]; exact this
    have hL4 : n - 1 < 2 ^ (L + 1) * leafSize := (Nat.div_lt_iff_lt_mul (by omega)).1 hL2
    rw [Nat.pow_succ] at hvn hroom hL4
    have hp : 0 < 2 ^ d := Nat.pos_of_ne_zero (by simp)
    have hdL : d ≤ L := by
      by_contra hcon
      have : 2 ^ (L + 1) ≤ 2 ^ d := Nat.pow_le_pow_right (by omega) (by omega)
      rw [Nat.pow_succ] at this
      omega
    have hdeq : d = L := by
      by_contra hne
      have hlt : 2 ^ (d + 1) ≤ 2 ^ L := Nat.pow_le_pow_right (by omega) (by omega)
      rw [Nat.pow_succ] at hlt
      rcases hroom with hr | hr
      · omega
      · have hbig : 2 * 2 ^ d ≤ n := by
          have : 1 * (2 * 2 ^ d) ≤ leafSize * 2 ^ L := Nat.mul_le_mul hl (by omega)
          omega
        have : 2 ≤ n / 2 ^ d := (Nat.le_div_iff_mul_le hp).2 hbig
        omega
    subst hdeq
    rw [← hL] at *
    constructor
    · refine le_trans ?_ h1
      rw [Nat.le_div_iff_mul_le hp]
      omega
    · have h5 : (e - s) * 2 ^ L < (2 * leafSize + 1) * 2 ^ L := by
        have : (2 * leafSize + 1) * 2 ^ L = 2 ^ L * 2 * leafSize + 2 ^ L := by
          rw [Nat.add_mul, Nat.one_mul, Nat.mul_comm (2 ^ L) 2, Nat.mul_assoc, Nat.mul_assoc, Nat.mul_comm leafSize]
        omega
      have := Nat.lt_of_mul_lt_mul_right h5
      omega

end Verif
