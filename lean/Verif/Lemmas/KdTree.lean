import Verif.Lemmas.Introselect
import Verif.Lemmas.Nearest
import Verif.Spec.KdTree
import Mathlib.Order.MinMax

/-! # Construction of the KD-tree -/

namespace Verif
variable {R W α : Type*} [LinearOrder R] [LinearOrder W]

theorem PermOn.symm {l r : ℕ} {h h' : ℕ → α} (h1 : PermOn l r h h') : PermOn l r h' h :=
  ⟨h1.perm.symm, fun x hx => (h1.out x hx).symm⟩

theorem foldl_min_spec (g : ℕ → R) (l : List ℕ) (m : R) :
    (∀ i ∈ l, l.foldl (fun m i => min m (g i)) m ≤ g i) ∧ l.foldl (fun m i => min m (g i)) m ≤ m ∧
      (l.foldl (fun m i => min m (g i)) m = m ∨ ∃ i ∈ l, g i = l.foldl (fun m i => min m (g i)) m) := by
  induction l generalizing m with
  | nil => exact ⟨by simp, le_refl _, Or.inl rfl⟩
  | cons a l ih =>
    obtain ⟨h1, h2, h3⟩ := ih (min m (g a))
    simp only [List.foldl_cons]
    generalize l.foldl (fun m i => min m (g i)) (min m (g a)) = r at *
    refine ⟨fun i hi => ?_, h2.trans (min_le_left _ _), ?_⟩
    · rcases List.mem_cons.1 hi with rfl | hi
      · exact h2.trans (min_le_right _ _)
      · exact h1 i hi
    · rcases h3 with h3 | ⟨i, hi, h3⟩
      · rcases min_choice m (g a) with h | h
        · exact Or.inl (h3.trans h)
        · exact Or.inr ⟨a, List.mem_cons_self, by rw [h3, h]⟩
      · exact Or.inr ⟨i, List.mem_cons_of_mem _ hi, h3⟩

theorem foldl_max_spec (g : ℕ → R) (l : List ℕ) (m : R) :
    (∀ i ∈ l, g i ≤ l.foldl (fun m i => max m (g i)) m) ∧ m ≤ l.foldl (fun m i => max m (g i)) m ∧
      (l.foldl (fun m i => max m (g i)) m = m ∨ ∃ i ∈ l, g i = l.foldl (fun m i => max m (g i)) m) := by
  induction l generalizing m with
  | nil => exact ⟨by simp, le_refl _, Or.inl rfl⟩
  | cons a l ih =>
    obtain ⟨h1, h2, h3⟩ := ih (max m (g a))
    simp only [List.foldl_cons]
    generalize l.foldl (fun m i => max m (g i)) (max m (g a)) = r at *
    refine ⟨fun i hi => ?_, (le_max_left _ _).trans h2, ?_⟩
    · rcases List.mem_cons.1 hi with rfl | hi
      · exact (le_max_right _ _).trans h2
      · exact h1 i hi
    · rcases h3 with h3 | ⟨i, hi, h3⟩
      · rcases max_choice m (g a) with h | h
        · exact Or.inl (h3.trans h)
        · exact Or.inr ⟨a, List.mem_cons_self, by rw [h3, h]⟩
      · exact Or.inr ⟨i, List.mem_cons_of_mem _ hi, h3⟩

theorem colMin_spec (pts : ℕ → ℕ → R) (idx : ℕ → ℕ) (s e j : ℕ) (hse : s < e) :
    (∀ i, s ≤ i → i < e → colMin pts idx s e j ≤ pts (idx i) j) ∧ ∃ i, s ≤ i ∧ i < e ∧ pts (idx i) j = colMin pts idx s e j := by
  unfold colMin
  obtain ⟨h1, h2, h3⟩ := foldl_min_spec (fun i => pts (idx i) j) (List.range' (s + 1) (e - (s + 1))) (pts (idx s) j)
  constructor
  · intro i hi hie
    rcases Nat.eq_or_lt_of_le hi with rfl | hlt
    · exact h2
    · exact h1 i (by rw [List.mem_range'_1]; omega)
  · rcases h3 with h3 | ⟨i, hi, h3⟩
    · exact ⟨s, le_rfl, hse, h3.symm⟩
    · rw [List.mem_range'_1] at hi
      exact ⟨i, by omega, by omega, h3⟩

theorem colMax_spec (pts : ℕ → ℕ → R) (idx : ℕ → ℕ) (s e j : ℕ) (hse : s < e) :
    (∀ i, s ≤ i → i < e → pts (idx i) j ≤ colMax pts idx s e j) ∧ ∃ i, s ≤ i ∧ i < e ∧ pts (idx i) j = colMax pts idx s e j := by
  unfold colMax
  obtain ⟨h1, h2, h3⟩ := foldl_max_spec (fun i => pts (idx i) j) (List.range' (s + 1) (e - (s + 1))) (pts (idx s) j)
  constructor
  · intro i hi hie
    rcases Nat.eq_or_lt_of_le hi with rfl | hlt
    · exact h2
    · exact h1 i (by rw [List.mem_range'_1]; omega)
  · rcases h3 with h3 | ⟨i, hi, h3⟩
    · exact ⟨s, le_rfl, hse, h3.symm⟩
    · rw [List.mem_range'_1] at hi
      exact ⟨i, by omega, by omega, h3⟩

/-- `x` is `v` or below it in the implicit binary tree. -/
def KdBelow (v x : ℕ) : Prop := ∃ k, (x + 1) / 2 ^ k = v + 1

theorem KdBelow.refl (v : ℕ) : KdBelow v v := ⟨0, by simp⟩

theorem KdBelow.left {v x : ℕ} (h : KdBelow (2 * v + 1) x) : KdBelow v x := by
  obtain ⟨k, hk⟩ := h
  exact ⟨k + 1, by rw [Nat.pow_succ, ← Nat.div_div_eq_div_mul, hk]; omega⟩

theorem KdBelow.right {v x : ℕ} (h : KdBelow (2 * v + 2) x) : KdBelow v x := by
  obtain ⟨k, hk⟩ := h
  exact ⟨k + 1, by rw [Nat.pow_succ, ← Nat.div_div_eq_div_mul, hk]; omega⟩

theorem KdBelow.le {v x : ℕ} (h : KdBelow v x) : v ≤ x := by
  obtain ⟨k, hk⟩ := h
  have := Nat.div_le_self (x + 1) (2 ^ k)
  omega

theorem KdBelow.disjoint {v x : ℕ} (h1 : KdBelow (2 * v + 1) x) (h2 : KdBelow (2 * v + 2) x) : False := by
  obtain ⟨k, hk⟩ := h1
  obtain ⟨m, hm⟩ := h2
  rcases Nat.lt_trichotomy k m with h | h | h
  · obtain ⟨d, rfl⟩ := Nat.exists_eq_add_of_lt h
    rw [show k + d + 1 = k + (d + 1) by omega, Nat.pow_add, ← Nat.div_div_eq_div_mul, hk, Nat.pow_succ'] at hm
    rw [← Nat.div_div_eq_div_mul] at hm
    have := Nat.div_le_self ((2 * v + 1 + 1) / 2) (2 ^ d)
    omega
  · subst h; omega
  · obtain ⟨d, rfl⟩ := Nat.exists_eq_add_of_lt h
    rw [show m + d + 1 = m + (d + 1) by omega, Nat.pow_add, ← Nat.div_div_eq_div_mul, hm, Nat.pow_succ'] at hk
    rw [← Nat.div_div_eq_div_mul] at hk
    have := Nat.div_le_self ((2 * v + 2 + 1) / 2) (2 ^ d)
    omega

/-- Two trees hold the same at a node. -/
structure SameAt (t t' : KdTree R) (x : ℕ) : Prop where
  start : t'.start x = t.start x
  stop : t'.stop x = t.stop x
  leaf : t'.leaf x = t.leaf x
  lo : t'.lo x = t.lo x
  hi : t'.hi x = t.hi x

omit [LinearOrder R] in
theorem SameAt.trans {t t' t'' : KdTree R} {x : ℕ} (h1 : SameAt t t' x) (h2 : SameAt t' t'' x) : SameAt t t'' x :=
  ⟨h2.start.trans h1.start, h2.stop.trans h1.stop, h2.leaf.trans h1.leaf, h2.lo.trans h1.lo, h2.hi.trans h1.hi⟩

theorem KdTree.Box.congr {t t' : KdTree R} {pts : ℕ → ℕ → R} {dims v s e : ℕ} (h : t.Box pts dims v s e)
    (hs : SameAt t t' v) (h1 : ∀ i, s ≤ i → i < e → ∃ i', s ≤ i' ∧ i' < e ∧ t'.idx i = t.idx i')
    (h2 : ∀ i, s ≤ i → i < e → ∃ i', s ≤ i' ∧ i' < e ∧ t.idx i = t'.idx i') : t'.Box pts dims v s e := by
  constructor
  · intro i hi hie j hj
    obtain ⟨i', a, b, c⟩ := h1 i hi hie
    rw [c, hs.lo, hs.hi]
    exact h.inside i' a b j hj
  · intro j hj
    obtain ⟨⟨i, a, b, c⟩, ⟨i', a', b', c'⟩⟩ := h.tight j hj
    rw [hs.lo, hs.hi]
    constructor
    · obtain ⟨k, k1, k2, k3⟩ := h2 i a b
      exact ⟨k, k1, k2, by rw [← k3]; exact c⟩
    · obtain ⟨k, k1, k2, k3⟩ := h2 i' a' b'
      exact ⟨k, k1, k2, by rw [← k3]; exact c'⟩

theorem KdTree.Covers.lt {t : KdTree R} {pts : ℕ → ℕ → R} {dims nNodes v s e : ℕ} (h : t.Covers pts dims nNodes v s e) : s < e := by
  induction h with
  | leaf => assumption
  | node v s m e _ _ _ _ _ _ _ _ _ ih1 ih2 => omega

theorem KdTree.Covers.congr {t t' : KdTree R} {pts : ℕ → ℕ → R} {dims nNodes v s e : ℕ} (h : t.Covers pts dims nNodes v s e)
    (hs : ∀ x, KdBelow v x → SameAt t t' x) (hi : ∀ i, s ≤ i → i < e → t'.idx i = t.idx i) : t'.Covers pts dims nNodes v s e := by
  induction h with
  | leaf v s e h0 h1 h2 h3 h4 h5 h6 =>
    have hv := hs v (KdBelow.refl v)
    exact .leaf v s e h0 h1 (hv.start.trans h2) (hv.stop.trans h3) (hv.leaf.trans h4)
      (h5.congr hv (fun i a b => ⟨i, a, b, hi i a b⟩) (fun i a b => ⟨i, a, b, (hi i a b).symm⟩)) h6
  | node v s m e h0 h2 h3 h4 h5 h6 h7 c1 c2 ih1 ih2 =>
    have hv := hs v (KdBelow.refl v)
    have l1 := c1.lt
    have l2 := c2.lt
    exact .node v s m e h0 (hv.start.trans h2) (hv.stop.trans h3) (hv.leaf.trans h4)
      (h5.congr hv (fun i a b => ⟨i, a, b, hi i a b⟩) (fun i a b => ⟨i, a, b, (hi i a b).symm⟩)) h6
      (by
        obtain ⟨axis, ha, hsp⟩ := h7
        refine ⟨axis, ha, fun i i' a b c d => ?_⟩
        rw [hi i a (by omega), hi i' (by omega) d]
        exact hsp i i' a b c d)
      (ih1 (fun x hx => hs x hx.left) fun i a b => hi i a (by omega))
      (ih2 (fun x hx => hs x hx.right) fun i a b => hi i (by omega) b)

theorem initNode_box (pts : ℕ → ℕ → R) (t : KdTree R) (dims v s e : ℕ) (hse : s < e) : (initNode pts t v s e).Box pts dims v s e := by
  constructor
  · intro i hi hie j _
    simp only [initNode, Function.update_self]
    exact ⟨(colMin_spec pts t.idx s e j hse).1 i hi hie, (colMax_spec pts t.idx s e j hse).1 i hi hie⟩
  · intro j _
    simp only [initNode, Function.update_self]
    exact ⟨(colMin_spec pts t.idx s e j hse).2, (colMax_spec pts t.idx s e j hse).2⟩

theorem initNode_same (pts : ℕ → ℕ → R) (t : KdTree R) (v s e x : ℕ) (hx : x ≠ v) : SameAt t (initNode pts t v s e) x := by
  constructor <;> simp [initNode, Function.update_of_ne hx]

theorem splitDim_lt (ar : Arith R W) (pts : ℕ → ℕ → R) (dims : ℕ) (idx : ℕ → ℕ) (s e : ℕ) :
    splitDim ar pts dims idx s e < dims ∨ splitDim ar pts dims idx s e = 0 := by
  unfold splitDim
  have key : ∀ (l : List ℕ) (r : ℕ × W), (∀ j ∈ l, j < dims) → (r.1 < dims ∨ r.1 = 0) →
      (l.foldl (fun (r : ℕ × W) j =>
        let spread := ar.diff (colMax pts idx s e j) (colMin pts idx s e j)
        if spread > r.2 then (j, spread) else r) r).1 < dims ∨
      (l.foldl (fun (r : ℕ × W) j =>
        let spread := ar.diff (colMax pts idx s e j) (colMin pts idx s e j)
        if spread > r.2 then (j, spread) else r) r).1 = 0 := by
    intro l
    induction l with
    | nil => intro r _ h; exact h
    | cons a l ih =>
      intro r hl hr
      rw [List.foldl_cons]
      refine ih _ (fun j hj => hl j (List.mem_cons_of_mem _ hj)) ?_
      simp only
      split_ifs
      · exact Or.inl (hl a List.mem_cons_self)
      · exact hr
  exact key _ _ (fun j hj => List.mem_range.1 hj) (Or.inr rfl)

theorem idxKey_le {pts : ℕ → ℕ → R} {axis i j : ℕ} (h : idxKey pts axis i ≤ idxKey pts axis j) : pts i axis ≤ pts j axis := by
  unfold idxKey at h
  rw [Prod.Lex.toLex_le_toLex] at h
  rcases h with h | h
  · exact h.le
  · exact h.1.le

theorem buildRec_spec (ar : Arith R W) (pts : ℕ → ℕ → R) (dims nNodes : ℕ) (hodd : nNodes % 2 = 1) (g : ℕ) (t : KdTree R) (s e v : ℕ)
    (hg : nNodes ≤ g + v) (hv : v < nNodes) (hse : s < e) :
    PermOn s e t.idx (buildRec ar pts dims nNodes g t s e v).idx ∧
      (∀ x, ¬ KdBelow v x → SameAt t (buildRec ar pts dims nNodes g t s e v) x) ∧
      (buildRec ar pts dims nNodes g t s e v).Covers pts dims nNodes v s e := by
  induction g generalizing t s e v with
  | zero => omega
  | succ g ih =>
    unfold buildRec
    simp only
    have hbox := initNode_box pts t dims v s e hse
    have hsame := initNode_same pts t v s e
    have hst : (initNode pts t v s e).start v = s := by simp [initNode]
    have hsp : (initNode pts t v s e).stop v = e := by simp [initNode]
    have hid : (initNode pts t v s e).idx = t.idx := rfl
    generalize initNode pts t v s e = t1 at *
    have leafCase (hroom : nNodes ≤ 2 * v + 1 ∨ e = s + 1) : PermOn s e t.idx ({ t1 with leaf := Function.update t1.leaf v true } : KdTree R).idx ∧
        (∀ x, ¬ KdBelow v x → SameAt t ({ t1 with leaf := Function.update t1.leaf v true } : KdTree R) x) ∧
        ({ t1 with leaf := Function.update t1.leaf v true } : KdTree R).Covers pts dims nNodes v s e := by
      refine ⟨by rw [show ({ t1 with leaf := Function.update t1.leaf v true } : KdTree R).idx = t1.idx from rfl, hid]; exact PermOn.refl _ _ _,
        fun x hx => ?_, .leaf v s e hv hse hst hsp (by simp) ⟨hbox.inside, hbox.tight⟩ hroom⟩
      have hxv : x ≠ v := by rintro rfl; exact hx (KdBelow.refl _)
      have := hsame x hxv
      exact ⟨this.start, this.stop, by simpa [Function.update_of_ne hxv] using this.leaf, this.lo, this.hi⟩
    by_cases hc1 : 2 * v + 1 ≥ nNodes
    · rw [if_pos hc1]; exact leafCase (Or.inl hc1)
    rw [if_neg hc1]
    by_cases hc2 : e - s < 2
    · rw [if_pos hc2]; exact leafCase (Or.inr (by omega))
    rw [if_neg hc2]
    have haxis := splitDim_lt ar pts dims t1.idx s e
    obtain ⟨p1, hsplit⟩ := introselect_spec (idxKey pts (splitDim ar pts dims t1.idx s e)) t1.idx s e (s + (e - s) / 2) (by omega) (by omega)
    generalize introselect (idxKey pts (splitDim ar pts dims t1.idx s e)) s e (s + (e - s) / 2) t1.idx = idx2 at *
    have hm1 : s < s + (e - s) / 2 := by omega
    have hm2 : s + (e - s) / 2 < e := by omega
    generalize splitDim ar pts dims t1.idx s e = axis at *
    generalize hm : s + (e - s) / 2 = m at *
    generalize ht2 : ({ t1 with leaf := Function.update t1.leaf v false, idx := idx2 } : KdTree R) = t2
    have hi2 : t2.idx = idx2 := by rw [← ht2]
    have same2 : ∀ x, x ≠ v → SameAt t t2 x := by
      intro x hxv
      have := hsame x hxv
      rw [← ht2]
      exact ⟨this.start, this.stop, by simpa [Function.update_of_ne hxv] using this.leaf, this.lo, this.hi⟩
    have box2 : t2.Box pts dims v s e := by
      have hl : SameAt ({ t1 with leaf := Function.update t1.leaf v false } : KdTree R) t2 v := by
        rw [← ht2]; exact ⟨rfl, rfl, rfl, rfl, rfl⟩
      have hb : ({ t1 with leaf := Function.update t1.leaf v false } : KdTree R).Box pts dims v s e := ⟨hbox.inside, hbox.tight⟩
      refine hb.congr hl (fun i a b => ?_) (fun i a b => ?_)
      · obtain ⟨y, y1, y2, y3⟩ := p1.exists_old ⟨a, b⟩
        exact ⟨y, y1, y2, by rw [hi2]; exact y3.symm⟩
      · obtain ⟨y, y1, y2, y3⟩ := p1.symm.exists_old ⟨a, b⟩
        exact ⟨y, y1, y2, by rw [hi2]; exact y3.symm⟩
    have leaf2 : t2.leaf v = false := by rw [← ht2]; simp
    have st2 : t2.start v = s := by rw [← ht2]; exact hst
    have sp2 : t2.stop v = e := by rw [← ht2]; exact hsp
    obtain ⟨a1, a2, a3⟩ := ih t2 s m (2 * v + 1) (by omega) (by omega) hm1
    generalize buildRec ar pts dims nNodes g t2 s m (2 * v + 1) = t3 at *
    obtain ⟨b1, b2, b3⟩ := ih t3 m e (2 * v + 2) (by omega) (by omega) hm2
    generalize buildRec ar pts dims nNodes g t3 m e (2 * v + 2) = t4 at *
    have a1' := a1.mono (le_refl s) hm2.le hm1.le
    have b1' := b1.mono hm1.le (le_refl e) hm2.le
    have p24 : PermOn s e t2.idx t4.idx := a1'.trans b1'
    have nv1 : ¬ KdBelow (2 * v + 1) v := fun h => by have := h.le; omega
    have nv2 : ¬ KdBelow (2 * v + 2) v := fun h => by have := h.le; omega
    have sv : SameAt t2 t4 v := (a2 v nv1).trans (b2 v nv2)
    refine ⟨?_, fun x hx => ?_, ?_⟩
    · rw [← hid]
      refine p1.trans ?_
      rw [← hi2]; exact p24
    · have hxv : x ≠ v := by rintro rfl; exact hx (KdBelow.refl _)
      exact (same2 x hxv).trans ((a2 x fun h => hx h.left).trans (b2 x fun h => hx h.right))
    · refine .node v s m e hv (sv.start.trans st2) (sv.stop.trans sp2) (sv.leaf.trans leaf2)
        (box2.congr sv (fun i a b => ?_) (fun i a b => ?_)) hm.symm ⟨axis, haxis, fun i i' k1 k2 k3 k4 => ?_⟩ ?_ b3
      · obtain ⟨y, y1, y2, y3⟩ := p24.exists_old ⟨a, b⟩
        exact ⟨y, y1, y2, y3.symm⟩
      · obtain ⟨y, y1, y2, y3⟩ := p24.symm.exists_old ⟨a, b⟩
        exact ⟨y, y1, y2, y3.symm⟩
      · rw [b1.out i (by omega)]
        obtain ⟨y, y1, y2, y3⟩ := a1.exists_old ⟨k1, k2⟩
        obtain ⟨z, z1, z2, z3⟩ := b1.exists_old ⟨k3, k4⟩
        rw [← y3, ← z3, a1.out z (by omega), hi2]
        exact idxKey_le ((hsplit.below y y1 y2.le).trans (hsplit.above z z1 z2))
      · exact a3.congr (fun x hx => b2 x fun h => hx.disjoint h) fun i a b => b1.out i (by omega)

theorem numNodes_odd (n leafSize : ℕ) : numNodes n leafSize % 2 = 1 := by
  unfold numNodes numLevels
  rw [Nat.pow_succ]
  have : 0 < 2 ^ Nat.log2 (max 1 ((n - 1) / leafSize)) := Nat.pos_of_ne_zero (by simp)
  omega

theorem buildKdTree_valid (ar : Arith R W) (zero : R) (pts : ℕ → ℕ → R) (dims n leafSize : ℕ) (hn : 0 < n) (hl : 1 ≤ leafSize) :
    ∃ t, buildKdTree ar zero pts dims n leafSize = some t ∧ t.Valid pts dims n (numNodes n leafSize) := by
  unfold buildKdTree
  rw [if_neg (by omega)]
  have hodd := numNodes_odd n leafSize
  obtain ⟨h1, -, h3⟩ := buildRec_spec ar pts dims (numNodes n leafSize) hodd (numNodes n leafSize)
    ⟨id, fun _ => 0, fun _ => 0, fun _ => false, fun _ _ => zero, fun _ _ => zero⟩ 0 n 0 (by omega) (by omega) hn
  refine ⟨_, rfl, ?_, h3⟩
  have := h1.perm
  rw [slice_eq_entries, slice_eq_entries] at this
  refine this.trans ?_
  unfold entries
  simp

end Verif
