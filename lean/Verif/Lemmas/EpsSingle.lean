import Verif.Lemmas.Epsilon

/-!
# Lemmas: the branch walk of the epsilon search never reaches all of another branch
-/

namespace Verif
variable {L S : Type*} {n k : ℕ} {ct : List (CRow L S)}

/-- A step of the branch walk reads the children of the first splitting cluster from `s` on. -/
theorem branchNext_first (hb : ClBin ct) {s c : ℕ}
    (hc : c ∈ branchNext ((byParent ct).map CRow.parent) ((byParent ct).map CRow.child) s) :
    ∃ q, CStep ct q c ∧ s ≤ q ∧ ∀ q', s ≤ q' → q' < q → ∀ d, ¬ CStep ct q' d := by
  obtain ⟨q, hq, hsq, hor⟩ := branchNext_sub hb hc
  rw [branchNext_eq] at hc
  obtain ⟨row, hr, rfl⟩ := List.mem_map.1 hc
  set B := ((byParent ct).filter fun r => decide (r.parent = s)) ++
        ((byParent ct).filter fun r => decide (s < r.parent)) with hB
  have hmemB : ∀ {r}, r ∈ B ↔ r ∈ ct ∧ s ≤ r.parent := by
    intro r
    rw [hB, List.mem_append, List.mem_filter, List.mem_filter, (byParent_perm ct).mem_iff]
    simp only [decide_eq_true_eq]
    constructor
    · rintro (h | h) <;> exact ⟨h.1, by omega⟩
    · rintro ⟨h1, h2⟩
      rcases h2.eq_or_lt with h | h
      · exact .inl ⟨h1, h.symm⟩
      · exact .inr ⟨h1, h⟩
  have hsort : B.Pairwise fun a b => a.parent ≤ b.parent := by
    rw [hB, List.pairwise_append]
    refine ⟨(byParent_sorted ct).filter _, (byParent_sorted ct).filter _, fun a ha b hb' => ?_⟩
    have h1 := of_decide_eq_true (List.mem_filter.1 ha).2
    have h2 := of_decide_eq_true (List.mem_filter.1 hb').2
    omega
  have hrow := hmemB.1 (List.mem_of_mem_take hr)
  refine ⟨row.parent, ⟨row, hrow.1, rfl, rfl⟩, hrow.2, fun q' h1 h2 d hd => ?_⟩
  have hrd := List.take_append_drop 2 B
  have hpw := hsort
  rw [← hrd, List.pairwise_append] at hpw
  have hdrop : ∀ r ∈ B.drop 2, row.parent ≤ r.parent := fun r h => hpw.2.2 row hr r h
  have hsub : ∀ r ∈ ct, r.parent = q' → r ∈ B.take 2 := by
    intro r h3 h4
    have : r ∈ B := hmemB.2 ⟨h3, by omega⟩
    rw [← hrd, List.mem_append] at this
    rcases this with h | h
    · exact h
    · have := hdrop r h; omega
  obtain ⟨r0, h3, h4, _⟩ := hd
  rcases hb q' with h | ⟨a, lv, u, v, h⟩
  · have : r0 ∈ ct.filter fun row => decide (row.parent = q') := List.mem_filter.2 ⟨h3, decide_eq_true h4⟩
    rw [h] at this; cases this
  · have hm : ∀ r ∈ [(⟨q', a, lv, u⟩ : CRow L S), ⟨q', a + 1, lv, v⟩], r ∈ B.take 2 := by
      intro r hr'
      rw [← h] at hr'
      have := List.mem_filter.1 hr'
      exact hsub r this.1 (of_decide_eq_true this.2)
    have m1 := hm ⟨q', a, lv, u⟩ (by simp)
    have m2 := hm ⟨q', a + 1, lv, v⟩ (by simp)
    match hT : B.take 2 with
    | [] => rw [hT] at m1; cases m1
    | [x] =>
      rw [hT, List.mem_singleton] at m1 m2
      rw [← m1] at m2
      simp at m2
    | [x, y] =>
      rw [hT] at m1 m2 hr
      simp only [List.mem_cons, List.not_mem_nil, or_false] at m1 m2 hr
      have hx : x.parent = q' := by
        rcases m1 with m1 | m1
        · rw [← m1]
        · rcases m2 with m2 | m2
          · rw [← m2]
          · rw [← m1] at m2; simp at m2
      have hy : y.parent = q' := by
        rcases m2 with m2 | m2
        · rcases m1 with m1 | m1
          · rw [← m1] at m2; simp at m2
          · rw [← m1]
        · rw [← m2]
      rcases hr with rfl | rfl <;> omega
    | x :: y :: z :: l =>
      have := congrArg List.length hT
      simp at this
      omega

theorem segments_pred (f : ℕ) (ps cs l : List ℕ) {b : ℕ} (hb : b ∈ segmentsInBranch ps cs f l) :
    b ∈ l ∨ ∃ s ∈ segmentsInBranch ps cs f l, b ∈ branchNext ps cs s := by
  induction f generalizing l with
  | zero => cases hb
  | succ f ih =>
    match l with
    | [] => cases hb
    | x :: xs =>
      unfold segmentsInBranch at hb ⊢
      rw [List.mem_append] at hb
      rcases hb with h1 | h1
      · exact .inl h1
      · right
        rcases ih _ h1 with h2 | ⟨s, h2, h3⟩
        · obtain ⟨s, h3, h4⟩ := List.mem_flatMap.1 h2
          exact ⟨s, List.mem_append.2 (.inl h3), h4⟩
        · exact ⟨s, List.mem_append.2 (.inr h2), h3⟩

theorem mem_branchOf (hb : ClBin ct) {p b : ℕ} (h : b ∈ branchOf ct p) :
    b = p ∨ ∃ s ∈ branchOf ct p, ∃ q, CStep ct q b ∧ s ≤ q ∧ ∀ q', s ≤ q' → q' < q → ∀ d, ¬ CStep ct q' d := by
  rcases segments_pred _ _ _ _ h with h1 | ⟨s, h1, h2⟩
  · exact .inl (List.mem_singleton.1 h1)
  · exact .inr ⟨s, h1, branchNext_first hb h2⟩

theorem ClTree.branchOf_ge (h : ClTree n k ct) (hb : ClBin ct) {p b : ℕ} (hm : b ∈ branchOf ct p) : p ≤ b := by
  induction b using Nat.strong_induction_on with
  | _ b ih =>
    rcases mem_branchOf hb hm with rfl | ⟨s, h1, q, h2, h3, _⟩
    · exact le_rfl
    · have := h.step h2
      have := ih s (by omega) h1
      omega

theorem ClBin.kids (hb : ClBin ct) {c d : ℕ} (hd : CStep ct c d) :
    ∃ a, CStep ct c a ∧ CStep ct c (a + 1) ∧ ∀ x, CStep ct c x → x = a ∨ x = a + 1 := by
  have hm : ∀ r, r ∈ (ct.filter fun row => decide (row.parent = c)) ↔ r ∈ ct ∧ r.parent = c := by
    intro r; rw [List.mem_filter, decide_eq_true_eq]
  obtain ⟨r, h1, h2, h3⟩ := hd
  rcases hb c with h | ⟨a, lv, s, t, h⟩
  · have := (hm r).2 ⟨h1, h2⟩
    rw [h] at this; cases this
  · rw [h] at hm
    refine ⟨a, ⟨_, ((hm _).1 (List.mem_cons_self ..)).1, rfl, rfl⟩,
      ⟨_, ((hm _).1 (List.mem_cons_of_mem _ (List.mem_cons_self ..))).1, rfl, rfl⟩, ?_⟩
    rintro x ⟨r', h4, h5, rfl⟩
    have := (hm r').2 ⟨h4, h5⟩
    simp only [List.mem_cons, List.not_mem_nil, or_false] at this
    rcases this with rfl | rfl <;> simp

/-- From two siblings the walk did not reach, a leaf cluster it did not reach, nor anything between. -/
theorem ClTree.pair_missed (h : ClTree n k ct) (hb : ClBin ct) {p : ℕ} (m a c : ℕ) (hma : n + k - a ≤ m) (h1 : CStep ct c a)
    (h2 : CStep ct c (a + 1)) (hp : ¬ CDesc ct a p) (hp' : ¬ CDesc ct (a + 1) p) (hna : a ∉ branchOf ct p)
    (hna' : a + 1 ∉ branchOf ct p) :
    ∃ x, (x = a ∨ x = a + 1) ∧ ∃ l, CDesc ct x l ∧ (∀ d, ¬ CStep ct l d) ∧
      ∀ s, CDesc ct x s → CDesc ct s l → s ∉ branchOf ct p := by
  induction m generalizing a c with
  | zero => have := h.step h1; omega
  | succ m ih =>
    by_cases ha : ∃ d, CStep ct a d
    · by_cases ha' : ∃ d, CStep ct (a + 1) d
      · obtain ⟨d, hd⟩ := ha'
        obtain ⟨b, hb1, hb2, hb3⟩ := hb.kids hd
        have hmiss : ∀ x, CStep ct (a + 1) x → x ∉ branchOf ct p := by
          intro x hx hm
          rcases mem_branchOf hb hm with rfl | ⟨s, g1, q, g2, g3, g4⟩
          · exact hp' (Relation.ReflTransGen.single hx)
          · have := h.step_unique g2 hx
            subst this
            rcases g3.eq_or_lt with g5 | g5
            · rw [g5] at g1; exact hna' g1
            · obtain ⟨d', hd'⟩ := ha
              exact g4 a (by omega) (by omega) d' hd'
        have hlt := h.step hb1
        obtain ⟨x, hx, l, g1, g2, g3⟩ := ih b (a + 1) (by omega) hb1 hb2
          (fun g => hp' (Relation.ReflTransGen.head hb1 g)) (fun g => hp' (Relation.ReflTransGen.head hb2 g))
          (hmiss b hb1) (hmiss (b + 1) hb2)
        have hxs : CStep ct (a + 1) x := by rcases hx with rfl | rfl <;> assumption
        refine ⟨a + 1, .inr rfl, l, Relation.ReflTransGen.head hxs g1, g2, fun s hs hsl => ?_⟩
        rcases desc_cases hs with rfl | ⟨y, hy, hys⟩
        · exact hna'
        · have := h.kids_disjoint hy (mem_kidsOf.2 hxs) (hys.trans hsl) g1
          subst this
          exact g3 s hys hsl
      · refine ⟨a + 1, .inr rfl, a + 1, .refl, fun d hd => ha' ⟨d, hd⟩, fun s hs hsl => ?_⟩
        rw [h.desc_antisymm hsl hs]; exact hna'
    · refine ⟨a, .inl rfl, a, .refl, fun d hd => ha ⟨d, hd⟩, fun s hs hsl => ?_⟩
      rw [h.desc_antisymm hsl hs]; exact hna

/-- The walk from a splitting cluster other than the top one misses a leaf cluster, and everything above it, in the branch of
the top cluster it does not belong to. -/
theorem ClTree.branch_missed (h : ClTree n k ct) (hb : ClBin ct) {p t x : ℕ} (hpn : n < p) (hpx : CStep ct p x)
    (ht : CStep ct n t) (hpt : ¬ CDesc ct t p) :
    ∃ l, CDesc ct t l ∧ (∀ d, ¬ CStep ct l d) ∧ ∀ s, CDesc ct t s → CDesc ct s l → s ∉ branchOf ct p := by
  have hpr := h.step hpx
  -- the two children of the top cluster are n+1 and n+2
  obtain ⟨a, ha1, ha2, ha3⟩ := hb.kids ht
  have han : a = n + 1 := by
    have h1 := h.step ha1
    obtain ⟨row, hr, hc⟩ := h.row_of (c := n + 1) (by omega) (by omega)
    have h2 := h.par row hr
    rcases ha3 (n + 1) ⟨row, hr, by omega, hc⟩ with h3 | h3 <;> omega
  subst han
  have htr := h.step ht
  have htle : t ≤ n + 2 := by rcases ha3 t ht with h1 | h1 <;> omega
  have hge : ∀ {s}, s ∈ branchOf ct p → s = p ∨ n + 2 < s := by
    intro s hs
    rcases mem_branchOf hb hs with h1 | ⟨s', h1, q, h2, h3, _⟩
    · exact .inl h1
    · right
      have := h.branchOf_ge hb h1
      by_contra hle
      have h4 := h.step h2
      have : CStep ct n s := by
        have : s = n + 1 ∨ s = n + 2 := by omega
        rcases this with rfl | rfl
        · exact ha1
        · exact ha2
      have := h.step_unique h2 this
      omega
  have htm : t ∉ branchOf ct p := by
    intro hm
    rcases hge hm with rfl | h1
    · exact hpt .refl
    · omega
  by_cases hleaf : ∃ d, CStep ct t d
  · obtain ⟨d, hd⟩ := hleaf
    obtain ⟨b, hb1, hb2, hb3⟩ := hb.kids hd
    have hmiss : ∀ y, CStep ct t y → y ∉ branchOf ct p := by
      intro y hy hm
      rcases mem_branchOf hb hm with rfl | ⟨s, g1, q, g2, g3, g4⟩
      · exact hpt (Relation.ReflTransGen.single hy)
      · have := h.step_unique g2 hy
        subst this
        rcases hge g1 with rfl | g5
        · rcases g3.eq_or_lt with g6 | g6
          · rw [g6] at hpt; exact hpt .refl
          · exact g4 s le_rfl g6 x hpx
        · omega
    obtain ⟨y, hy, l, g1, g2, g3⟩ := h.pair_missed hb (p := p) (n + k - b) b t le_rfl hb1 hb2
      (fun g => hpt (Relation.ReflTransGen.head hb1 g)) (fun g => hpt (Relation.ReflTransGen.head hb2 g))
      (hmiss b hb1) (hmiss (b + 1) hb2)
    have hys : CStep ct t y := by rcases hy with rfl | rfl <;> assumption
    refine ⟨l, Relation.ReflTransGen.head hys g1, g2, fun s hs hsl => ?_⟩
    rcases desc_cases hs with rfl | ⟨z, hz, hzs⟩
    · exact htm
    · have := h.kids_disjoint hz (mem_kidsOf.2 hys) (hzs.trans hsl) g1
      subst this
      exact g3 s hzs hsl
  · refine ⟨t, .refl, fun d hd => hleaf ⟨d, hd⟩, fun s hs hsl => ?_⟩
    rw [h.desc_antisymm hsl hs]; exact htm

/-- The epsilon search never returns a single cluster other than the top one, if every leaf cluster was covered. -/
theorem ClTree.eps_single (h : ClTree n k ct) (hb : ClBin ct) (hk : 1 < k) (close : L → Bool) (sel : List ℕ)
    (hr : ∀ s ∈ sel, n < s ∧ s < n + k) (hnn : NonNested ct sel)
    (hcov : ∀ l, n ≤ l → l < n + k → (∀ d, ¬ CStep ct l d) → ∃ s ∈ sel, CDesc ct s l)
    {st : List ℕ × List ℕ} (hi : EpsInv n close ct sel st) {o : ℕ} (ho : st.1 = [o]) : o = n := by
  by_contra hon
  have hom : ∀ y ∈ st.1, y = o := by rw [ho]; simp
  have hmem : o ∈ st.1 := by rw [ho]; simp
  -- the top cluster splits
  obtain ⟨row, hrow, hc⟩ := h.row_of (c := n + 1) (by omega) (by omega)
  have hp := h.par row hrow
  have hstep : CStep ct n (n + 1) := ⟨row, hrow, by omega, hc⟩
  obtain ⟨a, ha1, ha2, ha3⟩ := hb.kids hstep
  have hrange : n ≤ o ∧ o < n + k := by
    rcases hi.out o hmem with h1 | ⟨s, h1, h2⟩
    · have := hr o h1.1; omega
    · have := h.climbed_lt h2
      have := hr s h1
      omega
  -- the branch without `o`
  obtain ⟨t, ht, hto⟩ : ∃ t, CStep ct n t ∧ ¬ CDesc ct t o := by
    by_cases h1 : CDesc ct a o
    · refine ⟨a + 1, ha2, fun h2 => ?_⟩
      have := h.kids_disjoint (mem_kidsOf.2 ha1) (mem_kidsOf.2 ha2) h1 h2
      omega
    · exact ⟨a, ha1, h1⟩
  have htr := h.step ht
  have hbelow : ∀ {s l}, s ∈ sel → CDesc ct t l → CDesc ct s l → CDesc ct t s := by
    intro s l hs htl hsl
    rcases h.comparable htl hsl with h1 | h1
    · exact h1
    · rcases Relation.ReflTransGen.cases_tail h1 with h2 | ⟨e, h2, h3⟩
      · rw [h2]; exact .refl
      · have := h.step_unique h3 ht
        subst this
        have := h.desc_le h2
        have := hr s hs
        omega
  rcases hi.out o hmem with ⟨h1, h2⟩ | ⟨s0, h1, h2⟩
  · -- a leaf of that branch
    have hleaf : ∃ l, CDesc ct t l ∧ ∀ d, ¬ CStep ct l d := by
      have : ∀ m c, n + k - c ≤ m → c < n + k → ∃ l, CDesc ct c l ∧ ∀ d, ¬ CStep ct l d := by
        intro m
        induction m with
        | zero => intro c g1 g2; omega
        | succ m ih =>
          intro c g1 g2
          by_cases hd : ∃ d, CStep ct c d
          · obtain ⟨d, hd⟩ := hd
            have := h.step hd
            obtain ⟨l, g3, g4⟩ := ih d (by omega) (by omega)
            exact ⟨l, Relation.ReflTransGen.head hd g3, g4⟩
          · exact ⟨c, .refl, fun d hd' => hd ⟨d, hd'⟩⟩
      exact this _ t le_rfl htr.2.2
    obtain ⟨l, h3, h4⟩ := hleaf
    have hlr := h.desc_range h3 (by omega) htr.2.2
    obtain ⟨s, h5, h6⟩ := hcov l hlr.1 hlr.2 h4
    have h7 := hbelow h5 h3 h6
    by_cases h8 : BornClose close ct s
    · obtain ⟨p, g1, ⟨s', g2, g3⟩, _⟩ := hi.near s h5 h8
      rw [hom p g1] at g3
      have := hnn o h1 s' g2 g3.desc
      have := h.climbed_lt g3
      omega
    · rw [hom s (hi.far s h5 h8)] at h7
      exact hto h7
  · obtain ⟨⟨x, hx, _⟩, _⟩ := id h2
    obtain ⟨l, h3, h4, h5⟩ := h.branch_missed hb (by omega) hx ht hto
    have hlr := h.desc_range h3 (by omega) htr.2.2
    obtain ⟨s, h6, h7⟩ := hcov l hlr.1 hlr.2 h4
    have h8 := hbelow h6 h3 h7
    by_cases h9 : BornClose close ct s
    · obtain ⟨p, g1, _, g3⟩ := hi.near s h6 h9
      rw [hom p g1] at g3
      exact h5 s h8 h7 g3
    · rw [hom s (hi.far s h6 h9)] at h8
      exact hto h8

end Verif
