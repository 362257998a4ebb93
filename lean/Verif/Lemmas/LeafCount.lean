import Verif.Lemmas.CondFacts
import Verif.Lemmas.LinkHier
import Verif.Spec.Selection
import Mathlib.Data.Finset.Card
import Mathlib.Order.Interval.Finset.Nat

/-!
# How many clusters the condensed tree has
-/

namespace Verif
variable {W S L : Type*}

section
variable [LinearOrder S] {H : Hier W S} {wt : ℕ → S} {mcs : S} [One S] {lam : W → L} {rows : List (CRow L S)} {k : ℕ}
  {relabel top : ℕ → ℕ}

/-- The rows of the hierarchy that join two parts of at least the minimum cluster size. -/
def Hier.splitRows (H : Hier W S) (wt : ℕ → S) (mcs : S) : Finset ℕ :=
  (Finset.range H.m).filter fun i => mcs ≤ H.count wt (H.l i) ∧ mcs ≤ H.count wt (H.r i)

omit [One S] in
theorem mem_splitRows {i : ℕ} : i ∈ H.splitRows wt mcs ↔
    i < H.m ∧ mcs ≤ H.count wt (H.l i) ∧ mcs ≤ H.count wt (H.r i) := by
  unfold Hier.splitRows; rw [Finset.mem_filter, Finset.mem_range]

omit [One S] in
theorem splitRows_alive (hh : CondHyp H wt mcs) {i : ℕ} (hi : i ∈ H.splitRows wt mcs) :
    H.Alive wt mcs (H.n + i) ∧ H.Split wt mcs none (H.n + i) ∧ H.IsKid (H.n + i) (H.l i) ∧ H.IsKid (H.n + i) (H.r i) := by
  have hre := H.root_eq
  obtain ⟨h1, h2, h3⟩ := mem_splitRows.1 hi
  have e : H.n + i - H.n = i := by omega
  have hk : H.IsKid (H.n + i) (H.l i) := ⟨by omega, by omega, .inl (by rw [e])⟩
  refine ⟨⟨by omega, by omega, .inr (h2.trans (hh.mono _ _ hk))⟩, split_of_none (by rw [e]; exact h2) (by rw [e]; exact h3), hk,
    by omega, by omega, .inr (by rw [e])⟩

theorem CondRes.cluster_ids (hh : CondHyp H wt mcs) (h : CondRes H wt mcs none lam rows k relabel top) :
    Finset.Ico (H.n + 1) (H.n + k) = (H.splitRows wt mcs).image (fun i => relabel (H.l i)) ∪
      (H.splitRows wt mcs).image (fun i => relabel (H.r i)) := by
  have hct := h.condTree
  ext c
  simp only [Finset.mem_Ico, Finset.mem_union, Finset.mem_image]
  constructor
  · rintro ⟨h1, h2⟩
    obtain ⟨row, hrow, rfl⟩ := List.mem_map.1 ((hct.children c).2 (.inr ⟨by omega, h2⟩))
    obtain ⟨_, _, v, hv, hk, _, _, _, _, hs⟩ := h.rows_cl row hrow (by omega)
    have ht := (h.tops row.child (by omega) h2).2
    have hm : v - H.n ∈ H.splitRows wt mcs := mem_splitRows.2 ⟨by have := hk.1; have := hk.2.1; omega, hs.1, hs.2.1⟩
    rcases hk.2.2 with e | e
    · exact .inl ⟨_, hm, by rw [← e]; exact ht⟩
    · exact .inr ⟨_, hm, by rw [← e]; exact ht⟩
  · have key : ∀ i ∈ H.splitRows wt mcs, ∀ a, H.IsKid (H.n + i) a → mcs ≤ H.count wt a →
        H.n + 1 ≤ relabel a ∧ relabel a < H.n + k := by
      intro i hi a hk ha
      obtain ⟨h1, h2, _⟩ := splitRows_alive hh hi
      have hal := (alive_kid_iff hh hk).2 ha
      refine ⟨?_, (h.lab a hal).2.1⟩
      rcases h.kid_label hh h1 hk hal with ⟨h3, _⟩ | ⟨_, _, row, hr, hp, hc, _⟩
      · exact absurd h2 h3
      · have := hct.down row hr (by rw [hc]; exact (h.lab a hal).1)
        have := (hct.parents row hr).1
        omega
    rintro (⟨i, hi, rfl⟩ | ⟨i, hi, rfl⟩)
    · exact key i hi _ (splitRows_alive hh hi).2.2.1 (mem_splitRows.1 hi).2.1
    · exact key i hi _ (splitRows_alive hh hi).2.2.2 (mem_splitRows.1 hi).2.2

theorem CondRes.top_kid (hh : CondHyp H wt mcs) (h : CondRes H wt mcs none lam rows k relabel top) {i : ℕ}
    (hi : i ∈ H.splitRows wt mcs) : top (relabel (H.l i)) = H.l i ∧ top (relabel (H.r i)) = H.r i := by
  obtain ⟨h1, h2, _⟩ := splitRows_alive hh hi
  have := h.two _ h1 h2
  rw [show H.n + i - H.n = i by omega] at this
  exact ⟨this.2.2.2.1, this.2.2.2.2.1⟩

/-- The number of clusters. -/
theorem CondRes.card_clusters (hh : CondHyp H wt mcs) (h : CondRes H wt mcs none lam rows k relabel top) :
    k = 1 + 2 * (H.splitRows wt mcs).card := by
  have hv := hh.valid
  have hk := h.k_odd
  have hc := congrArg Finset.card (h.cluster_ids hh)
  rw [Finset.card_union_of_disjoint, Finset.card_image_of_injOn, Finset.card_image_of_injOn, Nat.card_Ico] at hc
  · omega
  · intro i hi j hj e
    have e := congrArg top e
    simp only at e
    rw [(h.top_kid hh hi).2, (h.top_kid hh hj).2] at e
    exact hv.rr i j (mem_splitRows.1 hi).1 (mem_splitRows.1 hj).1 e
  · intro i hi j hj e
    have e := congrArg top e
    simp only at e
    rw [(h.top_kid hh hi).1, (h.top_kid hh hj).1] at e
    exact hv.ll i j (mem_splitRows.1 hi).1 (mem_splitRows.1 hj).1 e
  · rw [Finset.disjoint_left]
    intro c h1 h2
    obtain ⟨i, hi, rfl⟩ := Finset.mem_image.1 h1
    obtain ⟨j, hj, e⟩ := Finset.mem_image.1 h2
    have e := congrArg top e
    rw [(h.top_kid hh hi).1, (h.top_kid hh hj).2] at e
    exact hv.lr i j (mem_splitRows.1 hi).1 (mem_splitRows.1 hj).1 e.symm

theorem CondRes.not_childless_iff (hh : CondHyp H wt mcs) (h : CondRes H wt mcs none lam rows k relabel top) {c : ℕ} :
    ¬ Childless H.n rows c ↔ ∃ i ∈ H.splitRows wt mcs, relabel (H.n + i) = c := by
  unfold Childless
  push Not
  constructor
  · rintro ⟨row, hrow, rfl, h1⟩
    obtain ⟨_, _, v, hv, hk, hp, _, _, _, hs⟩ := h.rows_cl row hrow h1
    have h1 := hk.1
    have h2 := hk.2.1
    refine ⟨v - H.n, mem_splitRows.2 ⟨by omega, hs.1, hs.2.1⟩, ?_⟩
    rw [show H.n + (v - H.n) = v by omega, hp]
  · rintro ⟨i, hi, rfl⟩
    obtain ⟨h1, h2, hk, _⟩ := splitRows_alive hh hi
    have := h.two _ h1 h2
    obtain ⟨_, _, _, _, _, h6, _⟩ := this
    refine ⟨_, h6, rfl, ?_⟩
    rw [show H.n + i - H.n = i by omega]
    exact (h.lab _ ((alive_kid_iff hh hk).2 (mem_splitRows.1 hi).2.1)).1

open Classical in
/-- The number of clusters without child clusters. -/
theorem CondRes.card_leaves (hh : CondHyp H wt mcs) (h : CondRes H wt mcs none lam rows k relabel top) :
    ((Finset.Ico H.n (H.n + k)).filter fun c => Childless H.n rows c).card = 1 + (H.splitRows wt mcs).card := by
  have hk := h.card_clusters hh
  have h1 : ((Finset.Ico H.n (H.n + k)).filter fun c => ¬ Childless H.n rows c) =
      (H.splitRows wt mcs).image fun i => relabel (H.n + i) := by
    ext c
    rw [Finset.mem_filter, h.not_childless_iff hh, Finset.mem_image, Finset.mem_Ico]
    constructor
    · exact fun h1 => h1.2
    · rintro ⟨i, hi, rfl⟩
      have := h.lab _ (splitRows_alive hh hi).1
      exact ⟨⟨this.1, this.2.1⟩, i, hi, rfl⟩
  have h2 : ((H.splitRows wt mcs).image fun i => relabel (H.n + i)).card = (H.splitRows wt mcs).card := by
    refine Finset.card_image_of_injOn fun i hi j hj e => ?_
    obtain ⟨a1, a2, _⟩ := splitRows_alive hh hi
    obtain ⟨b1, b2, _⟩ := splitRows_alive hh hj
    have := h.split_unique hh a1 b1 a2 b2 e
    omega
  have h3 := Finset.card_filter_add_card_filter_not (s := Finset.Ico H.n (H.n + k)) (fun c => Childless H.n rows c)
  rw [h1, h2, Nat.card_Ico] at h3
  omega

end
end Verif
