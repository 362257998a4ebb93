import Verif.Lemmas.LeafCount
import Verif.Lemmas.CondOrder
import Verif.Spec.LeafCount
import Verif.Props.Select
import Verif.Props.Condense

/-!
# C64: the number of leaf clusters
-/

namespace Verif
variable {W S L : Type*}

theorem CondTree.step_unique {n k : ℕ} {rows : List (CRow L S)} (h : CondTree n k rows) {a b x : ℕ} (ha : CStep rows a x)
    (hb : CStep rows b x) : a = b := by
  obtain ⟨r, h1, rfl, h2⟩ := ha
  obtain ⟨r', h3, rfl, h4⟩ := hb
  rw [List.inj_on_of_nodup_map h.nodup h1 h3 (h2.trans h4.symm)]

theorem CondTree.desc_comparable {n k : ℕ} {rows : List (CRow L S)} (h : CondTree n k rows) {a b x : ℕ} (ha : CDesc rows a x)
    (hb : CDesc rows b x) : CDesc rows a b ∨ CDesc rows b a := by
  induction ha generalizing b with
  | refl => exact .inr hb
  | tail h1 h2 ih =>
    rcases Relation.ReflTransGen.cases_tail hb with h3 | ⟨c, h3, h4⟩
    · subst h3; exact .inl (h1.tail h2)
    · rw [← h.step_unique h2 h4] at h3; exact ih h3

section
variable [AddCommMonoid S] [One S] [LinearOrder S] [IsOrderedAddMonoid S] [Inhabited W] [Inhabited S]

omit [One S] [IsOrderedAddMonoid S] in
theorem Dendrogram.count_weight {n : ℕ} {wt : ℕ → S} {rows : List (LRow W S)} (h : Dendrogram n wt rows) {v : ℕ}
    (hv : v ≤ (Hier.ofRows rows).root) : (Hier.ofRows rows).count wt v = weightBelow n wt rows v := by
  classical
  rw [h.count_eq hv, weightBelow]
  congr 1
  apply Finset.filter_congr
  intro x hx
  rw [below_iff_sub h.hier_n]
  exact ⟨fun h => ⟨Finset.mem_range.1 hx, h⟩, fun h => h.2⟩

omit [One S] [IsOrderedAddMonoid S] in
theorem Dendrogram.card_splitRows {n : ℕ} {wt : ℕ → S} {rows : List (LRow W S)} (h : Dendrogram n wt rows) (mcs : S) :
    ((Hier.ofRows rows).splitRows wt mcs).card = bigMerges n wt rows mcs := by
  classical
  unfold bigMerges
  congr 1
  ext i
  have hre := (Hier.ofRows rows).root_eq
  have hm : (Hier.ofRows rows).m = rows.length := rfl
  rw [mem_splitRows, Finset.mem_filter, Finset.mem_range, hm]
  refine and_congr_right fun hi => ?_
  have hg : rows[i]? = some rows[i] := List.getElem?_eq_getElem hi
  have hlt := h.lt i _ hg
  have hn := h.hier_n
  rw [Hier.ofRows_l hg, Hier.ofRows_r hg, h.count_weight (by omega), h.count_weight (by omega), BigMerge, hg]
  simp

/-- **C64.**  For every dendrogram, weights and `min_cluster_size` above every weight and above 1: the number of leaf clusters is one more
than the number of merges of two parts of at least `min_cluster_size`. -/
theorem C64_leaf_count (n : ℕ) (hn : 2 ≤ n) (wt : ℕ → S) (rows : List (LRow W S)) (h : Dendrogram n wt rows) (mcs : S)
    (h1 : 1 < mcs) (h0 : ∀ x, x < n → 0 ≤ wt x) (hl : ∀ x, x < n → wt x < mcs) (lam : W → L) :
    ∃ leaves, extractLeaves (condenseTree (Hier.ofRows rows) wt mcs none lam) = some leaves ∧ leaves.Nodup ∧
      leaves.length = 1 + bigMerges n wt rows mcs := by
  classical
  have hm : 0 < (Hier.ofRows rows).m := by
    have := h.length; change 0 < rows.length; omega
  have hh := h.condHyp h0 hl
  have hN := h.hier_n
  obtain ⟨k, relabel, top, hr⟩ := condense_res (mx := none) hh hm lam
  have hct := hr.condTree
  have hcard := hr.card_leaves hh
  rw [hN] at hct hcard
  obtain ⟨k', hct', _, hsz⟩ := C17_condensed_clusters_real n hn wt rows h mcs h0 hl lam
  obtain ⟨sel, g1, g2, _, g4⟩ := C20_extract_leaves _ hct (fun row hrow => by
    constructor
    · intro h2
      by_contra h3
      rw [(hsz row hrow).1 (by omega)] at h2
      exact lt_irrefl _ h2
    · intro h2
      exact h1.trans_le ((hsz row hrow).2 h2).1) (fun c h2 h3 => hr.full hh (by omega) (by omega))
  have hnd : sel.Nodup := g2.imp fun h => h.ne
  refine ⟨sel, g1, hnd, ?_⟩
  rw [← h.card_splitRows, ← hcard, ← List.toFinset_card_of_nodup hnd]
  congr 1
  ext c
  rw [List.mem_toFinset, g4, Finset.mem_filter, Finset.mem_Ico, and_assoc]

omit [One S] [IsOrderedAddMonoid S] [Inhabited W] [Inhabited S] in
theorem bigMerges_anti (n : ℕ) (wt : ℕ → S) (rows : List (LRow W S)) {s t : S} (hst : s ≤ t) :
    bigMerges n wt rows t ≤ bigMerges n wt rows s := by
  classical
  refine Finset.card_le_card fun i hi => ?_
  rw [Finset.mem_filter] at hi ⊢
  obtain ⟨h1, row, h2, h3, h4⟩ := hi
  exact ⟨h1, row, h2, hst.trans h3, hst.trans h4⟩

/-- **C64.**  A larger `min_cluster_size` never gives more leaf clusters. -/
theorem C64_fewer_clusters (n : ℕ) (hn : 2 ≤ n) (wt : ℕ → S) (rows : List (LRow W S)) (h : Dendrogram n wt rows) (mcs mcs' : S)
    (hle : mcs ≤ mcs') (h1 : 1 < mcs) (h0 : ∀ x, x < n → 0 ≤ wt x) (hl : ∀ x, x < n → wt x < mcs) (lam : W → L) (leaves leaves' : List ℕ)
    (e : extractLeaves (condenseTree (Hier.ofRows rows) wt mcs none lam) = some leaves)
    (e' : extractLeaves (condenseTree (Hier.ofRows rows) wt mcs' none lam) = some leaves') : leaves'.length ≤ leaves.length := by
  obtain ⟨l, g1, _, g2⟩ := C64_leaf_count n hn wt rows h mcs h1 h0 hl lam
  obtain ⟨l', g1', _, g2'⟩ := C64_leaf_count n hn wt rows h mcs' (h1.trans_le hle) h0 (fun x hx => (hl x hx).trans_le hle) lam
  obtain rfl := Option.some.inj (e.symm.trans g1)
  obtain rfl := Option.some.inj (e'.symm.trans g1')
  have := bigMerges_anti n wt rows hle
  omega

/-- **C64.**  Clusters of at least `min_cluster_size` that do not overlap: their number times `min_cluster_size` is at most the total weight.
This holds for every selection without nesting and without the top cluster. -/
theorem C64_selection_bound (n : ℕ) (hn : 2 ≤ n) (wt : ℕ → S) (rows : List (LRow W S)) (h : Dendrogram n wt rows) (mcs : S)
    (h0 : ∀ x, x < n → 0 ≤ wt x) (hl : ∀ x, x < n → wt x < mcs) (lam : W → L) (sel : List ℕ) (hnd : sel.Nodup)
    (hnn : NonNested (condenseTree (Hier.ofRows rows) wt mcs none lam) sel)
    (hsel : ∀ c ∈ sel, n ≤ c ∧ ∃ row ∈ condenseTree (Hier.ofRows rows) wt mcs none lam, row.child = c) :
    sel.length • mcs ≤ (Finset.range n).sum wt := by
  classical
  obtain ⟨k, hct, _, hsz⟩ := C17_condensed_clusters_real n hn wt rows h mcs h0 hl lam
  set T := condenseTree (Hier.ofRows rows) wt mcs none lam
  have h1 : sel.toFinset.sum (fun _ => mcs) ≤
      sel.toFinset.sum fun c => ((Finset.range n).filter fun x => CDesc T c x).sum wt := by
    refine Finset.sum_le_sum fun c hc => ?_
    obtain ⟨h2, row, hr, rfl⟩ := hsel c (List.mem_toFinset.1 hc)
    have := (hsz row hr).2 h2
    exact this.1.trans_eq this.2
  rw [Finset.sum_const, List.toFinset_card_of_nodup hnd, ← Finset.sum_biUnion] at h1
  · refine h1.trans (Finset.sum_le_sum_of_subset_of_nonneg ?_ fun x hx _ => h0 x (Finset.mem_range.1 hx))
    intro x hx
    obtain ⟨c, _, hx⟩ := Finset.mem_biUnion.1 hx
    exact (Finset.mem_filter.1 hx).1
  · intro a ha b hb hab
    refine Finset.disjoint_left.2 fun x hxa hxb => hab ?_
    have ha := List.mem_toFinset.1 ha
    have hb := List.mem_toFinset.1 hb
    rcases hct.desc_comparable (Finset.mem_filter.1 hxa).2 (Finset.mem_filter.1 hxb).2 with h2 | h2
    · exact hnn a ha b hb h2
    · exact (hnn b hb a ha h2).symm

end
end Verif
