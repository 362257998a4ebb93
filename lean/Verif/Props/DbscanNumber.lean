import Verif.Props.Denser
import Mathlib.Algebra.Order.BigOperators.Group.Finset

/-!
# C118: the number of clusters of `dbscan_clustering`
-/

namespace Verif
variable {W S : Type*} [LinearOrder W]

open Classical in
/-- **C118** for `dbscan_clustering`: every cluster has at least the minimum size many rows, so there are at most `n / size` clusters; for every linkage table whose rows refer to earlier nodes
and every `eps`. -/
theorem C118_dbscan (rows : List (LRow W S))
    (hr : ∀ i row, rows[i]? = some row → row.l < rows.length + 1 + i ∧ row.r < rows.length + 1 + i) (cut : W) (mcs : ℕ) :
    (∀ l ∈ cutLabels rows cut mcs, l ≠ -1 → mcs ≤ (cutLabels rows cut mcs).count l) ∧
      mcs * ((cutLabels rows cut mcs).toFinset.filter (· ≠ -1)).card ≤ rows.length + 1 := by
  obtain ⟨h0, lab, k, h1, h2, h3, h4, h5⟩ := cutLabels_spec (rows := rows) hr cut mcs
  have hlist : cutLabels rows cut mcs = (List.range (rows.length + 1)).map lab := by
    refine List.ext_getElem? fun i => ?_
    by_cases hi : i < rows.length + 1
    · rw [h1 i hi, List.getElem?_map, List.getElem?_range hi]; rfl
    · rw [List.getElem?_eq_none (by omega), List.getElem?_eq_none (by simp; omega)]
  have hfib : ∀ i, i < rows.length + 1 → lab i ≠ -1 → mcs ≤ ((Finset.range (rows.length + 1)).filter fun j => lab j = lab i).card := fun i hi hne => by
    have := hne
    rw [Ne, h5 i hi, not_lt] at this
    refine this.trans (Finset.card_le_card fun j hj => ?_)
    obtain ⟨hj, hc⟩ := Finset.mem_filter.1 hj
    exact Finset.mem_filter.2 ⟨hj, ((h4 i j hi (Finset.mem_range.1 hj) hne).2 hc).symm⟩
  have hcount : ∀ l, ((List.range (rows.length + 1)).map lab).count l = ((Finset.range (rows.length + 1)).filter fun j => lab j = l).card := fun l => by
    rw [List.count, List.countP_map, List.countP_eq_length_filter, ← List.toFinset_card_of_nodup (List.Nodup.filter _ List.nodup_range)]
    congr 1
    ext j
    simp
  rw [hlist]
  refine ⟨fun l hl hne => ?_, ?_⟩
  · obtain ⟨i, hi, rfl⟩ := List.mem_map.1 hl
    rw [hcount]
    exact hfib i (List.mem_range.1 hi) hne
  · set s := (Finset.range (rows.length + 1)).filter fun i => lab i ≠ -1 with hs
    have := Finset.mul_card_image_le_card_of_maps_to (s := s) (f := lab) (t := ((List.range (rows.length + 1)).map lab).toFinset.filter (· ≠ -1))
      (fun i hi => ?_) mcs fun l hl => ?_
    · refine this.trans ((Finset.card_filter_le _ _).trans_eq (Finset.card_range _))
    · obtain ⟨hi, hne⟩ := Finset.mem_filter.1 hi
      exact Finset.mem_filter.2 ⟨List.mem_toFinset.2 (List.mem_map.2 ⟨i, List.mem_range.2 (Finset.mem_range.1 hi), rfl⟩), hne⟩
    · obtain ⟨hl, hne⟩ := Finset.mem_filter.1 hl
      obtain ⟨i, hi, rfl⟩ := List.mem_map.1 (List.mem_toFinset.1 hl)
      refine (hfib i (List.mem_range.1 hi) hne).trans (Finset.card_le_card fun j hj => ?_)
      obtain ⟨hj, he⟩ := Finset.mem_filter.1 hj
      exact Finset.mem_filter.2 ⟨Finset.mem_filter.2 ⟨hj, by rw [he]; exact hne⟩, he⟩

/-- **C118** for `dbscan_clustering` after the linkage of any spanning tree, whatever the weights. -/
theorem C118_dbscan_tree [AddCommMonoid S] {n : ℕ} (hn : 0 < n) {t : List (Edge W)} (ht : SpanningTree n t) (wt : ℕ → S) (eps : W) (mcs : ℕ) :
    let labels := cutLabels (mstToLinkage wt (lexsortMst t)) eps mcs
    (∀ l ∈ labels, l ≠ -1 → mcs ≤ labels.count l) ∧ mcs * (labels.toFinset.filter (· ≠ -1)).card ≤ n := by
  have ht' := ht.perm (lexsortMst_perm t)
  have hl := ht'.length hn
  set es := lexsortMst t with hes
  subst hl
  have h := linkage_fold_inv wt ht'.inRange ht'.acyclic le_rfl
  have hlen : (mstToLinkage wt es).length = es.length := h.len
  have holder : RowsOlder ((mstToLinkage wt es).length + 1) (mstToLinkage wt es) := by
    rw [hlen]; exact h.older
  have key := C118_dbscan (mstToLinkage wt es) holder.toBelow eps mcs
  rw [hlen] at key
  refine ⟨key.1, ?_⟩
  convert key.2

/-- Case: eight rows in two groups, cut at 5 with a minimum size of 4: two clusters, as many as the bound allows. -/
example : 4 * ((cutLabels (mstToLinkage (fun _ => (1 : ℕ)) (lexsortMst (kruskalBrute 8 1 (onLine exSparse) CLParams.none))) ((5 : ℚ) : WithTop ℚ) 4).toFinset.filter (· ≠ -1)).card ≤ 8 :=
  (C118_dbscan_tree (by decide) (kruskalBrute_msf (by decide) (onLine_comm exSparse)).1 _ _ 4).2

example : cutLabels (mstToLinkage (fun _ => (1 : ℕ)) (lexsortMst (kruskalBrute 8 1 (onLine exSparse) CLParams.none))) ((5 : ℚ) : WithTop ℚ) 4 = [0, 0, 0, 0, 1, 1, 1, 1] := by
  decide +kernel

end Verif
