import Verif.Lemmas.Labels
import Verif.Props.Select

/-!
# Properties C26–C28: labels and membership strengths
-/

namespace Verif
variable {L S K : Type*} {n k : ℕ}

/-! ## C26 -/

section
variable [LinearOrder L] [Zero L]

/-- The test deciding whether a sample that is in no selected cluster but the top one is kept,
`cluster_selection_epsilon` given as `1 / epsilon` when positive: the sample leaves at `1 / epsilon` or later; without
epsilon, not before anything else leaves the top cluster. -/
def DenseEnough (n : ℕ) (rows : List (CRow L S)) (epsLam : Option L) (row : CRow L S) : Prop :=
  match epsLam with
  | some e => e ≤ row.lam
  | none => ∀ row' ∈ rows, row'.parent = n → row'.lam ≤ row.lam

theorem CondTree.labelOne_root {rows : List (CRow L S)} (h : CondTree n k rows) (hne : rows ≠ []) {sel : List ℕ}
    (hlen : sel.dedup.length = 1) (epsLam : Option L) {row : CRow L S} (hrow : row ∈ rows) :
    (DenseEnough n rows epsLam row → labelOne rows sel epsLam n n row.child = labelMap sel n) ∧
    (¬ DenseEnough n rows epsLam row → labelOne rows sel epsLam n n row.child = some (-1)) := by
  obtain ⟨row0, rest, hrows⟩ := List.exists_cons_of_ne_nil hne
  have hfirst : row0.parent = n := by
    rcases h.order 0 row0 (by rw [hrows]; rfl) with h1 | ⟨j, _, hj, _⟩
    · exact h1
    · omega
  have hfind : rows.find? (fun r => decide (r.child = row.child)) = some row := by
    cases hf : rows.find? (fun r => decide (r.child = row.child)) with
    | none =>
      rw [List.find?_eq_none] at hf
      exact absurd (decide_eq_true rfl) (hf row hrow)
    | some r =>
      have h1 := List.mem_of_find?_eq_some hf
      have h2 := List.find?_some hf
      rw [List.inj_on_of_nodup_map h.nodup h1 hrow (of_decide_eq_true h2)]
  have hmem0 : row0.lam ∈ (rows.filter fun r => decide (r.parent = n)).map CRow.lam :=
    List.mem_map_of_mem (List.mem_filter.2 ⟨by rw [hrows]; simp, decide_eq_true hfirst⟩)
  cases hm : ((rows.filter fun r => decide (r.parent = n)).map CRow.lam).max? with
  | none =>
    rw [List.max?_eq_none_iff] at hm
    rw [hm] at hmem0; simp at hmem0
  | some m =>
    rw [List.max?_eq_some_iff] at hm
    have hiff : m ≤ row.lam ↔ ∀ row' ∈ rows, row'.parent = n → row'.lam ≤ row.lam := by
      constructor
      · intro h1 r hr hp
        exact le_trans (hm.2 _ (List.mem_map_of_mem (List.mem_filter.2 ⟨hr, decide_eq_true hp⟩))) h1
      · intro h1
        obtain ⟨r, hr, rfl⟩ := List.mem_map.1 hm.1
        obtain ⟨h2, h3⟩ := List.mem_filter.1 hr
        exact h1 r h2 (of_decide_eq_true h3)
    rw [← List.max?_eq_some_iff] at hm
    unfold labelOne
    rw [if_neg (lt_irrefl _), if_pos rfl, if_pos hlen, hm, hfind]
    cases epsLam with
    | none =>
      simp only [DenseEnough, ← hiff]
      constructor
      · intro h1; rw [if_pos h1]
      · intro h1; rw [if_neg h1]
    | some e =>
      simp only [DenseEnough]
      constructor
      · intro h1; rw [if_pos h1]
      · intro h1; rw [if_neg h1]

/-- What `get_cluster_label_vector` assigns to one sample, for any duplicate-free non-nested selection. -/
theorem CondTree.label_cases {rows : List (CRow L S)} (h : CondTree n k rows) (hne : rows ≠ []) {sel : List ℕ}
    (hnd : sel.Nodup) (hsel : ∀ c ∈ sel, n ≤ c) (hnn : NonNested rows sel) (epsLam : Option L) {row : CRow L S}
    (hrow : row ∈ rows) (hc : row.child < n) :
    (row.lam = 0 → labelOne rows sel epsLam n (labRep rows sel n row.child) row.child = some (-1)) ∧
    (∀ s, row.lam ≠ 0 → s ∈ sel → s ≠ n → CDesc rows s row.child →
      labelOne rows sel epsLam n (labRep rows sel n row.child) row.child = labelMap sel s) ∧
    (row.lam ≠ 0 → (∀ s ∈ sel, CDesc rows s row.child → s = n) → labRep rows sel n row.child = n) := by
  refine ⟨fun hl => ?_, fun s hl hs hsn hd => ?_, fun hl hno => ?_⟩
  · rw [h.rep_zero hrow hc hl, labelOne, if_pos hc]
  · obtain ⟨h1, h2, h3, h4⟩ := h.rep_sample hsel hrow hc hl
    have h5 := h4 s hs hd
    have h6 : labRep rows sel n row.child = s := by
      rcases h3 with h3 | h3
      · rw [h3] at h5
        exfalso
        rcases Relation.ReflTransGen.cases_tail h5 with h6 | ⟨e, _, r, h7, _, h8⟩
        · exact hsn h6.symm
        · have := (h.children r.child).1 (List.mem_map_of_mem h7); omega
      · exact (hnn s hs _ h3 h5).symm
    have := hsel s hs
    rw [h6, labelOne, if_neg (by omega), if_neg hsn]
  · obtain ⟨h1, h2, h3, h4⟩ := h.rep_sample hsel hrow hc hl
    rcases h3 with h3 | h3
    · exact h3
    · exact hno _ h3 h1

theorem getElem?_mapRange {α : Type*} (g : ℕ → α) {n x : ℕ} (hx : x < n) : ((List.range n).map g)[x]? = some (g x) := by
  rw [List.getElem?_map, List.getElem?_range hx]; rfl

/-- **C26** (partial).  For every condensed tree and every non-nested selection not containing the top cluster: if at least two
clusters are selected, or no sample outside the one selected cluster passes the density test, labelling succeeds, and a
sample has label `i` exactly when it left at a positive lambda and the `i`-th selected cluster contains it; all others
have label -1.  Missing: one selected cluster and a sample outside it passing the test (`C26_key_error`). -/
theorem C26_label_is_selected_ancestor_partial (rows : List (CRow L S)) (h : CondTree n k rows) (hne : rows ≠ [])
    (sel : List ℕ) (hs : sel ≠ []) (hnd : sel.Nodup) (hsel : ∀ c ∈ sel, n < c) (hnn : NonNested rows sel)
    (epsLam : Option L)
    (hsafe : sel.length = 1 → ∀ row ∈ rows, row.child < n → row.lam ≠ 0 → (∀ s ∈ sel, ¬ CDesc rows s row.child) →
      ¬ DenseEnough n rows epsLam row) :
    ∃ labels, labelVector rows sel epsLam n = some labels ∧ labels.length = n ∧
      ∀ row ∈ rows, row.child < n →
        (∀ i : ℕ, labels[row.child]? = some (i : ℤ) ↔
          row.lam ≠ 0 ∧ ∃ s, (sortIds sel)[i]? = some s ∧ CDesc rows s row.child) ∧
        (labels[row.child]? = some (-1) ↔ row.lam = 0 ∨ ∀ s ∈ sel, ¬ CDesc rows s row.child) := by
  have hperm : (sortIds sel).Perm sel := List.perm_insertionSort _ sel
  have hcases := fun (row : CRow L S) (hrow : row ∈ rows) (hc : row.child < n) =>
    h.label_cases hne hnd (fun c hc => (hsel c hc).le) hnn epsLam hrow hc
  have hout : ∀ row ∈ rows, row.child < n → (row.lam = 0 ∨ ∀ s ∈ sel, ¬ CDesc rows s row.child) →
      labelOne rows sel epsLam n (labRep rows sel n row.child) row.child = some (-1) := by
    intro row hrow hc ho
    by_cases hl : row.lam = 0
    · exact (hcases row hrow hc).1 hl
    · have ho := ho.resolve_left hl
      rw [(hcases row hrow hc).2.2 hl fun s hs hd => absurd hd (ho s hs)]
      by_cases hlen : sel.length = 1
      · have hlen' : sel.dedup.length = 1 := by rw [hnd.dedup]; exact hlen
        exact (h.labelOne_root hne hlen' epsLam hrow).2 (hsafe hlen row hrow hc hl ho)
      · rw [labelOne, if_neg (lt_irrefl _), if_pos rfl, if_neg (by rw [hnd.dedup]; exact hlen)]
  have hin : ∀ row ∈ rows, row.child < n → row.lam ≠ 0 → ∀ (i s : ℕ), (sortIds sel)[i]? = some s →
      CDesc rows s row.child →
      labelOne rows sel epsLam n (labRep rows sel n row.child) row.child = some (i : ℤ) := by
    intro row hrow hc hl i s hi hd
    have hsm := hperm.mem_iff.1 (List.mem_of_getElem? hi)
    rw [(hcases row hrow hc).2.1 s hl hsm (hsel s hsm).ne' hd, labelMap_of_getElem hnd hi]
  have hsome : ∀ x ∈ List.range n, labelOne rows sel epsLam n (labRep rows sel n x) x =
      some ((labelOne rows sel epsLam n (labRep rows sel n x) x).getD 0) := by
    intro x hx
    obtain ⟨row, hrow, rfl⟩ := List.mem_map.1 ((h.children x).2 (.inl (List.mem_range.1 hx)))
    have hc := List.mem_range.1 hx
    by_cases ho : row.lam = 0 ∨ ∀ s ∈ sel, ¬ CDesc rows s row.child
    · rw [hout row hrow hc ho]; rfl
    · push Not at ho
      obtain ⟨hl, s, hsm, hd⟩ := ho
      obtain ⟨i, hi⟩ := List.mem_iff_getElem?.1 (hperm.mem_iff.2 hsm)
      rw [hin row hrow hc hl i s hi hd]; rfl
  refine ⟨_, (h.labelVector_eq hne hs epsLam).trans (mapM_of_some hsome), by simp, fun row hrow hc => ?_⟩
  rw [getElem?_mapRange _ hc, ← hsome _ (List.mem_range.2 hc)]
  constructor
  · intro i
    constructor
    · intro hi
      by_cases ho : row.lam = 0 ∨ ∀ s ∈ sel, ¬ CDesc rows s row.child
      · rw [hout row hrow hc ho, Option.some.injEq] at hi
        omega
      · push Not at ho
        obtain ⟨hl, s, hsm, hd⟩ := ho
        obtain ⟨j, hj⟩ := List.mem_iff_getElem?.1 (hperm.mem_iff.2 hsm)
        rw [hin row hrow hc hl j s hj hd, Option.some.injEq] at hi
        have : j = i := by omega
        subst this
        exact ⟨hl, s, hj, hd⟩
    · rintro ⟨hl, s, hi, hd⟩
      exact hin row hrow hc hl i s hi hd
  · constructor
    · intro hi
      by_contra ho
      push Not at ho
      obtain ⟨hl, s, hsm, hd⟩ := ho
      obtain ⟨j, hj⟩ := List.mem_iff_getElem?.1 (hperm.mem_iff.2 hsm)
      rw [hin row hrow hc hl j s hj hd, Option.some.injEq] at hi
      omega
    · exact hout row hrow hc

/-- **C26**, the top cluster alone selected: a sample has label 0 exactly when it left at a positive lambda and passes the
density test, otherwise -1. -/
theorem C26_top_cluster (rows : List (CRow L S)) (h : CondTree n k rows) (hne : rows ≠ []) (epsLam : Option L) :
    ∃ labels, labelVector rows [n] epsLam n = some labels ∧ labels.length = n ∧
      ∀ row ∈ rows, row.child < n →
        (labels[row.child]? = some 0 ↔ row.lam ≠ 0 ∧ DenseEnough n rows epsLam row) ∧
        (labels[row.child]? = some (-1) ↔ ¬ (row.lam ≠ 0 ∧ DenseEnough n rows epsLam row)) := by
  have hmap : labelMap [n] n = some 0 := by simp [labelMap, sortIds]
  have hnn : NonNested rows [n] := fun a ha b hb _ => by simp at ha hb; omega
  have hcases := fun (row : CRow L S) (hrow : row ∈ rows) (hc : row.child < n) =>
    h.label_cases hne (List.nodup_singleton n) (by simp) hnn epsLam hrow hc
  have hin : ∀ row ∈ rows, row.child < n → row.lam ≠ 0 → DenseEnough n rows epsLam row →
      labelOne rows [n] epsLam n (labRep rows [n] n row.child) row.child = some 0 := by
    intro row hrow hc hl hd
    rw [(hcases row hrow hc).2.2 hl (by simp), ← hmap]
    exact (h.labelOne_root hne (by simp) epsLam hrow).1 hd
  have hout : ∀ row ∈ rows, row.child < n → ¬ (row.lam ≠ 0 ∧ DenseEnough n rows epsLam row) →
      labelOne rows [n] epsLam n (labRep rows [n] n row.child) row.child = some (-1) := by
    intro row hrow hc ho
    by_cases hl : row.lam = 0
    · exact (hcases row hrow hc).1 hl
    · rw [(hcases row hrow hc).2.2 hl (by simp)]
      exact (h.labelOne_root hne (by simp) epsLam hrow).2 fun hd => ho ⟨hl, hd⟩
  have hsome : ∀ x ∈ List.range n, labelOne rows [n] epsLam n (labRep rows [n] n x) x =
      some ((labelOne rows [n] epsLam n (labRep rows [n] n x) x).getD 0) := by
    intro x hx
    obtain ⟨row, hrow, rfl⟩ := List.mem_map.1 ((h.children x).2 (.inl (List.mem_range.1 hx)))
    have hc := List.mem_range.1 hx
    by_cases ho : row.lam ≠ 0 ∧ DenseEnough n rows epsLam row
    · rw [hin row hrow hc ho.1 ho.2]; rfl
    · rw [hout row hrow hc ho]; rfl
  refine ⟨_, (h.labelVector_eq hne (by simp) epsLam).trans (mapM_of_some hsome), by simp, fun row hrow hc => ?_⟩
  rw [getElem?_mapRange _ hc, ← hsome _ (List.mem_range.2 hc)]
  by_cases ho : row.lam ≠ 0 ∧ DenseEnough n rows epsLam row
  · rw [hin row hrow hc ho.1 ho.2]
    exact ⟨by simp [ho], by simp [ho]⟩
  · rw [hout row hrow hc ho]
    exact ⟨by simp [ho], by simp [ho]⟩

/-- **C26 fails**: if exactly one cluster, not the top one, is selected and some sample outside it passes the density test,
labelling raises `KeyError`. -/
theorem C26_key_error (rows : List (CRow L S)) (h : CondTree n k rows) (c : ℕ) (hc : n < c)
    (epsLam : Option L) (row : CRow L S) (hrow : row ∈ rows) (hx : row.child < n) (hl : row.lam ≠ 0)
    (hd : ¬ CDesc rows c row.child) (hdense : DenseEnough n rows epsLam row) :
    labelVector rows [c] epsLam n = none := by
  have hne : rows ≠ [] := List.ne_nil_of_mem hrow
  rw [h.labelVector_eq hne (by simp)]
  apply mapM_of_none (List.mem_range.2 hx)
  have hnn : NonNested rows [c] := fun a ha b hb _ => by simp at ha hb; omega
  rw [(h.label_cases hne (List.nodup_singleton c) (by simp [hc.le]) hnn epsLam hrow hx).2.2 hl
    (fun s hs hs' => by simp at hs; subst hs; exact absurd hs' hd)]
  rw [(h.labelOne_root hne (by simp) epsLam hrow).1 hdense, labelMap, if_neg (by simp; omega)]

end

/-- Five samples, one cluster of three and one of two. -/
def exKey : List (CRow ℤ ℤ) :=
  [⟨5, 6, 1, 3⟩, ⟨5, 7, 1, 2⟩, ⟨6, 0, 2, 1⟩, ⟨6, 1, 2, 1⟩, ⟨6, 2, 2, 1⟩, ⟨7, 3, 2, 1⟩, ⟨7, 4, 2, 1⟩]

theorem exKey_condTree : CondTree 5 3 exKey :=
  .of_check (by decide) (by decide) (by decide) (by decide) (by decide) (by decide) (by decide)

/-- **C26 fails** through the real selection: with `max_cluster_size = 2` excess of mass selects only the cluster of two
samples, and labelling the other three raises `KeyError`. -/
theorem C26_max_cluster_size_crash : CondTree 5 3 exKey ∧ extractEom exKey (some 2) false = some [7] ∧
    labelVector exKey [7] none 5 = none :=
  ⟨exKey_condTree, by decide +kernel, by decide +kernel⟩

example : labelVector exKey [6, 7] none 5 = some [0, 0, 0, 1, 1] := by decide +kernel
example : labelVector exKey [5] none 5 = some [0, 0, 0, 0, 0] := by decide +kernel

theorem exKey_nonNested : NonNested exKey [6, 7] := by
  have h := (C20_leaf_selection exKey exKey_condTree (by decide)).2.1
  have he : leafSelection (clusterTree exKey) 5 = [6, 7] := by decide +kernel
  rw [he] at h
  exact h

example : ∃ labels, labelVector exKey [6, 7] none 5 = some labels ∧ labels.length = 5 :=
  (C26_label_is_selected_ancestor_partial exKey exKey_condTree (by decide) [6, 7] (by decide) (by decide) (by decide)
    exKey_nonNested none (fun h => absurd h (by decide))).imp fun _ h => ⟨h.1, h.2.1⟩
example : ∃ labels, labelVector exKey [5] none 5 = some labels ∧ labels.length = 5 :=
  (C26_top_cluster exKey exKey_condTree (by decide) none).imp fun _ h => ⟨h.1, h.2.1⟩

/-! ## C27 -/

section
variable [LinearOrder L] [Zero L]

/-- **C27** (partial): if every selected cluster contains a sample that left at a positive lambda, the labels used are exactly
`0 … k-1` and possibly -1, `k` being the number of selected clusters.  Missing: selected clusters all of whose samples
left at lambda 0 (they exist, `C27_label_gap`), and the failing case of C26. -/
theorem C27_labels_dense_partial (rows : List (CRow L S)) (h : CondTree n k rows) (hne : rows ≠ [])
    (sel : List ℕ) (hs : sel ≠ []) (hnd : sel.Nodup) (hsel : ∀ c ∈ sel, n < c) (hnn : NonNested rows sel)
    (epsLam : Option L)
    (hsafe : sel.length = 1 → ∀ row ∈ rows, row.child < n → row.lam ≠ 0 → (∀ s ∈ sel, ¬ CDesc rows s row.child) →
      ¬ DenseEnough n rows epsLam row)
    (hpos : ∀ s ∈ sel, ∃ row ∈ rows, row.child < n ∧ CDesc rows s row.child ∧ row.lam ≠ 0) :
    ∃ labels, labelVector rows sel epsLam n = some labels ∧ labels.length = n ∧
      ∀ l : ℤ, (l ∈ labels → l = -1 ∨ (0 ≤ l ∧ l < sel.length)) ∧ (0 ≤ l → l < sel.length → l ∈ labels) := by
  obtain ⟨labels, h1, h2, h3⟩ := C26_label_is_selected_ancestor_partial rows h hne sel hs hnd hsel hnn epsLam hsafe
  have hperm : (sortIds sel).Perm sel := List.perm_insertionSort _ sel
  refine ⟨labels, h1, h2, fun l => ⟨fun hl => ?_, fun hl0 hl1 => ?_⟩⟩
  · obtain ⟨x, hx⟩ := List.mem_iff_getElem?.1 hl
    have hxn : x < n := by rw [← h2]; exact (List.getElem?_eq_some_iff.1 hx).1
    obtain ⟨row, hrow, rfl⟩ := List.mem_map.1 ((h.children x).2 (.inl hxn))
    by_cases ho : row.lam = 0 ∨ ∀ s ∈ sel, ¬ CDesc rows s row.child
    · have := (h3 row hrow hxn).2.2 ho
      rw [hx, Option.some.injEq] at this
      exact .inl this
    · push Not at ho
      obtain ⟨hlam, s, hsm, hd⟩ := ho
      obtain ⟨j, hj⟩ := List.mem_iff_getElem?.1 (hperm.mem_iff.2 hsm)
      have := ((h3 row hrow hxn).1 j).2 ⟨hlam, s, hj, hd⟩
      rw [hx, Option.some.injEq] at this
      have hjl := (List.getElem?_eq_some_iff.1 hj).1
      rw [hperm.length_eq] at hjl
      right; omega
  · obtain ⟨i, rfl⟩ := Int.eq_ofNat_of_zero_le hl0
    have hi : i < (sortIds sel).length := by rw [hperm.length_eq]; omega
    have hsi : (sortIds sel)[i]? = some (sortIds sel)[i] := List.getElem?_eq_getElem hi
    obtain ⟨row, hrow, hc, hd, hlam⟩ := hpos _ (hperm.mem_iff.1 (List.mem_of_getElem? hsi))
    exact List.mem_of_getElem? (((h3 row hrow hc).1 i).2 ⟨hlam, _, hsi, hd⟩)

/-- **C27** when all lambdas are positive (no two samples are infinitely far apart) and every selected cluster contains a
sample. -/
theorem C27_labels_dense_connected_partial (rows : List (CRow L S)) (h : CondTree n k rows) (hne : rows ≠ [])
    (sel : List ℕ) (hs : 2 ≤ sel.length) (hnd : sel.Nodup) (hsel : ∀ c ∈ sel, n < c) (hnn : NonNested rows sel)
    (epsLam : Option L) (hlam : ∀ row ∈ rows, row.lam ≠ 0)
    (hpop : ∀ s ∈ sel, ∃ x, x < n ∧ CDesc rows s x) :
    ∃ labels, labelVector rows sel epsLam n = some labels ∧ labels.length = n ∧
      ∀ l : ℤ, (l ∈ labels → l = -1 ∨ (0 ≤ l ∧ l < sel.length)) ∧ (0 ≤ l → l < sel.length → l ∈ labels) := by
  refine C27_labels_dense_partial rows h hne sel (by rintro rfl; simp at hs) hnd hsel hnn epsLam (fun h1 => by omega)
    fun s hsm => ?_
  obtain ⟨x, hx, hd⟩ := hpop s hsm
  obtain ⟨row, hrow, rfl⟩ := List.mem_map.1 ((h.children x).2 (.inl hx))
  exact ⟨row, hrow, hx, hd, hlam row hrow⟩

end

/-- A spanning tree of seven samples in three components `{0,1}`, `{2,3}`, `{4,5,6}`, completed by `+inf` edges. -/
def exGapTree : List (Edge (WithTop ℚ)) :=
  [⟨0, 1, 1⟩, ⟨2, 3, 1⟩, ⟨4, 5, 1⟩, ⟨5, 6, 1⟩, ⟨0, 2, ⊤⟩, ⟨2, 4, ⊤⟩]

/-- Its condensed tree for `min_cluster_size = 3` and the real lambdas. -/
def exGap : List (CRow (WithTop ℚ) ℚ) :=
  condenseTree (Hier.ofRows (mstToLinkage (fun _ => (1 : ℚ)) (lexsortMst exGapTree))) (fun _ => 1) 3 none hdbscanLam

/-- **C27 fails**: cluster 8 consists of the components `{0,1}` and `{2,3}` joined at infinite distance; leaf selection
selects it next to cluster 9, but all its samples left at lambda 0 and are noise, so label 0 is not used. -/
theorem C27_label_gap : leafSelection (clusterTree exGap) 7 = [8, 9] ∧
    labelVector exGap [8, 9] none 7 = some [-1, -1, -1, -1, 1, 1, 1] := by
  decide +kernel

example : ∃ labels, labelVector exKey [6, 7] none 5 = some labels ∧ labels.length = 5 :=
  (C27_labels_dense_connected_partial exKey exKey_condTree (by decide) [6, 7] (by decide) (by decide) (by decide)
    exKey_nonNested none (by decide) (fun s hs => by
      simp only [List.mem_cons, List.not_mem_nil, or_false] at hs
      rcases hs with rfl | rfl
      · exact ⟨0, by decide, .single ⟨⟨6, 0, 2, 1⟩, by decide, rfl, rfl⟩⟩
      · exact ⟨3, by decide, .single ⟨⟨7, 3, 2, 1⟩, by decide, rfl, rfl⟩⟩)).imp fun _ h => ⟨h.1, h.2.1⟩

/-! ## C28 -/

section
variable [Field K] [LinearOrder K] [IsStrictOrderedRing K]

theorem foldl_maxLambda [LinearOrder L] [Zero L] [One S] [DecidableEq S] (rows : List (CRow L S)) (c : ℕ) (m : L) :
    (m ≤ rows.foldl (fun m row => if row.parent = c ∧ row.size = 1 then max m row.lam else m) m) ∧
    (∀ row ∈ rows, row.parent = c → row.size = 1 →
      row.lam ≤ rows.foldl (fun m row => if row.parent = c ∧ row.size = 1 then max m row.lam else m) m) ∧
    (∀ b, m ≤ b → (∀ row ∈ rows, row.parent = c → row.size = 1 → row.lam ≤ b) →
      rows.foldl (fun m row => if row.parent = c ∧ row.size = 1 then max m row.lam else m) m ≤ b) := by
  induction rows generalizing m with
  | nil => exact ⟨le_rfl, fun r hr => absurd hr (by simp), fun b hb _ => hb⟩
  | cons r rows ih =>
    rw [List.foldl_cons]
    obtain ⟨h1, h2, h3⟩ := ih (if r.parent = c ∧ r.size = 1 then max m r.lam else m)
    refine ⟨le_trans ?_ h1, ?_, fun b hb hr => h3 b ?_ fun row hrow => hr row (by simp [hrow])⟩
    · split
      · exact le_max_left _ _
      · exact le_rfl
    · intro row hrow hp hs
      rcases List.mem_cons.1 hrow with h4 | h4
      · subst h4
        refine le_trans ?_ h1
        rw [if_pos ⟨hp, hs⟩]
        exact le_max_right _ _
      · exact h2 row h4 hp hs
    · split
      · rename_i h4
        exact max_le hb (hr r (by simp) h4.1 h4.2)
      · exact hb

omit [IsStrictOrderedRing K] in
theorem strengthVector_eq [One S] [DecidableEq S] (rows : List (CRow (WithTop K) S)) (h : CondTree n k rows)
    (hne : rows ≠ []) (sel : List ℕ) (labels : List ℤ) (hlen : labels.length = n)
    (hlab : ∀ l ∈ labels, l < sel.length) :
    ∃ res : ℕ → K, strengthVector rows sel labels = some res ∧ ∀ row ∈ rows, row.child < n →
      (∀ lab, labels[row.child]? = some lab → lab < 0 → res row.child = 0) ∧
      ∀ (i c : ℕ), labels[row.child]? = some (i : ℤ) → (sortIds sel)[i]? = some c →
        res row.child = strengthOf row.lam (maxLambda rows c) := by
  have hperm : (sortIds sel).Perm sel := List.perm_insertionSort _ sel
  have hunf : strengthVector rows sel labels = rows.foldlM (strengthStep rows sel labels n) (fun _ => (0 : K)) := by
    unfold strengthVector
    rw [if_neg (by simp [hne]), h.min_parent hne]
  have hmain : ∀ l : List (CRow (WithTop K) S), (∀ row ∈ l, row ∈ rows) → (l.map CRow.child).Nodup →
      ∀ r0 : ℕ → K, ∃ res : ℕ → K, l.foldlM (strengthStep rows sel labels n) r0 = some res ∧
      (∀ x, x ∉ l.map CRow.child → res x = r0 x) ∧
      ∀ row ∈ l, row.child < n →
        (∀ lab, labels[row.child]? = some lab → lab < 0 → res row.child = r0 row.child) ∧
        ∀ (i c : ℕ), labels[row.child]? = some (i : ℤ) → (sortIds sel)[i]? = some c →
          res row.child = strengthOf row.lam (maxLambda rows c) := by
    intro l
    induction l with
    | nil => intro _ _ r0; exact ⟨r0, rfl, fun _ _ => rfl, fun r hr => absurd hr (by simp)⟩
    | cons row l ih =>
      intro hl hnd r0
      rw [List.map_cons, List.nodup_cons] at hnd
      obtain ⟨r1, hr1, hr1'⟩ : ∃ r1, strengthStep rows sel labels n r0 row = some r1 ∧
          (∀ x, x ≠ row.child → r1 x = r0 x) ∧ (row.child < n →
          (∀ lab, labels[row.child]? = some lab → lab < 0 → r1 row.child = r0 row.child) ∧
          ∀ (i c : ℕ), labels[row.child]? = some (i : ℤ) → (sortIds sel)[i]? = some c →
            r1 row.child = strengthOf row.lam (maxLambda rows c)) := by
        unfold strengthStep
        by_cases hc : n ≤ row.child
        · rw [if_pos hc]; exact ⟨r0, rfl, fun _ _ => rfl, fun h => absurd hc (by omega)⟩
        · rw [if_neg hc]
          have hc' : row.child < labels.length := by omega
          have hget : labels[row.child]? = some labels[row.child] := List.getElem?_eq_getElem hc'
          rw [hget]
          simp only
          by_cases hneg : labels[row.child] < 0
          · rw [if_pos hneg]
            refine ⟨r0, rfl, fun _ _ => rfl, fun _ => ⟨fun _ _ _ => rfl, fun i c hi _ => ?_⟩⟩
            rw [Option.some.injEq] at hi; omega
          · rw [if_neg hneg]
            have hlt := hlab _ (List.getElem_mem hc')
            have hlt' : labels[row.child].toNat < (sortIds sel).length := by rw [hperm.length_eq]; omega
            rw [List.getElem?_eq_getElem hlt']
            refine ⟨_, rfl, fun x hx => Function.update_of_ne hx _ _, fun _ => ⟨fun lab hlab' hn => ?_, fun i c hi hci => ?_⟩⟩
            · rw [Option.some.injEq] at hlab'; omega
            · rw [Option.some.injEq] at hi
              have : labels[row.child].toNat = i := by omega
              rw [Function.update_self]
              congr 2
              subst this
              rw [List.getElem?_eq_getElem hlt'] at hci
              exact Option.some.inj hci
      obtain ⟨res, h1, h2, h3⟩ := ih (fun r hr => hl r (by simp [hr])) hnd.2 r1
      refine ⟨res, ?_, ?_, ?_⟩
      · rw [List.foldlM_cons, hr1]; exact h1
      · intro x hx
        rw [List.map_cons, List.mem_cons, not_or] at hx
        rw [h2 x hx.2, hr1'.1 x hx.1]
      · intro r hr hrn
        rcases List.mem_cons.1 hr with h4 | h4
        · subst h4
          rw [h2 r.child hnd.1]
          exact hr1'.2 hrn
        · have hrc : r.child ≠ row.child := fun he => hnd.1 (he ▸ List.mem_map_of_mem h4)
          rw [← hr1'.1 r.child hrc]
          exact h3 r h4 hrn
  obtain ⟨res, h1, _, h3⟩ := hmain rows (fun _ h => h) h.nodup (fun _ => 0)
  exact ⟨res, hunf.trans h1, h3⟩

theorem strengthOf_mem {lam mx : WithTop K} (h0 : 0 ≤ lam) (h1 : 0 ≤ mx) :
    0 ≤ strengthOf lam mx ∧ strengthOf lam mx ≤ 1 := by
  unfold strengthOf
  split
  · exact ⟨zero_le_one, le_rfl⟩
  · rename_i hne
    push Not at hne
    cases lam with
    | top => exact absurd rfl hne.2
    | coe a =>
      cases mx with
      | top => simp
      | coe b =>
        rw [← WithTop.coe_min]
        have ha : 0 ≤ a := by exact_mod_cast h0
        have hb : 0 ≤ b := by exact_mod_cast h1
        have hb' : 0 < b := lt_of_le_of_ne hb fun he => hne.1 (by rw [← he]; rfl)
        exact ⟨div_nonneg (le_min ha hb) hb, div_le_one_of_le₀ (min_le_right _ _) hb⟩

theorem strengthOf_mono {lam lam' mx : WithTop K} (h1 : 0 ≤ mx) (hle : lam ≤ lam') :
    strengthOf lam mx ≤ strengthOf lam' mx := by
  by_cases hmx : mx = 0
  · simp [strengthOf, hmx]
  cases lam' with
  | top =>
    have : strengthOf (⊤ : WithTop K) mx = 1 := by simp [strengthOf]
    rw [this]
    cases lam with
    | top => simp [strengthOf]
    | coe a =>
      unfold strengthOf
      rw [if_neg (by simp [hmx])]
      cases mx with
      | top => simp
      | coe b =>
        rw [← WithTop.coe_min]
        have hb : 0 ≤ b := by exact_mod_cast h1
        exact div_le_one_of_le₀ (min_le_right _ _) hb
  | coe a' =>
    cases lam with
    | top => simp at hle
    | coe a =>
      unfold strengthOf
      rw [if_neg (by simp [hmx]), if_neg (by simp [hmx])]
      cases mx with
      | top => simp
      | coe b =>
        rw [← WithTop.coe_min, ← WithTop.coe_min]
        have hb : 0 ≤ b := by exact_mod_cast h1
        exact div_le_div_of_nonneg_right (min_le_min_right _ (by exact_mod_cast hle)) hb

omit [IsStrictOrderedRing K] in
theorem strengthOf_self (lam : WithTop K) : strengthOf lam lam = 1 := by
  unfold strengthOf
  split
  · rfl
  · rename_i hne
    push Not at hne
    cases lam with
    | top => exact absurd rfl hne.2
    | coe a =>
      rw [min_self]
      exact div_self fun he => hne.1 (by rw [he]; rfl)

/-- **C28.** For every condensed tree with non-negative (also infinite) lambdas and every labelling whose labels name
selected clusters: strengths are computed without failure; noise has strength 0; every strength lies in `[0, 1]`; a
sample that leaves its cluster last among the samples listed directly below the cluster has strength 1; of two samples
with the same label the one leaving later does not have the smaller strength. -/
theorem C28_strengths [One S] [DecidableEq S] (rows : List (CRow (WithTop K) S)) (h : CondTree n k rows)
    (hne : rows ≠ []) (hlam : ∀ row ∈ rows, 0 ≤ row.lam) (sel : List ℕ) (labels : List ℤ) (hlen : labels.length = n)
    (hlab : ∀ l ∈ labels, l < sel.length) :
    ∃ res : ℕ → K, strengthVector rows sel labels = some res ∧ ∀ row ∈ rows, row.child < n →
      ∀ lab, labels[row.child]? = some lab →
        (0 ≤ res row.child ∧ res row.child ≤ 1) ∧ (lab < 0 → res row.child = 0) ∧
        (∀ (i c : ℕ), lab = i → (sortIds sel)[i]? = some c → row.parent = c → row.size = 1 →
          (∀ row' ∈ rows, row'.parent = c → row'.size = 1 → row'.lam ≤ row.lam) → res row.child = 1) ∧
        (∀ row' ∈ rows, row'.child < n → labels[row'.child]? = some lab → row.lam ≤ row'.lam →
          res row.child ≤ res row'.child) := by
  have hperm : (sortIds sel).Perm sel := List.perm_insertionSort _ sel
  obtain ⟨res, h1, h2⟩ := strengthVector_eq rows h hne sel labels hlen hlab
  refine ⟨res, h1, fun row hrow hc lab hl => ?_⟩
  have h3 := h2 row hrow hc
  have hmx : ∀ c, 0 ≤ maxLambda rows c := fun c => (foldl_maxLambda rows c 0).1
  have hidx : 0 ≤ lab → ∃ (i : ℕ) (c : ℕ), lab = i ∧ (sortIds sel)[i]? = some c := by
    intro h0
    obtain ⟨i, rfl⟩ := Int.eq_ofNat_of_zero_le h0
    have := hlab _ (List.mem_of_getElem? hl)
    have hi : i < (sortIds sel).length := by rw [hperm.length_eq]; omega
    exact ⟨i, _, rfl, List.getElem?_eq_getElem hi⟩
  refine ⟨?_, fun hn => h3.1 lab hl hn, ?_, ?_⟩
  · by_cases hn : lab < 0
    · rw [h3.1 lab hl hn]; exact ⟨le_rfl, zero_le_one⟩
    · obtain ⟨i, c, rfl, hi⟩ := hidx (by omega)
      rw [h3.2 i c hl hi]
      exact strengthOf_mem (hlam row hrow) (hmx c)
  · rintro i c rfl hi hp hs hlast
    rw [h3.2 i c hl hi]
    have : maxLambda rows c = row.lam := by
      obtain ⟨_, h4, h5⟩ := foldl_maxLambda rows c 0
      exact le_antisymm (h5 _ (hlam row hrow) hlast) (h4 row hrow hp hs)
    rw [this]
    exact strengthOf_self _
  · intro row' hrow' hc' hl' hle
    by_cases hn : lab < 0
    · rw [h3.1 lab hl hn, (h2 row' hrow' hc').1 lab hl' hn]
    · obtain ⟨i, c, rfl, hi⟩ := hidx (by omega)
      rw [h3.2 i c hl hi, (h2 row' hrow' hc').2 i c hl' hi]
      exact strengthOf_mono (hmx c) hle

end

/-- `exKey` with rational lambdas, one of them infinite (duplicate samples). -/
def exStr : List (CRow (WithTop ℚ) ℚ) :=
  [⟨5, 6, 1, 3⟩, ⟨5, 7, 1, 2⟩, ⟨6, 0, 2, 1⟩, ⟨6, 1, 4, 1⟩, ⟨6, 2, 4, 1⟩, ⟨7, 3, ⊤, 1⟩, ⟨7, 4, 3, 1⟩]

theorem exStr_condTree : CondTree 5 3 exStr :=
  .of_check (by decide) (by decide +kernel) (by decide +kernel) (by decide +kernel) (by decide +kernel)
    (by decide +kernel) (by decide +kernel)

example : (strengthVector exStr [6, 7] [0, 0, 0, 1, 1]).map (fun r => (List.range 5).map r) =
    some [1 / 2, 1, 1, 1, 0] := by decide +kernel
example : ∃ res, strengthVector exStr [6, 7] [0, 0, 0, 1, 1] = some res :=
  (C28_strengths exStr exStr_condTree (by simp [exStr]) (by decide +kernel) [6, 7] [0, 0, 0, 1, 1] (by decide)
    (by decide)).imp fun _ h => h.1

end Verif
