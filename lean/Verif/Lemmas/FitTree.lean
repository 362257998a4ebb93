import Verif.Lemmas.Fit
import Verif.Spec.Condensed

/-!
# The stored trees when some rows are not finite
-/

namespace Verif
variable {W K S L : Type*}

theorem outlierRows_l [LE W] [OrderTop W] [Add S] [One S] (os : List ℕ) (last : ℕ) (size : S) :
    (outlierRows (W := W) os last size).map LRow.l = os := by
  induction os generalizing last size with
  | nil => rfl
  | cons o os ih => simp [outlierRows, ih]

/-- With two samples and the last row not finite, the stored linkage tree uses some row twice. -/
theorem remapLinkage_two [LE W] [OrderTop W] [Add S] [One S] {n : ℕ} {idx outliers : List ℕ} (h : SplitRows n idx outliers)
    (h2 : idx.length = 2) (hl : n - 1 ∉ idx) (d : W) (s : S) :
    ∃ rows', remapLinkage idx outliers [⟨1, 0, d, s⟩] = .ok rows' ∧ ¬ (rows'.flatMap fun row => [row.l, row.r]).Nodup := by
  have hlen := h.length
  refine ⟨⟨remapChild idx outliers.length 1, remapChild idx outliers.length 0, d, s⟩ ::
    outlierRows outliers (max (remapChild idx outliers.length 1) (remapChild idx outliers.length 0)) s, rfl, ?_⟩
  have hasc : idx[0]'(by omega) < idx[1]'(by omega) := List.pairwise_iff_getElem.1 h.asc 0 1 (by omega) (by omega) (by omega)
  have hb : idx[1]'(by omega) < n := h.lt (Or.inl (List.getElem_mem _))
  have hne : idx[1]'(by omega) ≠ n - 1 := fun he => hl (he ▸ List.getElem_mem _)
  rw [remapChild_lt (by omega), remapChild_lt (by omega), max_eq_left (le_of_lt hasc)]
  have ho : idx[1]'(by omega) + 1 ∈ outliers := by
    rcases h.cover (x := idx[1]'(by omega) + 1) (by omega) with hi | hi
    · obtain ⟨i, hi1, he⟩ := List.getElem_of_mem hi
      have : i = 0 ∨ i = 1 := by omega
      rcases this with rfl | rfl <;> omega
    · exact hi
  cases outliers with
  | nil => cases ho
  | cons o os =>
    simp only [outlierRows, List.flatMap_cons]
    intro hnd
    have hnd2 := (List.nodup_append.1 hnd).2.1
    obtain ⟨hnd3, hnd4, hdis⟩ := List.nodup_append.1 hnd2
    rcases List.mem_cons.1 ho with he | hm
    · simp [he] at hnd3
    · refine hdis (idx[1]'(by omega) + 1) (by simp) (idx[1]'(by omega) + 1) ?_ rfl
      rw [List.mem_flatMap]
      rw [← outlierRows_l (W := W) os (idx[1]'(by omega) + 1) (s + 1)] at hm
      obtain ⟨row, hr, he⟩ := List.mem_map.1 hm
      exact ⟨row, hr, by simp [← he]⟩

theorem outlierRows_d [LE W] [OrderTop W] [Add S] [One S] (os : List ℕ) (last : ℕ) (size : S) :
    (outlierRows (W := W) os last size).map LRow.d = List.replicate os.length ⊤ := by
  induction os generalizing last size with
  | nil => rfl
  | cons o os ih => simp [outlierRows, ih, List.replicate_succ]

/-- The renumbered linkage tree with the outliers on top. -/
theorem remapLinkage_tree [AddCommMonoid S] [One S] [LE W] [OrderTop W] {n : ℕ} {idx outliers : List ℕ} (h : SplitRows n idx outliers)
    {wt : ℕ → S} {rows : List (LRow W S)} (hd : Dendrogram idx.length wt rows) (h3 : 3 ≤ idx.length ∨ (idx.length = 2 ∧ n - 1 ∈ idx)) :
    ∃ rows', remapLinkage idx outliers rows = .ok rows' ∧ MergeTree n (allWeights idx wt) rows' ∧
      rows'.map LRow.d = rows.map LRow.d ++ List.replicate outliers.length ⊤ ∧
      (∀ i, i < rows.length → ∀ y, Below n rows' (n + i) y ↔ ∃ x, idx[x]? = some y ∧ Below idx.length rows (idx.length + i) x) := by
  have hlen := h.length
  have hdl := hd.length
  have hlt : ∀ i row, rows[i]? = some row → row.l < idx.length + i ∧ row.r < idx.length + i := fun i row hi => by
    have := hd.lt i row hi; omega
  have hne : rows ≠ [] := by rintro rfl; simp at hdl; rcases h3 with h3 | h3 <;> omega
  obtain ⟨last, hl⟩ : ∃ last, rows.getLast? = some last := ⟨_, List.getLast?_eq_some_getLast hne⟩
  have hl' : (remapRows idx outliers.length rows).getLast? =
      some { last with l := remapChild idx outliers.length last.l, r := remapChild idx outliers.length last.r } := by
    unfold remapRows
    rw [List.getLast?_map, hl]; rfl
  have hg := remap_growInv h hd h3 hl
  have hnd := h.nodup
  obtain ⟨l', s', hg'⟩ := hg.grow (W := W) outliers
    (fun o ho => ⟨h.lt (Or.inr ho), fun hi => h.disjoint hi ho, by
      unfold allWeights; rw [if_neg fun hi => h.disjoint hi ho]⟩) (List.nodup_append.1 hnd).2.1
  refine ⟨_, ?_, ⟨?_, hg'.lt, hg'.once, hg'.sizes⟩, ?_, ?_⟩
  · unfold remapLinkage
    change (match (remapRows idx outliers.length rows).getLast? with
      | none => _
      | some last => _) = _
    rw [hl']
    rfl
  · rw [hg'.len, List.length_append, List.length_reverse]; omega
  · rw [List.map_append, outlierRows_d]
    congr 1
    unfold remapRows
    rw [List.map_map]; rfl
  · intro i hi y
    have hrl : (remapRows idx outliers.length rows).length = rows.length := by unfold remapRows; simp
    rw [below_append_lt hg.lt (by omega)]
    have e : n + i = remapChild idx outliers.length (idx.length + i) := by rw [remapChild_ge (by omega)]; omega
    rw [e, below_remap h hlt (by omega)]
    constructor
    · rintro ⟨x, hx, rfl⟩
      exact ⟨x, by rw [remapChild_lt hx.lt_n]; exact List.getElem?_eq_getElem _, hx⟩
    · rintro ⟨x, hx, hb⟩
      refine ⟨x, hb, ?_⟩
      rw [remapChild_lt hb.lt_n]
      rw [List.getElem?_eq_getElem hb.lt_n, Option.some.injEq] at hx
      exact hx.symm

/-- The renumbered rows of the condensed tree. -/
def remapCRows (idx : List ℕ) (o : ℕ) (rows : List (CRow L S)) : List (CRow L S) :=
  rows.map fun row => { row with parent := row.parent + o, child := remapChild idx o row.child }

theorem CondTree.head_parent {n k : ℕ} {row0 : CRow L S} {rows : List (CRow L S)} (h : CondTree n k (row0 :: rows)) : row0.parent = n := by
  rcases h.order 0 row0 rfl with h | ⟨j, _, hj, _⟩
  · exact h
  · omega

theorem remapCondensed_eq [Zero L] [One S] {n k : ℕ} {idx outliers : List ℕ} (h : SplitRows n idx outliers) {rows : List (CRow L S)}
    (hc : CondTree idx.length k rows) (hne : rows ≠ []) :
    remapCondensed idx outliers rows = .ok (outliers.map (fun o => ⟨n, o, 0, 1⟩) ++ remapCRows idx outliers.length rows) := by
  have hlen := h.length
  cases rows with
  | nil => exact absurd rfl hne
  | cons row0 rows =>
    have hp := hc.head_parent
    unfold remapCondensed
    simp only [List.map_cons, hp, hlen]
    unfold remapCRows
    simp only [List.map_cons, hp, hlen]

theorem remapCondensed_tree [Zero L] [One S] {n k : ℕ} {idx outliers : List ℕ} (h : SplitRows n idx outliers) {rows : List (CRow L S)}
    (hc : CondTree idx.length k rows) :
    CondTree n k (outliers.map (fun o => (⟨n, o, 0, 1⟩ : CRow L S)) ++ remapCRows idx outliers.length rows) := by
  have hlen := h.length
  have hnd := h.nodup
  have hch : (remapCRows idx outliers.length rows).map CRow.child = (rows.map CRow.child).map (remapChild idx outliers.length) := by
    unfold remapCRows; rw [List.map_map, List.map_map]; rfl
  have hco : (outliers.map (fun o => (⟨n, o, 0, 1⟩ : CRow L S))).map CRow.child = outliers := by
    rw [List.map_map]; exact List.map_id _
  have hge : ∀ c, n ≤ remapChild idx outliers.length c ↔ idx.length ≤ c := by
    intro c
    by_cases hcl : c < idx.length
    · have := h.remap_lt hcl; omega
    · rw [remapChild_ge (by omega)]; omega
  have hidx : ∀ c, c < idx.length → remapChild idx outliers.length c ∈ idx := fun c hcl => by
    rw [remapChild_lt hcl]; exact List.getElem_mem _
  refine ⟨hc.pos, ?_, ?_, ?_, ?_, ?_, ?_⟩
  · rw [List.map_append, hch, hco]
    refine List.nodup_append.2 ⟨(List.nodup_append.1 hnd).2.1, hc.nodup.map fun a b hab => h.remap_inj hab, ?_⟩
    intro o ho c hcm
    obtain ⟨c0, _, rfl⟩ := List.mem_map.1 hcm
    rintro rfl
    by_cases hcl : c0 < idx.length
    · exact h.disjoint (hidx c0 hcl) ho
    · have := h.lt (Or.inr ho)
      rw [remapChild_ge (by omega)] at this; omega
  · intro c
    rw [List.map_append, hch, hco, List.mem_append, List.mem_map]
    constructor
    · rintro (ho | ⟨c0, hm, rfl⟩)
      · exact Or.inl (h.lt (Or.inr ho))
      · rcases (hc.children c0).1 hm with h1 | h1
        · exact Or.inl (h.remap_lt h1)
        · rw [remapChild_ge (by omega)]; exact Or.inr ⟨by omega, by omega⟩
    · rintro (h1 | h1)
      · rcases h.cover h1 with h2 | h2
        · obtain ⟨x, hx, rfl⟩ := List.getElem_of_mem h2
          exact Or.inr ⟨x, (hc.children x).2 (Or.inl hx), remapChild_lt hx⟩
        · exact Or.inl h2
      · refine Or.inr ⟨c - outliers.length, (hc.children _).2 (Or.inr ⟨by omega, by omega⟩), ?_⟩
        rw [remapChild_ge (by omega)]; omega
  · rw [List.map_append, hch, hco, List.filter_append]
    rw [List.filter_eq_nil_iff.2 (fun o ho => by have := h.lt (Or.inr ho); simp; omega), List.nil_append, List.filter_map]
    have e : ((fun c => decide (n ≤ c)) ∘ remapChild idx outliers.length) = fun c => decide (idx.length ≤ c) := by
      funext c
      simp only [Function.comp, hge]
    rw [e, hc.asc]
    have e2 : (List.range' (idx.length + 1) (k - 1)).map (remapChild idx outliers.length) =
        (List.range' (idx.length + 1) (k - 1)).map (outliers.length + ·) := by
      refine List.map_congr_left fun c hcm => ?_
      have := List.mem_range'_1.1 hcm
      rw [remapChild_ge (by omega), add_comm]
    rw [e2, List.map_add_range']
    congr 1
    omega
  · intro row hr
    rcases List.mem_append.1 hr with hr | hr
    · obtain ⟨o, _, rfl⟩ := List.mem_map.1 hr
      have := hc.pos
      exact ⟨le_refl n, by simp only; omega⟩
    · obtain ⟨row0, h0, rfl⟩ := List.mem_map.1 hr
      have := hc.parents row0 h0
      simp only
      omega
  · intro row hr hn
    rcases List.mem_append.1 hr with hr | hr
    · obtain ⟨o, ho, rfl⟩ := List.mem_map.1 hr
      have := h.lt (Or.inr ho)
      simp only at hn
      omega
    · obtain ⟨row0, h0, rfl⟩ := List.mem_map.1 hr
      simp only at hn ⊢
      have h1 := (hge _).1 hn
      have := hc.down row0 h0 h1
      rw [remapChild_ge h1]; omega
  · intro i row hi
    by_cases hio : i < outliers.length
    · rw [List.getElem?_append_left (by simpa using hio), List.getElem?_map, Option.map_eq_some_iff] at hi
      obtain ⟨o, _, rfl⟩ := hi
      exact Or.inl rfl
    · rw [List.getElem?_append_right (by simpa using (by omega : outliers.length ≤ i)), List.length_map] at hi
      unfold remapCRows at hi
      rw [List.getElem?_map, Option.map_eq_some_iff] at hi
      obtain ⟨row0, h0, rfl⟩ := hi
      rcases hc.order _ row0 h0 with h1 | ⟨j, row', hj, hj1, hj2⟩
      · left; simp only [h1]; omega
      · right
        refine ⟨outliers.length + j, { row' with parent := row'.parent + outliers.length, child := remapChild idx outliers.length row'.child },
          by omega, ?_, ?_⟩
        · rw [List.getElem?_append_right (by simp), List.length_map, Nat.add_sub_cancel_left]
          unfold remapCRows
          rw [List.getElem?_map, hj1]
          rfl
        · simp only [hj2]
          have hrow0 : row0 ∈ rows := List.mem_of_getElem? h0
          exact remapChild_ge (hc.parents row0 hrow0).1

theorem remapCondensed_mono [Zero L] [One S] [LE L] {n k : ℕ} {idx outliers : List ℕ} (h : SplitRows n idx outliers) {rows : List (CRow L S)}
    (hc : CondTree idx.length k rows) (hm : CMono rows) :
    CMono (outliers.map (fun o => (⟨n, o, 0, 1⟩ : CRow L S)) ++ remapCRows idx outliers.length rows) := by
  have hlen := h.length
  have hno : ∀ row0 ∈ rows, remapChild idx outliers.length row0.child ≠ n := by
    intro row0 h0 he
    rcases (hc.children row0.child).1 (List.mem_map_of_mem h0) with h1 | h1
    · have := h.remap_lt h1; omega
    · rw [remapChild_ge (by omega)] at he; omega
  intro row hr row' hr' he
  rcases List.mem_append.1 hr with hr | hr
  · obtain ⟨o, ho, rfl⟩ := List.mem_map.1 hr
    have ho' := h.lt (Or.inr ho)
    simp only at he
    rcases List.mem_append.1 hr' with hr' | hr'
    · obtain ⟨o', _, rfl⟩ := List.mem_map.1 hr'
      simp only at he; omega
    · obtain ⟨row0, h0, rfl⟩ := List.mem_map.1 hr'
      have := hc.parents row0 h0
      simp only at he; omega
  · obtain ⟨row0, h0, rfl⟩ := List.mem_map.1 hr
    simp only at he
    rcases List.mem_append.1 hr' with hr' | hr'
    · obtain ⟨o', _, rfl⟩ := List.mem_map.1 hr'
      exact absurd he.symm (hno row0 h0)
    · obtain ⟨row1, h1, rfl⟩ := List.mem_map.1 hr'
      have hp := hc.parents row1 h1
      simp only at he ⊢
      refine hm row0 h0 row1 h1 ?_
      apply h.remap_inj
      rw [remapChild_ge hp.1]; exact he

end Verif
