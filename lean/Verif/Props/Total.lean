import Verif.Props.Pipeline
import Verif.Props.Simplify
import Verif.Props.Labels
import Verif.Lemmas.EpsSingle

/-!
# Property C63: `clusters_from_spanning_tree` always returns
-/

namespace Verif
variable {W K : Type*}

section
variable [Field K] [LinearOrder K] [IsStrictOrderedRing K] {n k : ℕ}

/-- The clusters without child cluster are not larger than `max_cluster_size`. -/
def LeavesFit (n : ℕ) (mx : Option K) (rows : List (CRow K K)) : Prop :=
  ∀ m, mx = some m → ∀ row ∈ rows, n ≤ row.child → Childless n rows row.child → row.size ≤ m

/-- The epsilon search succeeds on clusters that cover the lowest ones; the result is empty, the top cluster alone, or at least two others. -/
theorem CondTree.epsilon_total {rows : List (CRow K K)} (h : CondTree n k rows)
    (hk : ∀ row ∈ rows, 1 < row.size ↔ n ≤ row.child) (hb : CBinary n k rows) (hm : CMono rows) (ε : K)
    {sel0 : List ℕ} (hnd : sel0.Nodup) (hnn : NonNested rows sel0) (hrg : ∀ c ∈ sel0, n ≤ c ∧ c < n + k) (hempty : k = 1 → sel0 = [])
    (hcov : 1 < k → ∀ c, n ≤ c → c < n + k → Childless n rows c → ∃ s ∈ sel0, CDesc rows s c) :
    ∃ sel, epsilonIf ε rows sel0 = some sel ∧ sel.Nodup ∧ NonNested rows sel ∧ (∀ c ∈ sel, n ≤ c ∧ c < n + k) ∧
      (sel = [] ∨ sel = [n] ∨ 1 < sel.length ∧ ∀ c ∈ sel, n < c) ∧ (sel = [] ↔ k = 1) := by
  have hc := h.clTree hk
  have hbin := h.clBin hk hb
  have hpos := h.pos
  -- one or two branches of the top cluster hold selected clusters
  have hbranch : 1 < k → n ∉ sel0 → 1 < sel0.length ∧ ∀ c ∈ sel0, n < c := by
    intro hs hn0
    have hgt : ∀ c ∈ sel0, n < c := fun c hcs => lt_of_le_of_ne (hrg c hcs).1 fun he => hn0 (he ▸ hcs)
    refine ⟨?_, hgt⟩
    obtain ⟨a, ha1, ha2, _⟩ := hbin.kids (hc.first hs)
    obtain ⟨_, _, _, g4⟩ := C20_leaf_selection rows h hk
    have hin : ∀ a, CStep (clusterTree rows) n a → ∃ s ∈ sel0, CDesc (clusterTree rows) a s := by
      intro a ha
      have har := hc.step ha
      obtain ⟨l, hl, hal⟩ := g4 hs a (by omega) har.2.2
      obtain ⟨_, _, g3, _⟩ := C20_leaf_selection rows h hk
      have hlr := (g3 l).1 hl
      obtain ⟨s, h1, h2⟩ := hcov hs l hlr.2.1 hlr.2.2.1 hlr.2.2.2
      rw [← h.desc_clusterTree hk hlr.2.1] at hal h2
      refine ⟨s, h1, ?_⟩
      rcases hc.comparable hal h2 with h3 | h3
      · exact h3
      · rcases Relation.ReflTransGen.cases_tail h3 with h4 | ⟨e, h4, h5⟩
        · rw [h4]; exact .refl
        · have := hc.step_unique h5 ha
          subst this
          have := hc.desc_le h4
          have := hgt s h1
          omega
    obtain ⟨s, h1, h2⟩ := hin a ha1
    obtain ⟨s', h1', h2'⟩ := hin (a + 1) ha2
    have hss : s ≠ s' := by
      rintro rfl
      have := hc.kids_disjoint (mem_kidsOf.2 ha1) (mem_kidsOf.2 ha2) h2 h2'
      omega
    match sel0, h1, h1' with
    | [x], h1, h1' => simp at h1 h1'; exact absurd (h1.trans h1'.symm) hss
    | x :: y :: l, _, _ => simp
  have htop : n ∈ sel0 → sel0 = [n] := by
    intro hn0
    have hall : ∀ b ∈ sel0, b = n := fun b hb' => by
      have h2 := hc.desc_root (hrg b hb').1 (hrg b hb').2
      exact (hnn n hn0 b hb' ((h.desc_clusterTree hk (hrg b hb').1).1 h2)).symm
    match sel0, hn0, hnd, hall with
    | [x], h1, _, _ => simp at h1; rw [h1]
    | x :: y :: l, _, h2, h3 =>
      have e1 := h3 x (by simp)
      have e2 := h3 y (by simp)
      rw [List.nodup_cons] at h2
      exact absurd (by rw [e1, e2]; simp) h2.1
  have hk2 : n ∈ sel0 → 1 < k := by
    intro h1
    by_contra h2
    rw [hempty (by omega)] at h1; cases h1
  by_cases hcond : 1 < sel0.length ∧ 0 < ε
  · have hn0 : n ∉ sel0 := by
      intro h1; rw [htop h1] at hcond; simp at hcond
    have hs : 1 < k := by
      by_contra h2
      rw [hempty (by omega)] at hcond; simp at hcond
    obtain ⟨_, hgt⟩ := hbranch hs hn0
    have hr : ∀ s ∈ sel0, n < s ∧ s < n + k := fun s h1 => ⟨hgt s h1, (hrg s h1).2⟩
    have hnn' : NonNested (clusterTree rows) sel0 := fun a ha b hb' hd =>
      hnn a ha b hb' ((h.desc_clusterTree hk (hrg b hb').1).1 hd)
    obtain ⟨st, h1, hi⟩ := hc.epsInv hbin (epsClose ε) sel0 hr hnd hnn'
    obtain ⟨out, ho, g1, g2, g3, _⟩ := C25_epsilon_merges_partial rows h hk hb hm
        (epsClose ε) (epsClose_mono ε) hs sel0 hr hnd hnn
    have hout : out = st.1 := by
      have hroot : ((clusterTree rows).map CRow.parent).foldl min (((clusterTree rows).map CRow.parent).headD 0) = n := by
        obtain ⟨row, rest, he⟩ := hc.head_parent hs
        refine hc.root_eq hs _ ?_
        rw [he]; simp
      unfold epsilonSearch at ho
      simp only at ho
      rw [hroot] at ho
      change Option.map Prod.fst (sel0.foldlM (epsStep (epsClose ε) (clusterTree rows)
        (byParent (clusterTree rows)) n) ([], [])) = _ at ho
      rw [h1] at ho
      simpa using ho.symm
    have hcov' : ∀ l, n ≤ l → l < n + k → (∀ d, ¬ CStep (clusterTree rows) l d) →
        ∃ s ∈ sel0, CDesc (clusterTree rows) s l := by
      intro l hl1 hl2 hl3
      obtain ⟨s, h2, h3⟩ := hcov hs l hl1 hl2 (fun row hrow hp => by
        by_contra hge
        exact hl3 row.child ⟨row, List.mem_filter.2 ⟨hrow, decide_eq_true ((hk row hrow).2 (by omega))⟩, hp, rfl⟩)
      exact ⟨s, h2, (h.desc_clusterTree hk hl1).2 h3⟩
    have hsingle : ∀ x, out = [x] → x = n := fun x hx =>
      hc.eps_single hbin hs (epsClose ε) sel0 hr hnn' hcov' hi (hout ▸ hx)
    have hnonempty : out ≠ [] := by
      obtain ⟨s, h2⟩ := List.exists_mem_of_length_pos (show 0 < sel0.length by omega)
      intro h3
      rw [hout] at h3
      by_cases h4 : BornClose (epsClose ε) (clusterTree rows) s
      · obtain ⟨p, h5, _⟩ := hi.near s h2 h4
        rw [h3] at h5; cases h5
      · have := hi.far s h2 h4
        rw [h3] at this; cases this
    refine ⟨out, ?_, g2, g1, fun c hc' => ⟨(g3 c hc').1, (g3 c hc').2.1⟩, ?_, ?_⟩
    · unfold epsilonIf; rw [if_pos hcond]; exact ho
    · right
      by_cases hno : n ∈ out
      · left
        have hall : ∀ b ∈ out, b = n := fun b hb' => by
          have h2 := hc.desc_root (g3 b hb').1 (g3 b hb').2.1
          exact (g1 n hno b hb' ((h.desc_clusterTree hk (g3 b hb').1).1 h2)).symm
        match out, hno, g2, hall with
        | [x], h1, _, _ => simp at h1; rw [h1]
        | x :: y :: l, _, h2, h3 =>
          have e1 := h3 x (by simp)
          have e2 := h3 y (by simp)
          rw [List.nodup_cons] at h2
          exact absurd (by rw [e1, e2]; simp) h2.1
      · right
        refine ⟨?_, fun c hc' => lt_of_le_of_ne (g3 c hc').1 fun he => hno (he ▸ hc')⟩
        match out, hnonempty, hsingle, hno with
        | [x], _, h2, h3 => exact absurd (by rw [h2 x rfl]; simp) h3
        | x :: y :: l, _, _, _ => simp
    · exact ⟨fun h2 => absurd h2 hnonempty, fun h2 => by omega⟩
  · refine ⟨sel0, ?_, hnd, hnn, hrg, ?_, ?_⟩
    · unfold epsilonIf; rw [if_neg hcond]
    · by_cases hs : 1 < k
      · right
        by_cases hn0 : n ∈ sel0
        · exact .inl (htop hn0)
        · exact .inr (hbranch hs hn0)
      · exact .inl (hempty (by omega))
    · constructor
      · intro h1
        by_contra h2
        have hs : 1 < k := by omega
        have hn0 : n ∉ sel0 := by rw [h1]; simp
        have := (hbranch hs hn0).1
        rw [h1] at this; simp at this
      · exact hempty

/-- Selection including the epsilon search succeeds; the result is empty, the top cluster alone, or at least two others. -/
theorem CondTree.selection_total {rows : List (CRow K K)} (h : CondTree n k rows) (hne : rows ≠ [])
    (hk : ∀ row ∈ rows, 1 < row.size ↔ n ≤ row.child) (hb : CBinary n k rows) (hm : CMono rows) (o : ClusterOpts K)
    (hmax : o.method = .leaf ∨ LeavesFit n o.maxClusterSize rows) :
    ∃ sel0 sel, baseSelection o n rows = some sel0 ∧ epsilonIf o.epsilon rows sel0 = some sel ∧ sel.Nodup ∧
      NonNested rows sel ∧ (∀ c ∈ sel, n ≤ c ∧ c < n + k) ∧
      (sel = [] ∨ sel = [n] ∨ 1 < sel.length ∧ ∀ c ∈ sel, n < c) ∧ (sel = [] ↔ k = 1) := by
  have hc := h.clTree hk
  have hpos := h.pos
  -- the base selection
  have hbase : ∃ sel0, baseSelection o n rows = some sel0 ∧ sel0.Nodup ∧ NonNested rows sel0 ∧
      (∀ c ∈ sel0, n ≤ c ∧ c < n + k) ∧ (k = 1 → sel0 = []) ∧
      (1 < k → ∀ c, n ≤ c → c < n + k → Childless n rows c → ∃ s ∈ sel0, CDesc rows s c) := by
    unfold baseSelection
    cases hmeth : o.method with
    | leaf =>
      obtain ⟨g1, g2, g3, g4⟩ := C20_leaf_selection rows h hk
      refine ⟨_, rfl, g1.imp (fun h => ne_of_lt h), g2, fun c hc => ⟨((g3 c).1 hc).2.1, ((g3 c).1 hc).2.2.1⟩, ?_, ?_⟩
      · intro h1
        rw [List.eq_nil_iff_forall_not_mem]
        intro c hc
        have := ((g3 c).1 hc).1; omega
      · intro h1 c h2 h3 h4
        exact ⟨c, (g3 c).2 ⟨h1, h2, h3, h4⟩, .refl⟩
    | eom =>
      have hfit : LeavesFit n o.maxClusterSize rows := hmax.resolve_left (by rw [hmeth]; decide)
      by_cases hs : 1 < k
      · obtain ⟨d, _, _, hex⟩ := h.extractEom_eq hne hk hs o.maxClusterSize o.allowSingle
        obtain ⟨sel', he', hsorted, _⟩ := C22_eom_optimal_partial rows h hne hk hs o.maxClusterSize o.allowSingle
        obtain ⟨sel2, he2, hcov⟩ := C24_leaves_covered_max rows h hne hk hs o.maxClusterSize o.allowSingle
        rw [he', Option.some.injEq] at he2
        subst he2
        have hnn := C21_eom_not_nested rows h hk (ScoreOps.exact K) d
          (sizeExceeds (clusterTree rows) o.maxClusterSize) (rootExceeds o.maxClusterSize n) o.allowSingle
        rw [he', Option.some.injEq] at hex
        rw [← hex] at hnn
        refine ⟨sel', he', hsorted.imp (fun h => ne_of_lt h), hnn.1, hnn.2, fun h1 => by omega, fun _ c h1 h2 h3 => ?_⟩
        obtain ⟨s, ⟨h4, h5⟩, _⟩ := hcov c h1 h2 h3 fun m hm' row hr he =>
          hfit m hm' row hr (by omega) (by rw [he]; exact h3)
        exact ⟨s, h4, h5⟩
      · have hk1 : k = 1 := by omega
        subst hk1
        refine ⟨[], C57_no_split_no_cluster rows h hne hk _ _, List.nodup_nil, fun a ha => by simp at ha, by simp,
          fun _ => rfl, fun h1 => by omega⟩
  obtain ⟨sel0, hsel0, hnd, hnn, hrg, hempty, hcov⟩ := hbase
  obtain ⟨sel, h1⟩ := h.epsilon_total hk hb hm o.epsilon hnd hnn hrg hempty hcov
  exact ⟨sel0, sel, hsel0, h1⟩

/-- What the labels mean: with selected clusters other than the top one, label `i` marks the samples of the `i`-th of them that
left at a positive lambda; with the top cluster alone, label 0 marks the samples that left at a positive lambda and pass the
density test. -/
def LabelsMean {L S : Type*} [LinearOrder L] [Zero L] (n : ℕ) (rows : List (CRow L S)) (sel : List ℕ) (epsLam : Option L) (labels : List ℤ) : Prop :=
  labels.length = n ∧ ∀ row ∈ rows, row.child < n →
    (n ∉ sel → ∀ i : ℕ, labels[row.child]? = some (i : ℤ) ↔
      row.lam ≠ 0 ∧ ∃ s, (sel.insertionSort (· ≤ ·))[i]? = some s ∧ CDesc rows s row.child) ∧
    (n ∈ sel → ∀ i : ℕ, labels[row.child]? = some (i : ℤ) ↔ i = 0 ∧ row.lam ≠ 0 ∧ DenseEnough n rows epsLam row) ∧
    ∀ l : ℤ, labels[row.child]? = some l → -1 ≤ l

/-- Labels and strengths are computed without failure for such a selection. -/
theorem CondTree.labels_safe {rows : List (CRow K K)} (h : CondTree n k rows) (hne : rows ≠ []) (hlam : ∀ row ∈ rows, 0 ≤ row.lam)
    (sel : List ℕ) (hnd : sel.Nodup) (hnn : NonNested rows sel) (epsLam : Option K)
    (hcase : sel = [] ∨ sel = [n] ∨ (∀ c ∈ sel, n < c) ∧ (sel.length = 1 → ∀ row ∈ rows, row.child < n → row.lam ≠ 0 →
      (∀ s ∈ sel, ¬ CDesc rows s row.child) → ¬ DenseEnough n rows epsLam row)) :
    ∃ labels str, labelVector rows sel epsLam n = some labels ∧
      strengthVector (rows.map fun row => ⟨row.parent, row.child, (row.lam : WithTop K), row.size⟩) sel labels = some str ∧
      LabelsMean n rows sel epsLam labels ∧
      ∀ row ∈ rows, row.child < n → 0 ≤ str row.child ∧ str row.child ≤ 1 ∧ (labels[row.child]? = some (-1) → str row.child = 0) := by
  have hlabels : ∃ labels, labelVector rows sel epsLam n = some labels ∧ LabelsMean n rows sel epsLam labels ∧
      ∀ l ∈ labels, l < sel.length := by
    -- every entry belongs to a row
    have hidx : ∀ {labels : List ℤ}, labels.length = n → ∀ l ∈ labels, ∃ row ∈ rows, row.child < n ∧ labels[row.child]? = some l := by
      intro labels hlen l hl
      obtain ⟨x, hx⟩ := List.mem_iff_getElem?.1 hl
      have hxn : x < n := by rw [← hlen]; exact (List.getElem?_eq_some_iff.1 hx).1
      obtain ⟨row, hrow, rfl⟩ := List.mem_map.1 ((h.children x).2 (.inl hxn))
      exact ⟨row, hrow, hxn, hx⟩
    rcases hcase with rfl | rfl | ⟨hgt, hl2⟩
    · refine ⟨List.replicate n (-1), by simp [labelVector], ⟨by simp, fun row _ hc => ?_⟩, fun l hl => ?_⟩
      · rw [List.getElem?_replicate, if_pos hc]
        refine ⟨fun _ i => ?_, fun h1 => by simp at h1, fun l hl => ?_⟩
        · constructor
          · intro h1; simp at h1
          · rintro ⟨_, s, h1, _⟩; simp at h1
        · simp at hl; omega
      · have := (List.mem_replicate.1 hl).2
        simp; omega
    · obtain ⟨labels, h1, h2, h3⟩ := C26_top_cluster rows h hne epsLam
      have hval : ∀ row ∈ rows, row.child < n → labels[row.child]? = some 0 ∨ labels[row.child]? = some (-1) := by
        intro row hrow hc
        by_cases hd : row.lam ≠ 0 ∧ DenseEnough n rows epsLam row
        · exact .inl ((h3 row hrow hc).1.2 hd)
        · exact .inr ((h3 row hrow hc).2.2 hd)
      refine ⟨labels, h1, ⟨h2, fun row hrow hc => ⟨fun h4 => by simp at h4, fun _ i => ?_, fun l hl => ?_⟩⟩, fun l hl => ?_⟩
      · constructor
        · intro hi
          have : i = 0 := by
            rcases hval row hrow hc with h4 | h4 <;> rw [h4, Option.some.injEq] at hi <;> omega
          subst this
          exact ⟨rfl, (h3 row hrow hc).1.1 hi⟩
        · rintro ⟨rfl, hd⟩
          exact (h3 row hrow hc).1.2 hd
      · rcases hval row hrow hc with h4 | h4 <;> rw [h4, Option.some.injEq] at hl <;> omega
      · obtain ⟨row, hrow, hc, hx⟩ := hidx h2 l hl
        rcases hval row hrow hc with h4 | h4 <;> rw [h4, Option.some.injEq] at hx <;> simp <;> omega
    · by_cases hs : sel = []
      · subst hs
        refine ⟨List.replicate n (-1), by simp [labelVector], ⟨by simp, fun row _ hc => ?_⟩, fun l hl => ?_⟩
        · rw [List.getElem?_replicate, if_pos hc]
          refine ⟨fun _ i => ?_, fun h1 => by simp at h1, fun l hl => ?_⟩
          · constructor
            · intro h1; simp at h1
            · rintro ⟨_, s, h1, _⟩; simp at h1
          · simp at hl; omega
        · have := (List.mem_replicate.1 hl).2
          simp; omega
      obtain ⟨labels, h1, h2, h3⟩ := C26_label_is_selected_ancestor_partial rows h hne sel hs hnd hgt hnn epsLam hl2
      have hval : ∀ row ∈ rows, row.child < n → labels[row.child]? = some (-1) ∨
          ∃ i : ℕ, i < sel.length ∧ labels[row.child]? = some (i : ℤ) := by
        intro row hrow hc
        by_cases ho : row.lam = 0 ∨ ∀ s ∈ sel, ¬ CDesc rows s row.child
        · exact .inl ((h3 row hrow hc).2.2 ho)
        · push Not at ho
          obtain ⟨hl, s, hsm, hd⟩ := ho
          have hperm := List.perm_insertionSort (· ≤ ·) sel
          obtain ⟨j, hj⟩ := List.mem_iff_getElem?.1 (hperm.mem_iff.2 hsm)
          refine .inr ⟨j, ?_, ((h3 row hrow hc).1 j).2 ⟨hl, s, hj, hd⟩⟩
          rw [← hperm.length_eq]
          exact (List.getElem?_eq_some_iff.1 hj).1
      refine ⟨labels, h1, ⟨h2, fun row hrow hc => ⟨fun _ i => (h3 row hrow hc).1 i, fun h4 => ?_, fun l hl => ?_⟩⟩, fun l hl => ?_⟩
      · exact absurd (hgt n h4) (lt_irrefl _)
      · rcases hval row hrow hc with h4 | ⟨i, _, h4⟩ <;> rw [h4, Option.some.injEq] at hl <;> omega
      · obtain ⟨row, hrow, hc, hx⟩ := hidx h2 l hl
        rcases hval row hrow hc with h4 | ⟨i, hi, h4⟩ <;> rw [h4, Option.some.injEq] at hx <;> omega
  obtain ⟨labels, h1, h2, h3⟩ := hlabels
  set R := rows.map fun row => (⟨row.parent, row.child, (row.lam : WithTop K), row.size⟩ : CRow (WithTop K) K) with hR
  have hmap : R.map CRow.child = rows.map CRow.child := by simp [hR]
  have hmem : ∀ {r}, r ∈ R ↔ ∃ row ∈ rows, (⟨row.parent, row.child, (row.lam : WithTop K), row.size⟩ : CRow (WithTop K) K) = r := by
    intro r; rw [hR, List.mem_map]
  have hRt : CondTree n k R := by
    refine ⟨h.pos, by rw [hmap]; exact h.nodup, by rw [hmap]; exact h.children, by rw [hmap]; exact h.asc, ?_, ?_, ?_⟩
    · intro r hr; obtain ⟨row, hrow, rfl⟩ := hmem.1 hr; exact h.parents row hrow
    · intro r hr hc; obtain ⟨row, hrow, rfl⟩ := hmem.1 hr; exact h.down row hrow hc
    · intro i r hi
      rw [hR, List.getElem?_map] at hi
      obtain ⟨row, hrow, rfl⟩ := Option.map_eq_some_iff.1 hi
      rcases h.order i row hrow with h4 | ⟨j, row', h4, h5, h6⟩
      · exact .inl h4
      · refine .inr ⟨j, ⟨row'.parent, row'.child, (row'.lam : WithTop K), row'.size⟩, h4, ?_, h6⟩
        rw [hR, List.getElem?_map, h5]; rfl
  obtain ⟨str, h4, h5⟩ := C28_strengths R hRt (by simpa [hR] using hne)
    (fun r hr => by obtain ⟨row, hrow, rfl⟩ := hmem.1 hr; exact WithTop.coe_nonneg.2 (hlam row hrow)) sel labels h2.1 h3
  refine ⟨labels, str, h1, h4, h2, fun row hrow hc => ?_⟩
  have hx : row.child < labels.length := by rw [h2.1]; exact hc
  obtain ⟨⟨g1, g2⟩, g3, _⟩ := h5 _ (hmem.2 ⟨row, hrow, rfl⟩) hc _ (List.getElem?_eq_getElem hx)
  refine ⟨g1, g2, fun hm => ?_⟩
  rw [List.getElem?_eq_getElem hx, Option.some.injEq] at hm
  exact g3 (by rw [hm]; decide)

theorem CondTree.labels_total {rows : List (CRow K K)} (h : CondTree n k rows) (hne : rows ≠ []) (hlam : ∀ row ∈ rows, 0 ≤ row.lam)
    (sel : List ℕ) (hnd : sel.Nodup) (hnn : NonNested rows sel) (epsLam : Option K)
    (hcase : sel = [] ∨ sel = [n] ∨ 1 < sel.length ∧ ∀ c ∈ sel, n < c) :
    ∃ labels str, labelVector rows sel epsLam n = some labels ∧
      strengthVector (rows.map fun row => ⟨row.parent, row.child, (row.lam : WithTop K), row.size⟩) sel labels = some str ∧
      LabelsMean n rows sel epsLam labels ∧
      ∀ row ∈ rows, row.child < n → 0 ≤ str row.child ∧ str row.child ≤ 1 ∧ (labels[row.child]? = some (-1) → str row.child = 0) :=
  h.labels_safe hne hlam sel hnd hnn epsLam (hcase.imp_right fun h1 => h1.imp_right fun h2 => ⟨h2.2, fun h3 => by omega⟩)

/-- The epsilon search succeeds. -/
theorem CondTree.epsilon_any {rows : List (CRow K K)} (h : CondTree n k rows)
    (hk : ∀ row ∈ rows, 1 < row.size ↔ n ≤ row.child) (hb : CBinary n k rows) (hm : CMono rows) (ε : K)
    {sel0 : List ℕ} (hnd : sel0.Nodup) (hnn : NonNested rows sel0) (hrg : ∀ c ∈ sel0, n ≤ c ∧ c < n + k) (hempty : k = 1 → sel0 = []) :
    ∃ sel, epsilonIf ε rows sel0 = some sel ∧ sel.Nodup ∧
      NonNested rows sel ∧ (∀ c ∈ sel, n ≤ c ∧ c < n + k) ∧ (n ∈ sel → sel = [n]) ∧ (k = 1 → sel = []) := by
  have hc := h.clTree hk
  have hpos := h.pos
  have htop : ∀ sel : List ℕ, sel.Nodup → NonNested rows sel → (∀ c ∈ sel, n ≤ c ∧ c < n + k) → n ∈ sel → sel = [n] := by
    intro sel hnd hnn hrg hn0
    have hall : ∀ b ∈ sel, b = n := fun b hb' => by
      have h2 := hc.desc_root (hrg b hb').1 (hrg b hb').2
      exact (hnn n hn0 b hb' ((h.desc_clusterTree hk (hrg b hb').1).1 h2)).symm
    match sel, hn0, hnd, hall with
    | [x], h1, _, _ => simp at h1; rw [h1]
    | x :: y :: l, _, h2, h3 =>
      have e1 := h3 x (by simp)
      have e2 := h3 y (by simp)
      rw [List.nodup_cons] at h2
      exact absurd (by rw [e1, e2]; simp) h2.1
  by_cases hcond : 1 < sel0.length ∧ 0 < ε
  · have hn0 : n ∉ sel0 := by
      intro h1; rw [htop sel0 hnd hnn hrg h1] at hcond; simp at hcond
    have hs : 1 < k := by
      by_contra h2
      rw [hempty (by omega)] at hcond; simp at hcond
    have hr : ∀ s ∈ sel0, n < s ∧ s < n + k := fun s h1 =>
      ⟨lt_of_le_of_ne (hrg s h1).1 fun he => hn0 (he ▸ h1), (hrg s h1).2⟩
    obtain ⟨out, ho, g1, g2, g3, _⟩ := C25_epsilon_merges_partial rows h hk hb hm
        (epsClose ε) (epsClose_mono ε) hs sel0 hr hnd hnn
    have g3' : ∀ c ∈ out, n ≤ c ∧ c < n + k := fun c hc' => ⟨(g3 c hc').1, (g3 c hc').2.1⟩
    refine ⟨out, ?_, g2, g1, g3', htop out g2 g1 g3', fun h1 => by omega⟩
    unfold epsilonIf; rw [if_pos hcond]; exact ho
  · exact ⟨sel0, by unfold epsilonIf; rw [if_neg hcond], hnd, hnn, hrg, htop sel0 hnd hnn hrg, hempty⟩

/-- The selection is computed without failure for every condensed tree and all options. -/
theorem CondTree.selection_any {rows : List (CRow K K)} (h : CondTree n k rows) (hne : rows ≠ [])
    (hk : ∀ row ∈ rows, 1 < row.size ↔ n ≤ row.child) (hb : CBinary n k rows) (hm : CMono rows) (o : ClusterOpts K) :
    ∃ sel0 sel, baseSelection o n rows = some sel0 ∧ epsilonIf o.epsilon rows sel0 = some sel ∧ sel.Nodup ∧
      NonNested rows sel ∧ (∀ c ∈ sel, n ≤ c ∧ c < n + k) ∧ (n ∈ sel → sel = [n]) ∧ (k = 1 → sel = []) := by
  have hpos := h.pos
  have hbase : ∃ sel0, baseSelection o n rows = some sel0 ∧ sel0.Nodup ∧ NonNested rows sel0 ∧
      (∀ c ∈ sel0, n ≤ c ∧ c < n + k) ∧ (k = 1 → sel0 = []) := by
    unfold baseSelection
    cases hmeth : o.method with
    | leaf =>
      obtain ⟨g1, g2, g3, g4⟩ := C20_leaf_selection rows h hk
      refine ⟨_, rfl, g1.imp (fun h => ne_of_lt h), g2, fun c hc => ⟨((g3 c).1 hc).2.1, ((g3 c).1 hc).2.2.1⟩, ?_⟩
      intro h1
      rw [List.eq_nil_iff_forall_not_mem]
      intro c hc
      have := ((g3 c).1 hc).1; omega
    | eom =>
      by_cases hs : 1 < k
      · obtain ⟨d, _, _, hex⟩ := h.extractEom_eq hne hk hs o.maxClusterSize o.allowSingle
        obtain ⟨sel', he', hsorted, _⟩ := C22_eom_optimal_partial rows h hne hk hs o.maxClusterSize o.allowSingle
        have hnn := C21_eom_not_nested rows h hk (ScoreOps.exact K) d
          (sizeExceeds (clusterTree rows) o.maxClusterSize) (rootExceeds o.maxClusterSize n) o.allowSingle
        rw [he', Option.some.injEq] at hex
        rw [← hex] at hnn
        exact ⟨sel', he', hsorted.imp (fun h => ne_of_lt h), hnn.1, hnn.2, fun h1 => by omega⟩
      · have hk1 : k = 1 := by omega
        subst hk1
        exact ⟨[], C57_no_split_no_cluster rows h hne hk _ _, List.nodup_nil, fun a ha => by simp at ha, by simp,
          fun _ => rfl⟩
  obtain ⟨sel0, hsel0, hnd, hnn, hrg, hempty⟩ := hbase
  obtain ⟨sel, h1⟩ := h.epsilon_any hk hb hm o.epsilon hnd hnn hrg hempty
  exact ⟨sel0, sel, hsel0, h1⟩

end

section
variable [Field K] [LinearOrder K] [IsStrictOrderedRing K] [LinearOrder W] [OrderTop W] [Inhabited W] [Inhabited K]

/-- The condensed tree after the optional simplification. -/
theorem simplified_tree {n : ℕ} (hn : 2 ≤ n) {wt : ℕ → K} {t : List (Edge W)} (ht : SpanningTree n t)
    {o : ClusterOpts K} (h1 : 1 < o.minClusterSize) (h0 : ∀ x, x < n → 0 ≤ wt x)
    (hl : ∀ x, x < n → wt x < o.minClusterSize) {lam : W → K} (hlam : Antitone lam) (hpos : ∀ d, 0 ≤ lam d)
    (hper : o.persistence ≤ 0 ∨
      ∃ row ∈ condenseTree (Hier.ofRows (mstToLinkage wt (lexsortMst t))) wt o.minClusterSize none lam, n ≤ row.child) :
    ∃ rows k, simplifyIf o.persistence (condenseTree (Hier.ofRows (mstToLinkage wt (lexsortMst t))) wt o.minClusterSize none lam) = some rows ∧
      CondTree n k rows ∧ CBinary n k rows ∧ CMono rows ∧
      (∀ row ∈ rows, 1 < row.size ↔ n ≤ row.child) ∧ (∀ row ∈ rows, 0 ≤ row.lam) ∧ rows ≠ [] := by
  have ht' := ht.perm (lexsortMst_perm t)
  obtain ⟨k0, hct0, hbin0, hmono0, hkind0, hfull0, _⟩ :=
    C54_applies n hn wt _ ht' (lexsortMst_sorted t) o.minClusterSize h1 h0 hl lam hlam
  obtain ⟨_, _, _, hsep, hne0, _⟩ := condense_sep hn ht' (lexsortMst_sorted t) h1 h0 hl hlam hpos
  set T := condenseTree (Hier.ofRows (mstToLinkage wt (lexsortMst t))) wt o.minClusterSize none lam with hT
  have hlam0 : ∀ row ∈ T, 0 ≤ row.lam := hsep.nonneg
  have hsimp : ∃ rows k, simplifyIf o.persistence T = some rows ∧ CondTree n k rows ∧ CBinary n k rows ∧ CMono rows ∧
      (∀ row ∈ rows, 1 < row.size ↔ n ≤ row.child) ∧ ∀ row ∈ rows, 0 ≤ row.lam := by
    unfold simplifyIf
    by_cases hp : 0 < o.persistence
    · have hk0 : 1 < k0 := by
        obtain ⟨row, hr, hc⟩ := hper.resolve_left (not_le.2 hp)
        have := (hct0.children row.child).1 (List.mem_map_of_mem hr)
        omega
      obtain ⟨out, k', g1, g2, g3, g4, _, g5, _, g6, old, _, _, _, g7, _⟩ :=
        C54_simplify_partial o.persistence n k0 T hct0 hbin0 hmono0 hkind0 hfull0 hk0
      refine ⟨out, k', ?_, g2, g3, g4, g5, fun row hr => ?_⟩
      · rw [if_pos ⟨hp, List.length_pos_of_ne_nil hne0⟩]; exact g1
      · by_cases hc : row.child < n
        · obtain ⟨r, hr', _, he⟩ := g6 row hr hc
          rcases he with he | ⟨r', hr2, _, he⟩
          · rw [he]; exact hlam0 r hr'
          · rw [he]; exact hlam0 r' hr2
        · obtain ⟨r, hr', _, he, _⟩ := g7 row hr (by omega)
          rw [← he]; exact hlam0 r hr'
    · exact ⟨T, k0, if_neg fun h => hp h.1, hct0, hbin0, hmono0, hkind0, hlam0⟩
  obtain ⟨rows, k, hs, hct, hbin, hmono, hkind, hlamr⟩ := hsimp
  have hne : rows ≠ [] := by
    rintro rfl
    have := (hct.children 0).2 (.inl (by omega))
    simp at this
  exact ⟨rows, k, hs, hct, hbin, hmono, hkind, hlamr, hne⟩

/-- **C63** (partial).  For every spanning tree over at least two samples, weights below `min_cluster_size`, every selection
method, `allow_single_cluster`, `cluster_selection_epsilon` and `cluster_selection_persistence`: clustering the tree returns;
the selected clusters are clusters of the returned condensed tree, none nested in another, and there are none only if nothing
splits; the labels mean what they should; strengths lie in `[0, 1]` and are 0 for noise.
Missing: persistence above 0 when the condensed tree has no split (`C63_persistence_fails`), and excess of mass with a
`max_cluster_size` exceeded by a cluster that has no child clusters (`C63_max_cluster_size_fails`). -/
theorem C63_clustering_total_partial (n : ℕ) (hn : 2 ≤ n) (wt : ℕ → K) (t : List (Edge W)) (ht : SpanningTree n t)
    (o : ClusterOpts K) (h1 : 1 < o.minClusterSize) (h0 : ∀ x, x < n → 0 ≤ wt x)
    (hl : ∀ x, x < n → wt x < o.minClusterSize) (lam : W → K) (hlam : Antitone lam) (hpos : ∀ d, 0 ≤ lam d)
    (hper : o.persistence ≤ 0 ∨
      ∃ row ∈ condenseTree (Hier.ofRows (mstToLinkage wt (lexsortMst t))) wt o.minClusterSize none lam, n ≤ row.child)
    (hmax : o.method = .leaf ∨ ∀ rows, simplifyIf o.persistence
      (condenseTree (Hier.ofRows (mstToLinkage wt (lexsortMst t))) wt o.minClusterSize none lam) = some rows →
        LeavesFit n o.maxClusterSize rows) :
    ∃ (r : ClusterResult W K) (k : ℕ), clustersFromMst lam wt o t = some r ∧ CondTree n k r.condensed ∧ r.selected.Nodup ∧
      NonNested r.condensed r.selected ∧ (∀ c ∈ r.selected, n ≤ c ∧ c < n + k) ∧ (r.selected = [] ↔ k = 1) ∧
      LabelsMean n r.condensed r.selected (epsLam o.epsilon) r.labels ∧
      ∀ x, x < n → 0 ≤ r.strengths x ∧ r.strengths x ≤ 1 ∧ (r.labels[x]? = some (-1) → r.strengths x = 0) := by
  have hlen := ht.length (by omega)
  obtain ⟨rows, k, hs, hct, hbin, hmono, hkind, hlamr, hne⟩ := simplified_tree hn ht h1 h0 hl hlam hpos hper
  set T := condenseTree (Hier.ofRows (mstToLinkage wt (lexsortMst t))) wt o.minClusterSize none lam with hT
  obtain ⟨sel0, sel, g1, g2, g3, g4, g5, g6, g7⟩ := hct.selection_total hne hkind hbin hmono o
    (hmax.imp_right fun h => h rows hs)
  obtain ⟨labels, str, e1, e2, e3, e4⟩ := hct.labels_total hne hlamr sel g3 g4 (epsLam o.epsilon) g6
  refine ⟨⟨labels, str, mstToLinkage wt (lexsortMst t), rows, lexsortMst t, sel⟩, k, ?_, hct, g3, g4, g5, g7, e3, fun x hx => ?_⟩
  · unfold clustersFromMst
    simp only [hlen]
    rw [← hT, hs, Option.bind_some, g1, Option.bind_some, g2, Option.bind_some, e1, Option.bind_some, e2]
    rfl
  · obtain ⟨row, hrow, rfl⟩ := List.mem_map.1 ((hct.children x).2 (.inl hx))
    exact e4 row hrow hx

/-- **C63** fails with a positive persistence whenever the condensed tree has no split. -/
theorem C63_persistence_fails (n : ℕ) (hn : 2 ≤ n) (wt : ℕ → K) (t : List (Edge W)) (ht : SpanningTree n t)
    (o : ClusterOpts K) (h1 : 1 < o.minClusterSize) (h0 : ∀ x, x < n → 0 ≤ wt x)
    (hl : ∀ x, x < n → wt x < o.minClusterSize) (lam : W → K) (hlam : Antitone lam) (hper : 0 < o.persistence)
    (hno : ∀ row ∈ condenseTree (Hier.ofRows (mstToLinkage wt (lexsortMst t))) wt o.minClusterSize none lam, row.child < n) :
    clustersFromMst lam wt o t = none := by
  have ht' := ht.perm (lexsortMst_perm t)
  obtain ⟨k0, hct0, _, _, hkind0, _⟩ :=
    C54_applies n hn wt _ ht' (lexsortMst_sorted t) o.minClusterSize h1 h0 hl lam hlam
  have hk1 : k0 = 1 := by
    by_contra hk
    have := hct0.pos
    obtain ⟨row, hr, he⟩ := List.mem_map.1 ((hct0.children (n + 1)).2 (.inr ⟨by omega, by omega⟩))
    have := hno row hr
    omega
  subst hk1
  have hne : 0 < (condenseTree (Hier.ofRows (mstToLinkage wt (lexsortMst t))) wt o.minClusterSize none lam).length := by
    obtain ⟨row, hr, _⟩ := List.mem_map.1 ((hct0.children 0).2 (.inl (by omega)))
    exact List.length_pos_of_mem hr
  unfold clustersFromMst
  simp only
  have : simplifyIf o.persistence
      (condenseTree (Hier.ofRows (mstToLinkage wt (lexsortMst t))) wt o.minClusterSize none lam) = none := by
    unfold simplifyIf
    rw [if_pos ⟨hper, hne⟩]
    exact C54_undefined o.persistence n _ hct0 hkind0
  rw [this]
  rfl

/-- **C63**, exactly when clustering fails: persistence above 0 and a condensed tree without a split; or the selection ends with one cluster other than the top
one, and some sample outside it passes the density test of a lone top cluster. -/
theorem C63_fails_iff (n : ℕ) (hn : 2 ≤ n) (wt : ℕ → K) (t : List (Edge W)) (ht : SpanningTree n t)
    (o : ClusterOpts K) (h1 : 1 < o.minClusterSize) (h0 : ∀ x, x < n → 0 ≤ wt x)
    (hl : ∀ x, x < n → wt x < o.minClusterSize) (lam : W → K) (hlam : Antitone lam) (hpos : ∀ d, 0 ≤ lam d) :
    clustersFromMst lam wt o t = none ↔
      (0 < o.persistence ∧ ∀ row ∈ condenseTree (Hier.ofRows (mstToLinkage wt (lexsortMst t))) wt o.minClusterSize none lam, row.child < n) ∨
      ∃ rows sel c row, simplifyIf o.persistence (condenseTree (Hier.ofRows (mstToLinkage wt (lexsortMst t))) wt o.minClusterSize none lam) = some rows ∧
        baseSelection o n rows = some sel ∧ epsilonIf o.epsilon rows sel = some [c] ∧ n < c ∧
        row ∈ rows ∧ row.child < n ∧ row.lam ≠ 0 ∧ ¬ CDesc rows c row.child ∧ DenseEnough n rows (epsLam o.epsilon) row := by
  have hlen := ht.length (by omega)
  by_cases hsplit : o.persistence ≤ 0 ∨
      ∃ row ∈ condenseTree (Hier.ofRows (mstToLinkage wt (lexsortMst t))) wt o.minClusterSize none lam, n ≤ row.child
  · obtain ⟨rows, k, hs, hct, hbin, hmono, hkind, hlamr, hne⟩ := simplified_tree hn ht h1 h0 hl hlam hpos hsplit
    obtain ⟨sel0, sel, g1, g2, g3, g4, g5, g6, _⟩ := hct.selection_any hne hkind hbin hmono o
    have hval : clustersFromMst lam wt o t = (labelVector rows sel (epsLam o.epsilon) n).bind fun labels =>
        (strengthVector (rows.map fun row => ⟨row.parent, row.child, (row.lam : WithTop K), row.size⟩) sel labels).map
          fun strengths => ⟨labels, strengths, mstToLinkage wt (lexsortMst t), rows, lexsortMst t, sel⟩ := by
      unfold clustersFromMst
      simp only [hlen]
      rw [hs, Option.bind_some, g1, Option.bind_some, g2, Option.bind_some]
    rw [hval]
    constructor
    · intro hnone
      right
      by_contra hno
      obtain ⟨labels, str, e1, e2, _⟩ := hct.labels_safe hne hlamr sel g3 g4 (epsLam o.epsilon) (by
        by_cases htop : n ∈ sel
        · exact .inr (.inl (g6 htop))
        · refine .inr (.inr ⟨fun c hc => lt_of_le_of_ne (g5 c hc).1 fun he => htop (he ▸ hc), fun hlen1 row hrow hx hl0 hd hdense => ?_⟩)
          obtain ⟨c, rfl⟩ := List.length_eq_one_iff.1 hlen1
          exact hno ⟨rows, sel0, c, row, hs, g1, g2, lt_of_le_of_ne (g5 c (by simp)).1 fun he => htop (by simp [he]), hrow, hx, hl0, hd c (by simp), hdense⟩)
      rw [e1, Option.bind_some, e2] at hnone
      cases hnone
    · rintro (⟨h3, h4⟩ | ⟨rows', sel', c, row, a1, a2, a3, a4, a5, a6, a7, a8, a9⟩)
      · rcases hsplit with h5 | ⟨row, h5, h6⟩
        · exact absurd h3 (not_lt.2 h5)
        · exact absurd (h4 row h5) (not_lt.2 h6)
      · obtain rfl := Option.some.inj (hs.symm.trans a1)
        obtain rfl := Option.some.inj (g1.symm.trans a2)
        obtain rfl := Option.some.inj (g2.symm.trans a3)
        rw [C26_key_error rows hct c a4 (epsLam o.epsilon) row a5 a6 a7 a8 a9]
        rfl
  · push Not at hsplit
    exact ⟨fun _ => .inl hsplit, fun _ => C63_persistence_fails n hn wt t ht o h1 h0 hl lam hlam hsplit.1 hsplit.2⟩

theorem returned_split {n : ℕ} (hn : 2 ≤ n) {wt : ℕ → K} {t : List (Edge W)} (ht : SpanningTree n t)
    {o : ClusterOpts K} (h1 : 1 < o.minClusterSize) (h0 : ∀ x, x < n → 0 ≤ wt x)
    (hl : ∀ x, x < n → wt x < o.minClusterSize) {lam : W → K} (hlam : Antitone lam) (hpos : ∀ d, 0 ≤ lam d)
    {r : ClusterResult W K} (hr : clustersFromMst lam wt o t = some r) : o.persistence ≤ 0 ∨
      ∃ row ∈ condenseTree (Hier.ofRows (mstToLinkage wt (lexsortMst t))) wt o.minClusterSize none lam, n ≤ row.child := by
  have hnf := (C63_fails_iff n hn wt t ht o h1 h0 hl lam hlam hpos).not.1 (by rw [hr]; simp)
  push Not at hnf
  exact (le_or_gt o.persistence 0).imp_right hnf.1

/-- **C63**, all options: whenever clustering the tree returns, the selected clusters are clusters of the returned condensed tree, none nested in another;
if the top one is selected there is no other; the labels mean what they should; strengths lie in `[0, 1]` and are 0 for noise. -/
theorem C63_returned (n : ℕ) (hn : 2 ≤ n) (wt : ℕ → K) (t : List (Edge W)) (ht : SpanningTree n t)
    (o : ClusterOpts K) (h1 : 1 < o.minClusterSize) (h0 : ∀ x, x < n → 0 ≤ wt x)
    (hl : ∀ x, x < n → wt x < o.minClusterSize) (lam : W → K) (hlam : Antitone lam) (hpos : ∀ d, 0 ≤ lam d)
    {r : ClusterResult W K} (hr : clustersFromMst lam wt o t = some r) :
    ∃ k, CondTree n k r.condensed ∧ r.selected.Nodup ∧
      NonNested r.condensed r.selected ∧ (∀ c ∈ r.selected, n ≤ c ∧ c < n + k) ∧ (n ∈ r.selected → r.selected = [n]) ∧ (k = 1 → r.selected = []) ∧
      LabelsMean n r.condensed r.selected (epsLam o.epsilon) r.labels ∧
      ∀ x, x < n → 0 ≤ r.strengths x ∧ r.strengths x ≤ 1 ∧ (r.labels[x]? = some (-1) → r.strengths x = 0) := by
  have hlen := ht.length (by omega)
  have hnf := (C63_fails_iff n hn wt t ht o h1 h0 hl lam hlam hpos).not.1 (by rw [hr]; simp)
  push Not at hnf
  obtain ⟨hsplit, hkey⟩ := hnf
  have hsplit : o.persistence ≤ 0 ∨
      ∃ row ∈ condenseTree (Hier.ofRows (mstToLinkage wt (lexsortMst t))) wt o.minClusterSize none lam, n ≤ row.child :=
    (le_or_gt o.persistence 0).imp_right hsplit
  obtain ⟨rows, k, hs, hct, hbin, hmono, hkind, hlamr, hne⟩ := simplified_tree hn ht h1 h0 hl hlam hpos hsplit
  obtain ⟨sel0, sel, g1, g2, g3, g4, g5, g6, g7⟩ := hct.selection_any hne hkind hbin hmono o
  obtain ⟨labels, str, e1, e2, e3, e4⟩ := hct.labels_safe hne hlamr sel g3 g4 (epsLam o.epsilon) (by
    by_cases htop : n ∈ sel
    · exact .inr (.inl (g6 htop))
    · refine .inr (.inr ⟨fun c hc => lt_of_le_of_ne (g5 c hc).1 fun he => htop (he ▸ hc), fun hlen1 row hrow hx hl0 hd => ?_⟩)
      obtain ⟨c, rfl⟩ := List.length_eq_one_iff.1 hlen1
      exact hkey rows sel0 c row hs g1 g2 (lt_of_le_of_ne (g5 c (by simp)).1 fun he => htop (by simp [he])) hrow hx hl0 (hd c (by simp)))
  have hval : clustersFromMst lam wt o t = some ⟨labels, str, mstToLinkage wt (lexsortMst t), rows, lexsortMst t, sel⟩ := by
    unfold clustersFromMst
    simp only [hlen]
    rw [hs, Option.bind_some, g1, Option.bind_some, g2, Option.bind_some, e1, Option.bind_some, e2]
    rfl
  obtain rfl := Option.some.inj (hr.symm.trans hval)
  refine ⟨k, hct, g3, g4, g5, g6, g7, e3, fun x hx => ?_⟩
  obtain ⟨row, hrow, rfl⟩ := List.mem_map.1 ((hct.children x).2 (.inl hx))
  exact e4 row hrow hx

/-- What the results of clustering a spanning tree have in common, whatever selects the clusters. -/
structure Clustered (n : ℕ) (lam : W → K) (wt : ℕ → K) (o : ClusterOpts K) (t : List (Edge W)) (r : ClusterResult W K) : Prop where
  simp : simplifyIf o.persistence (condenseTree (Hier.ofRows (mstToLinkage wt (lexsortMst t))) wt o.minClusterSize none lam) = some r.condensed
  split : o.persistence ≤ 0 ∨
    ∃ row ∈ condenseTree (Hier.ofRows (mstToLinkage wt (lexsortMst t))) wt o.minClusterSize none lam, n ≤ row.child
  tree : ∃ k, CondTree n k r.condensed ∧ r.selected.Nodup ∧
    NonNested r.condensed r.selected ∧ (∀ c ∈ r.selected, n ≤ c ∧ c < n + k) ∧ (n ∈ r.selected → r.selected = [n]) ∧ (k = 1 → r.selected = []) ∧
    LabelsMean n r.condensed r.selected (epsLam o.epsilon) r.labels ∧
    ∀ x, x < n → 0 ≤ r.strengths x ∧ r.strengths x ≤ 1 ∧ (r.labels[x]? = some (-1) → r.strengths x = 0)
  strength : ∃ f : K → WithTop K,
    strengthVector (r.condensed.map fun row => ⟨row.parent, row.child, f row.lam, row.size⟩) r.selected r.labels = some r.strengths

theorem clustered_of_mst {n : ℕ} (hn : 2 ≤ n) {wt : ℕ → K} {t : List (Edge W)} (ht : SpanningTree n t)
    {o : ClusterOpts K} (h1 : 1 < o.minClusterSize) (h0 : ∀ x, x < n → 0 ≤ wt x)
    (hl : ∀ x, x < n → wt x < o.minClusterSize) {lam : W → K} (hlam : Antitone lam) (hpos : ∀ d, 0 ≤ lam d)
    {r : ClusterResult W K} (hr : clustersFromMst lam wt o t = some r) : Clustered n lam wt o t r := by
  refine ⟨?_, returned_split hn ht h1 h0 hl hlam hpos hr, C63_returned n hn wt t ht o h1 h0 hl lam hlam hpos hr, ?_⟩ <;>
  (unfold clustersFromMst at hr
   simp only at hr
   obtain ⟨rows, e1, hr⟩ := Option.bind_eq_some_iff.1 hr
   obtain ⟨sel0, _, hr⟩ := Option.bind_eq_some_iff.1 hr
   obtain ⟨sel, _, hr⟩ := Option.bind_eq_some_iff.1 hr
   obtain ⟨labels, _, hr⟩ := Option.bind_eq_some_iff.1 hr
   obtain ⟨str, e2, rfl⟩ := Option.map_eq_some_iff.1 hr
   first | exact e1 | exact ⟨_, e2⟩)

end

/-! ## Concrete cases and counterexamples -/

/-- Three samples close together, two others close together, distance 1 between the groups. -/
def exFive : List (Edge (WithTop ℚ)) :=
  [⟨0, 1, ((1 / 2 : ℚ) : WithTop ℚ)⟩, ⟨1, 2, ((1 / 2 : ℚ) : WithTop ℚ)⟩, ⟨3, 4, ((1 / 2 : ℚ) : WithTop ℚ)⟩,
    ⟨2, 3, ((1 : ℚ) : WithTop ℚ)⟩]

/-- **C63** fails with `max_cluster_size = 2`: the group of three is too large and has no child clusters, so only the group of
two is selected, and labelling a sample of the other group raises `KeyError`. -/
theorem C63_max_cluster_size_fails :
    clustersFromMst lamq (fun _ => 1) { exOpts .eom 0 with maxClusterSize := some 2 } exFive = none := by decide +kernel

theorem exFive_tree : SpanningTree 5 exFive := by
  have hstep : ∀ i, i < 4 → Conn exFive i (i + 1) := by
    intro i hi
    interval_cases i
    · exact Conn.edge (e := ⟨0, 1, ((1 / 2 : ℚ) : WithTop ℚ)⟩) (by simp [exFive])
    · exact Conn.edge (e := ⟨1, 2, ((1 / 2 : ℚ) : WithTop ℚ)⟩) (by simp [exFive])
    · exact Conn.edge (e := ⟨2, 3, ((1 : ℚ) : WithTop ℚ)⟩) (by simp [exFive])
    · exact Conn.edge (e := ⟨3, 4, ((1 / 2 : ℚ) : WithTop ℚ)⟩) (by simp [exFive])
  have h0 : ∀ a, a < 5 → Conn exFive a 0 := by
    intro a ha
    induction a with
    | zero => exact Conn.refl _ _
    | succ a ih => exact (hstep a (by omega)).symm.trans (ih (by omega))
  have hconn : ∀ a b, a < 5 → b < 5 → Conn exFive a b := fun a b ha hb => (h0 a ha).trans (h0 b hb).symm
  have hr : InRange 5 exFive := by
    intro e he
    simp only [exFive, List.mem_cons, List.not_mem_nil, or_false] at he
    rcases he with rfl | rfl | rfl | rfl <;> decide
  exact ⟨hr, acyclic_of_connected hr hconn (by decide), hconn⟩

/-- The hypotheses hold for this data with a positive persistence and a positive epsilon. -/
example : ∃ (r : ClusterResult (WithTop ℚ) ℚ) (k : ℕ), clustersFromMst lamq (fun _ => 1)
    { exOpts .eom (1 / 2) with epsilon := 1 / 3, maxClusterSize := some 3 } exFive = some r ∧ CondTree 5 k r.condensed := by
  obtain ⟨r, k, h1, h2, _⟩ := C63_clustering_total_partial 5 (by decide) (fun _ => 1) exFive exFive_tree
    { exOpts .eom (1 / 2) with epsilon := 1 / 3, maxClusterSize := some 3 } (by decide) (by decide) (by decide) lamq
    lamq_antitone lamq_nonneg (.inr (by decide +kernel)) (.inr fun rows hr => by
      have : simplifyIf (1 / 2) (condenseTree (Hier.ofRows (mstToLinkage (fun _ => (1 : ℚ)) (lexsortMst exFive))) (fun _ => 1)
        2 none lamq) = some rows := hr
      intro m hm row hrow _ _
      have hall : (simplifyIf (1 / 2) (condenseTree (Hier.ofRows (mstToLinkage (fun _ => (1 : ℚ)) (lexsortMst exFive)))
        (fun _ => 1) 2 none lamq)).all (fun rs => rs.all fun r => decide (r.size ≤ 3)) = true := by decide +kernel
      rw [this, Option.all_some, List.all_eq_true] at hall
      have hm' : (3 : ℚ) = m := by simpa using hm
      rw [← hm']
      exact of_decide_eq_true (hall row hrow))
  exact ⟨r, k, h1, h2⟩

example : (clustersFromMst lamq (fun _ => 1) { exOpts .eom (1 / 2) with epsilon := 1 / 3, maxClusterSize := some 3 }
    exFive).map ClusterResult.labels = some [1, 1, 1, 0, 0] := by decide +kernel

/-- A `max_cluster_size` below the size of both leaf clusters: nothing is selected, and clustering returns although the hypothesis of
`C63_clustering_total_partial` on leaf clusters fails. -/
example : ∃ r, clustersFromMst lamq (fun _ => 1) { exOpts .eom 0 with maxClusterSize := some 1 } exFive = some r ∧ r.selected = [] ∧
    ∃ k, CondTree 5 k r.condensed ∧ LabelsMean 5 r.condensed r.selected (epsLam 0) r.labels := by
  have hd : (clustersFromMst lamq (fun _ => 1) { exOpts .eom 0 with maxClusterSize := some 1 } exFive).map ClusterResult.selected = some [] := by
    decide +kernel
  obtain ⟨r, hr, hsel⟩ := Option.map_eq_some_iff.1 hd
  obtain ⟨k, h1, _, _, _, _, _, h2, _⟩ := C63_returned 5 (by decide) (fun _ => 1) exFive exFive_tree
    { exOpts .eom 0 with maxClusterSize := some 1 } (by decide) (by decide) (by decide) lamq lamq_antitone lamq_nonneg hr
  exact ⟨r, hr, hsel, k, h1, h2⟩

/-- `C63_fails_iff` on the failing case: a single cluster was selected and a sample outside it is dense enough to be given a label. -/
example : ∃ (rows : List (CRow ℚ ℚ)) (c : ℕ) (row : CRow ℚ ℚ), row ∈ rows ∧ 5 < c ∧ row.child < 5 ∧ ¬ CDesc rows c row.child ∧ DenseEnough 5 rows (epsLam (0 : ℚ)) row := by
  obtain h | ⟨rows, sel, c, row, _, _, _, h1, h2, h3, _, h4, h5⟩ := (C63_fails_iff 5 (by decide) (fun _ => 1) exFive exFive_tree
    { exOpts .eom 0 with maxClusterSize := some 2 } (by decide) (by decide) (by decide) lamq lamq_antitone lamq_nonneg).1 C63_max_cluster_size_fails
  · exact absurd h.1 (by decide)
  · exact ⟨rows, c, row, h2, h1, h3, h4, h5⟩

end Verif
