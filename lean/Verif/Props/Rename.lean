import Verif.Lemmas.RenDown
import Verif.Props.Total
import Verif.Props.SameTree

/-!
# Property C92: permuting the samples permutes the result
-/

namespace Verif

section
variable {L S : Type*} {n : ℕ} {f : Equiv.Perm ℕ} {rows rows' : List (CRow L S)}

theorem renCRow_symm (hf : ∀ x, f x < n ↔ x < n) (row : CRow L S) : renCRow n f.symm (renCRow n f row) = row := by
  have : onNodes n f.symm (onNodes n f row.child) = row.child := by
    by_cases h : row.child < n
    · have e : onNodes n f row.child = f row.child := by unfold onNodes; rw [if_pos h]
      rw [e]
      unfold onNodes
      rw [if_pos ((hf _).2 h), Equiv.symm_apply_apply]
    · rw [onNodes_ge (f := f) (by omega), onNodes_ge (by omega)]
  unfold renCRow
  simp only [this]

theorem RowsRen.symm (hf : ∀ x, f x < n ↔ x < n) (h : RowsRen n f rows rows') : RowsRen n f.symm rows' rows where
  cols := h.cols.symm
  perm := by
    have := h.perm.map (renCRow n f.symm)
    rw [List.map_map] at this
    have e : rows.map (renCRow n f.symm ∘ renCRow n f) = rows := by
      rw [show (renCRow n f.symm ∘ renCRow n f : CRow L S → CRow L S) = id from funext fun r => renCRow_symm hf r, List.map_id]
    rw [e] at this
    exact this.symm

/-! ### Selected clusters are clusters -/

theorem traverseUpwards_ge (close : L → Bool) {ct : List (CRow L S)} (hp : ∀ row ∈ ct, n ≤ row.parent) {root : ℕ} (hr : ct ≠ [] → n ≤ root) :
    ∀ fuel seg p, traverseUpwards close ct root fuel seg = some p → n ≤ p := by
  intro fuel
  induction fuel with
  | zero => intro seg p h; cases h
  | succ fuel ih =>
    intro seg p h
    unfold traverseUpwards at h
    split at h
    · cases h
    · rename_i row hrow
      have hm := List.mem_of_find?_eq_some hrow
      split at h
      · rw [← Option.some.inj h]; exact hr (List.ne_nil_of_mem hm)
      · split at h
        · cases h
        · split at h
          · exact ih _ _ h
          · rw [← Option.some.inj h]; exact hp row hm

theorem epsilonSearch_ge (close : L → Bool) {ct : List (CRow L S)} (hp : ∀ row ∈ ct, n ≤ row.parent) {sel out : List ℕ} (hs : ∀ c ∈ sel, n ≤ c)
    (h : epsilonSearch close ct sel = some out) : ∀ c ∈ out, n ≤ c := by
  unfold epsilonSearch at h
  simp only at h
  set root := (ct.map CRow.parent).foldl min ((ct.map CRow.parent).headD 0) with hroot
  have hr : ct ≠ [] → n ≤ root := by
    intro hne
    have key : ∀ (l : List ℕ) (a : ℕ), n ≤ a → (∀ x ∈ l, n ≤ x) → n ≤ l.foldl min a := by
      intro l
      induction l with
      | nil => intro a ha _; exact ha
      | cons b l ih => intro a ha hl; exact ih _ (le_min ha (hl b (by simp))) fun x hx => hl x (by simp [hx])
    refine key _ _ ?_ fun x hx => ?_
    · obtain ⟨row, rest, rfl⟩ := List.exists_cons_of_ne_nil hne
      exact hp row (by simp)
    · obtain ⟨row, hr, rfl⟩ := List.mem_map.1 hx
      exact hp row hr
  generalize ct.insertionSort (fun a b : CRow L S => a.parent ≤ b.parent) = bp at h
  have key : ∀ (sel : List ℕ) (st st' : List ℕ × List ℕ), (∀ c ∈ sel, n ≤ c) → (∀ c ∈ st.1, n ≤ c) →
      sel.foldlM (epsStep close ct bp root) st = some st' → ∀ c ∈ st'.1, n ≤ c := by
    intro sel
    induction sel with
    | nil =>
      intro st st' _ h2 h3
      have h3 : some st = some st' := h3
      rw [← Option.some.inj h3]; exact h2
    | cons a sel ih =>
      intro st st' h1 h2 h3
      rw [List.foldlM_cons] at h3
      cases he : epsStep close ct bp root st a with
      | none => rw [he] at h3; cases h3
      | some st1 =>
        rw [he] at h3
        refine ih st1 st' (fun c hc => h1 c (by simp [hc])) ?_ h3
        unfold epsStep at he
        split at he
        · cases he
        · split at he
          · split at he
            · rw [← Option.some.inj he]; exact h2
            · split at he
              · cases he
              · rename_i p hp'
                rw [← Option.some.inj he]
                intro c hc
                rcases List.mem_append.1 hc with hc | hc
                · exact h2 c hc
                · rw [List.mem_singleton.1 hc]
                  exact traverseUpwards_ge close hp hr _ _ _ hp'
          · rw [← Option.some.inj he]
            intro c hc
            rcases List.mem_append.1 hc with hc | hc
            · exact h2 c hc
            · rw [List.mem_singleton.1 hc]
              exact h1 a (by simp)
  obtain ⟨st, h1, h2⟩ := Option.map_eq_some_iff.1 h
  rw [← h2]
  exact key sel _ _ hs (by simp) h1

end

section
variable {K : Type*} [Field K] [LinearOrder K] {n k : ℕ} {f : Equiv.Perm ℕ} {rows rows' : List (CRow K K)}

theorem CondTree.baseSelection_ge (h : CondTree n k rows) (hne : rows ≠ []) (hk : ∀ row ∈ rows, 1 < row.size ↔ n ≤ row.child) (o : ClusterOpts K)
    {sel : List ℕ} (hs : baseSelection o n rows = some sel) : ∀ c ∈ sel, n ≤ c := by
  unfold baseSelection at hs
  cases hm : o.method with
  | leaf =>
    rw [hm] at hs
    intro c hc
    rw [← Option.some.inj hs] at hc
    unfold leafSelection clusterTreeLeaves at hc
    split at hc
    · simp at hc
    · exact (List.mem_range'_1.1 (List.mem_filter.1 hc).1).1
  | eom =>
    rw [hm] at hs
    simp only at hs
    by_cases h1 : 1 < k
    · obtain ⟨d, hd, _, he⟩ := h.extractEom_eq hne hk h1 o.maxClusterSize o.allowSingle
      rw [he, Option.some.injEq] at hs
      subst hs
      intro c hc
      unfold eomClusters at hc
      split at hc
      · simp at hc
      · have := (List.mem_filter.1 hc).1
        rw [hd] at this
        exact (List.mem_range'_1.1 this).1
    · have hk1 : k = 1 := by have := h.pos; omega
      subst hk1
      rw [C57_no_split_no_cluster rows h hne hk _ _, Option.some.injEq] at hs
      subst hs
      simp

/-- Lambda as an extended number. -/
def topRow (row : CRow K K) : CRow (WithTop K) K := ⟨row.parent, row.child, (row.lam : WithTop K), row.size⟩

omit [Field K] [LinearOrder K] in
theorem CondTree.top (h : CondTree n k rows) : CondTree n k (rows.map topRow) := by
  have hmap : (rows.map topRow).map CRow.child = rows.map CRow.child := by rw [List.map_map]; rfl
  refine ⟨h.pos, by rw [hmap]; exact h.nodup, by rw [hmap]; exact h.children, by rw [hmap]; exact h.asc, ?_, ?_, ?_⟩
  · intro r hr; obtain ⟨row, hrow, rfl⟩ := List.mem_map.1 hr; exact h.parents row hrow
  · intro r hr hc; obtain ⟨row, hrow, rfl⟩ := List.mem_map.1 hr; exact h.down row hrow hc
  · intro i r hi
    rw [List.getElem?_map] at hi
    obtain ⟨row, hrow, rfl⟩ := Option.map_eq_some_iff.1 hi
    rcases h.order i row hrow with h4 | ⟨j, row', h4, h5, h6⟩
    · exact .inl h4
    · refine .inr ⟨j, topRow row', h4, ?_, h6⟩
      rw [List.getElem?_map, h5]; rfl

theorem RowsRen.strengthVector (hf : ∀ x, f x < n ↔ x < n) (h : RowsRen n f rows rows') (hc : CondTree n k rows) (hne : rows ≠ []) {sel : List ℕ}
    {labels labels' : List ℤ} (h1 : labels.length = n) (h2 : labels'.length = n) (h3 : ∀ x, x < n → labels'[f x]? = labels[x]?)
    (h4 : ∀ l ∈ labels, l < sel.length) (h5 : ∀ l ∈ labels', l < sel.length) :
    ∃ s s', strengthVector (rows.map topRow) sel labels = some s ∧ strengthVector (rows'.map topRow) sel labels' = some s' ∧
      ∀ x, x < n → s' (f x) = s x := by
  have hc' := h.condTree hf hc
  have hlen : rows'.length = rows.length := (List.Forall₂.length_eq h.forall₂).symm
  have hne' : rows' ≠ [] := by
    intro he
    rw [he] at hlen
    exact hne (List.length_eq_zero_iff.1 hlen.symm)
  obtain ⟨s, e1, g1⟩ := strengthVector_eq (K := K) (rows.map topRow) hc.top (by simpa using hne) sel labels h1 h4
  obtain ⟨s', e2, g2⟩ := strengthVector_eq (K := K) (rows'.map topRow) hc'.top (by simpa using hne') sel labels' h2 h5
  refine ⟨s, s', e1, e2, fun x hx => ?_⟩
  have hmax : ∀ c, maxLambda (rows'.map topRow) c = maxLambda (rows.map topRow) c := by
    intro c
    have ha : AnonEq n rows rows' := h.forall₂
    unfold maxLambda
    rw [List.foldl_map, List.foldl_map]
    refine ha.foldl (fun b r r' he => ?_) _
    simp only [topRow, (anonRow_eq he).1, (anonRow_eq he).2.1, (anonRow_eq he).2.2.1]
    congr
  obtain ⟨row, hrow, rfl⟩ := List.mem_map.1 ((hc.children x).2 (.inl hx))
  have hrow' : renCRow n f row ∈ rows' := h.mem_iff.2 ⟨row, hrow, rfl⟩
  have hch : (topRow (renCRow n f row)).child = f row.child := by
    change onNodes n f row.child = _
    unfold onNodes; rw [if_pos hx]
  have q1 := g1 (topRow row) (List.mem_map_of_mem hrow) hx
  have q2 := g2 (topRow (renCRow n f row)) (List.mem_map_of_mem hrow') (by rw [hch]; exact (hf _).2 hx)
  rw [hch, h3 _ hx] at q2
  have hget : labels[row.child]? = some labels[row.child] := List.getElem?_eq_getElem (by omega)
  by_cases hneg : labels[row.child] < 0
  · rw [q2.1 _ hget hneg]
    exact (q1.1 _ hget hneg).symm
  · have hlt := h4 _ (List.getElem_mem (by omega : row.child < labels.length))
    have hle : (sortIds sel).length = sel.length := (List.perm_insertionSort _ sel).length_eq
    have hi : labels[row.child].toNat < (sortIds sel).length := by omega
    have hget' : labels[row.child]? = some ((labels[row.child].toNat : ℕ) : ℤ) := by
      rw [hget, Int.toNat_of_nonneg (by omega)]
    rw [q2.2 _ _ hget' (List.getElem?_eq_getElem hi), hmax]
    exact (q1.2 _ _ hget' (List.getElem?_eq_getElem hi)).symm

/-! ### From the condensed tree on -/

/-- What the second half of `clusters_from_spanning_tree` computes from the condensed tree. -/
def fromCondensed (o : ClusterOpts K) (n : ℕ) (T : List (CRow K K)) : Option (List (CRow K K) × List ℕ × List ℤ × (ℕ → K)) :=
  (simplifyIf o.persistence T).bind fun rows =>
  (baseSelection o n rows).bind fun sel0 =>
  (epsilonIf o.epsilon rows sel0).bind fun sel =>
  (labelVector rows sel (epsLam o.epsilon) n).bind fun labels =>
  (strengthVector (rows.map topRow) sel labels).map fun strengths => (rows, sel, labels, strengths)

theorem clustersFromMst_eq {W : Type*} [LinearOrder W] [Inhabited W] [Inhabited K] (lam : W → K) (wt : ℕ → K) (o : ClusterOpts K) (g : List (Edge W)) :
    clustersFromMst lam wt o g =
      (fromCondensed o (g.length + 1) (condenseTree (Hier.ofRows (mstToLinkage wt (lexsortMst g))) wt o.minClusterSize none lam)).map
        fun q => ⟨q.2.2.1, q.2.2.2, mstToLinkage wt (lexsortMst g), q.1, lexsortMst g, q.2.1⟩ := by
  unfold clustersFromMst fromCondensed
  simp only [Option.map_bind, Function.comp_def, Option.map_map]
  rfl

/-- The second half of `clusters_from_spanning_tree` respects the names of the samples. -/
theorem RowsRen.fromCondensed [IsStrictOrderedRing K] (hn : 0 < n) (hf : ∀ x, f x < n ↔ x < n) {T T' : List (CRow K K)} (h : RowsRen n f T T')
    (hc : CondTree n k T) (hb : CBinary n k T) (hm : CMono T) (hk : ∀ row ∈ T, 1 < row.size ↔ n ≤ row.child)
    (hfull : ∀ c, n ≤ c → c < n + k → ∃ row ∈ T, row.parent = c) (o : ClusterOpts K) {rows : List (CRow K K)} {sel : List ℕ} {labels : List ℤ}
    {s : ℕ → K} (hq : fromCondensed o n T = some (rows, sel, labels, s)) :
    ∃ rows' labels' s', Verif.fromCondensed o n T' = some (rows', sel, labels', s') ∧ RowsRen n f rows rows' ∧ labels.length = n ∧ labels'.length = n ∧
      (∀ x, x < n → labels'[f x]? = labels[x]?) ∧ ∀ x, x < n → s' (f x) = s x := by
  unfold Verif.fromCondensed at hq
  obtain ⟨R, hR, hq⟩ := Option.bind_eq_some_iff.1 hq
  obtain ⟨sel0, hsel0, hq⟩ := Option.bind_eq_some_iff.1 hq
  obtain ⟨sel', hsel, hq⟩ := Option.bind_eq_some_iff.1 hq
  obtain ⟨labels', hlab, hq⟩ := Option.bind_eq_some_iff.1 hq
  obtain ⟨s0, hs, hq⟩ := Option.map_eq_some_iff.1 hq
  simp only [Prod.mk.injEq] at hq
  obtain ⟨rfl, rfl, rfl, rfl⟩ := hq
  have hTne : T ≠ [] := by
    rintro rfl
    have := (hc.children 0).2 (.inl hn)
    simp at this
  have hlenT : T'.length = T.length := (List.Forall₂.length_eq h.forall₂).symm
  have hsimp : ∃ R' k', simplifyIf o.persistence T' = some R' ∧ RowsRen n f R R' ∧ CondTree n k' R ∧ ∀ row ∈ R, 1 < row.size ↔ n ≤ row.child := by
    unfold simplifyIf at hR ⊢
    rw [hlenT]
    by_cases hp : 0 < o.persistence ∧ 0 < T.length
    · rw [if_pos hp] at hR ⊢
      have hk1 : 1 < k := by
        by_contra hle
        have : k = 1 := by have := hc.pos; omega
        subst this
        rw [C54_undefined o.persistence n T hc hk] at hR
        cases hR
      obtain ⟨out, k', g1, g2, _, _, _, g5, _⟩ := C54_simplify_partial o.persistence n k T hc hb hm hk hfull hk1
      rw [g1, Option.some.injEq] at hR
      subst hR
      have hhead : ∀ row, T.head? = some row → row.parent = n := fun row hr => by
        rcases hc.order 0 row (by rw [← List.head?_eq_getElem?]; exact hr) with h1 | ⟨j, _, hj, _⟩
        · exact h1
        · omega
      rcases h.simplify hf (fun row hr => (hk row hr).1) (fun row hr => (hc.parents row hr).1) hhead o.persistence with ⟨e1, _⟩ | ⟨o1, o2, e1, e2, e3⟩
      · rw [g1] at e1; cases e1
      · rw [g1, Option.some.injEq] at e1
        subst e1
        exact ⟨o2, k', e2, e3, g2, g5⟩
    · rw [if_neg hp] at hR ⊢
      rw [Option.some.injEq] at hR
      subst hR
      exact ⟨T', k, rfl, h, hc, hk⟩
  obtain ⟨R', k', hR', hren, hct, hkind⟩ := hsimp
  have hne : R ≠ [] := by
    rintro rfl
    have := (hct.children 0).2 (.inl hn)
    simp at this
  have ha : AnonEq n R R' := hren.forall₂
  have hge0 := hct.baseSelection_ge hne hkind o hsel0
  have hge : ∀ c ∈ sel', n ≤ c := by
    unfold epsilonIf at hsel
    split at hsel
    · exact epsilonSearch_ge _ (fun row hr => (hct.parents row (List.mem_filter.1 hr).1).1) hge0 hsel
    · rw [← Option.some.inj hsel]; exact hge0
  obtain ⟨lab2, l1, l2, l3, l4, l5, l6⟩ := hren.labelVector hf hct hne hge (epsLam o.epsilon) hlab
  obtain ⟨t1, t2, s1, s2, s3⟩ := hren.strengthVector hf hct hne l2 l3 l4 l5 l6
  rw [hs, Option.some.injEq] at s1
  subst s1
  refine ⟨R', lab2, t2, ?_, hren, l2, l3, l4, s3⟩
  unfold Verif.fromCondensed
  rw [hR', Option.bind_some, ha.baseSelection (fun row hr => (hkind row hr).1), hsel0, Option.bind_some,
    ha.epsilonIf (fun row hr => (hkind row hr).1), hsel, Option.bind_some, l1, Option.bind_some, s2]
  rfl

end

section
variable {W K : Type*} [LinearOrder W] [Inhabited W] [Field K] [LinearOrder K] [IsStrictOrderedRing K] [Inhabited K]

/-- `r'` is `r` with sample `x` called `f x`: the same clusters are selected, and samples have the same labels and strengths; the single linkage tree is
the same up to the names of the samples, and so is the condensed tree, in which samples leaving a cluster together may also be listed in another order. -/
structure RenamedResult (n : ℕ) (f : ℕ → ℕ) (r r' : ClusterResult W K) : Prop where
  selected : r'.selected = r.selected
  sizes : r.labels.length = n ∧ r'.labels.length = n
  labels : ∀ x, x < n → r'.labels[f x]? = r.labels[x]?
  strengths : ∀ x, x < n → r'.strengths (f x) = r.strengths x
  linkage : r'.linkage = r.linkage.map (renRow n f)
  condensed : r'.condensed.Perm (r.condensed.map (renCRow n f))
  columns : r'.condensed.map (anonRow n) = r.condensed.map (anonRow n)

theorem SameComponents.renamed {n : ℕ} (hn : 2 ≤ n) {f : Equiv.Perm ℕ} (hf : ∀ x, f x < n ↔ x < n) {g g' : List (Edge W)} (h : SameComponents n f g g')
    (hg : SpanningTree n g) (hg' : SpanningTree n g') (hd : (g.map Edge.w).Nodup) (lam : W → K) (hlam : Antitone lam) (wt wt' : ℕ → K)
    (hwt : ∀ x, x < n → wt' (f x) = wt x) (o : ClusterOpts K) (h1 : 1 < o.minClusterSize) (h0 : ∀ x, x < n → 0 ≤ wt x)
    (hl : ∀ x, x < n → wt x < o.minClusterSize) {r : ClusterResult W K} (hr : clustersFromMst lam wt o g = some r) :
    ∃ r', clustersFromMst lam wt' o g' = some r' ∧ RenamedResult n f r r' := by
  have hpos : 0 < n := by omega
  have hgl := hg.length hpos
  have hgl' := hg'.length hpos
  have hlink := h.linkage (wt := wt) hf hpos hg hg' hd hwt
  have ht := hg.perm (lexsortMst_perm g)
  obtain ⟨k, hct, hbin, hmono, hkind, hfull, _⟩ := C54_applies n hn wt _ ht (lexsortMst_sorted g) o.minClusterSize h1 h0 hl lam hlam
  obtain ⟨hden, _⟩ := C12_linkage_is_dendrogram n hpos wt _ ht (lexsortMst_sorted g)
  have hHn := hden.hier_n
  have hlen : (mstToLinkage wt (lexsortMst g)).length + 1 = n := hHn
  have hren : HierRen f (Hier.ofRows (mstToLinkage wt (lexsortMst g))) (Hier.ofRows (mstToLinkage wt' (lexsortMst g'))) := by
    rw [hlink]
    exact HierRen.ofRows hf hlen fun i row hi => (hden.lt i row hi).1
  have hrows := hren.condense (wt := wt) (wt' := wt') (mcs := o.minClusterSize) (by rw [hHn]; exact hf) (hden.valid) (by
    change 0 < (mstToLinkage wt (lexsortMst g)).length; omega) (by rw [hHn]; exact hwt) (by rw [hHn]; exact hl) none lam
  rw [hHn] at hrows
  rw [clustersFromMst_eq] at hr
  obtain ⟨⟨rows, sel, labels, s⟩, hq, hr⟩ := Option.map_eq_some_iff.1 hr
  rw [show g.length + 1 = n by omega] at hq
  obtain ⟨rows', labels', s', hq', e1, e2, e3, e4, e5⟩ := hrows.fromCondensed hpos hf hct hbin hmono hkind hfull o hq
  refine ⟨_, by rw [clustersFromMst_eq, show g'.length + 1 = n by omega, hq']; rfl, ?_⟩
  rw [← hr]
  exact ⟨rfl, ⟨e2, e3⟩, e4, e5, hlink, e1.perm, e1.cols⟩

omit [Inhabited W] in
theorem SameComponents.symm {n : ℕ} {f : Equiv.Perm ℕ} (hf : ∀ x, f x < n ↔ x < n) {g g' : List (Edge W)} (h : SameComponents n f g g') :
    SameComponents n f.symm g' g := by
  intro t x y hx hy
  have := h t (f.symm x) (f.symm y) (by rw [← hf, Equiv.apply_symm_apply]; exact hx) (by rw [← hf, Equiv.apply_symm_apply]; exact hy)
  rw [Equiv.apply_symm_apply, Equiv.apply_symm_apply] at this
  exact this.symm

/-- C92: two spanning trees that connect the same samples at every length, up to the names of the samples, give the same clustering up to the names
of the samples; if one fails so does the other.  All labels are the same numbers: clusters are not renumbered.
Missing: spanning trees with edges of equal lengths (`C92_ties`). -/
theorem C92_renamed_partial {n : ℕ} (hn : 2 ≤ n) {f : Equiv.Perm ℕ} (hf : ∀ x, f x < n ↔ x < n) {g g' : List (Edge W)} (h : SameComponents n f g g')
    (hg : SpanningTree n g) (hg' : SpanningTree n g') (hd : (g.map Edge.w).Nodup) (lam : W → K) (hlam : Antitone lam) (wt wt' : ℕ → K)
    (hwt : ∀ x, x < n → wt' (f x) = wt x) (o : ClusterOpts K) (h1 : 1 < o.minClusterSize) (h0 : ∀ x, x < n → 0 ≤ wt x)
    (hl : ∀ x, x < n → wt x < o.minClusterSize) :
    (clustersFromMst lam wt' o g' = none ↔ clustersFromMst lam wt o g = none) ∧
      ∀ r r', clustersFromMst lam wt o g = some r → clustersFromMst lam wt' o g' = some r' → RenamedResult n f r r' := by
  have hpos : 0 < n := by omega
  have hs : ∀ y, y < n → f.symm y < n := fun y hy => by rw [← hf, Equiv.apply_symm_apply]; exact hy
  have hw : ∀ y, y < n → wt (f.symm y) = wt' y := fun y hy => by
    have := hwt _ (hs y hy)
    rw [Equiv.apply_symm_apply] at this
    exact this.symm
  have hd' : (g'.map Edge.w).Nodup := by
    have e1 := ((lexsortMst_perm g').map Edge.w).nodup_iff
    have e2 := ((lexsortMst_perm g).map Edge.w).nodup_iff
    rw [← e1, h.weights hf hpos hg hg', e2]
    exact hd
  refine ⟨⟨fun he => ?_, fun he => ?_⟩, fun r r' hr hr' => ?_⟩
  · cases hr : clustersFromMst lam wt o g with
    | none => rfl
    | some r =>
      obtain ⟨r', e, _⟩ := h.renamed hn hf hg hg' hd lam hlam wt wt' hwt o h1 h0 hl hr
      rw [he] at e; cases e
  · cases hr : clustersFromMst lam wt' o g' with
    | none => rfl
    | some r =>
      have hf' : ∀ x, f.symm x < n ↔ x < n := fun x => by rw [← hf, Equiv.apply_symm_apply]
      obtain ⟨r', e, _⟩ := (h.symm hf).renamed hn hf' hg' hg hd' lam hlam wt' wt hw o h1 (fun x hx => hw x hx ▸ h0 _ (hs x hx))
        (fun x hx => hw x hx ▸ hl _ (hs x hx)) hr
      rw [he] at e; cases e
  · obtain ⟨r2, e, h2⟩ := h.renamed hn hf hg hg' hd lam hlam wt wt' hwt o h1 h0 hl hr
    rw [hr', Option.some.injEq] at e
    rw [e]; exact h2

/-! ### Permuted data -/

omit [Inhabited W] in
theorem sameComponents_complete {n : ℕ} {f : Equiv.Perm ℕ} (hf : ∀ x, f x < n ↔ x < n) {d d' : ℕ → ℕ → W}
    (h : ∀ i j, i < n → j < n → d' (f i) (f j) = d i j) {g g' : List (Edge W)} (hg : MinSpanningForest (completeGraph n d) g)
    (hg' : MinSpanningForest (completeGraph n d') g') : SameComponents n f g g' := by
  intro t x y _ _
  have hmem : ∀ e : Edge W, e ∈ upTo t (completeGraph n d') ↔ e ∈ upTo t (renameEdges f (completeGraph n d)) := by
    intro e
    rw [mem_upTo, mem_upTo, mem_completeGraph]
    constructor
    · rintro ⟨⟨h1, h2, h3, h4⟩, h5⟩
      refine ⟨List.mem_map.2 ⟨⟨f.symm e.u, f.symm e.v, e.w⟩, mem_completeGraph.2 ⟨?_, ?_, ?_, ?_⟩, ?_⟩, h5⟩
      · rw [← hf, Equiv.apply_symm_apply]; exact h1
      · rw [← hf, Equiv.apply_symm_apply]; exact h2
      · exact fun he => h3 (f.symm.injective he)
      · have := h (f.symm e.u) (f.symm e.v) (by rw [← hf, Equiv.apply_symm_apply]; exact h1) (by rw [← hf, Equiv.apply_symm_apply]; exact h2)
        rw [Equiv.apply_symm_apply, Equiv.apply_symm_apply] at this
        rw [← this]; exact h4
      · simp only [Equiv.apply_symm_apply]
    · rintro ⟨h1, h5⟩
      obtain ⟨e0, h0, rfl⟩ := List.mem_map.1 h1
      obtain ⟨a, b, c, d⟩ := mem_completeGraph.1 h0
      refine ⟨⟨(hf _).2 a, (hf _).2 b, fun he => c (f.injective he), ?_⟩, h5⟩
      rw [h _ _ a b]; exact d
  rw [hg.conn_upTo, hg'.conn_upTo]
  rw [show Conn (upTo t (completeGraph n d')) (f x) (f y) ↔ Conn (upTo t (renameEdges f (completeGraph n d))) (f x) (f y) from
    ⟨fun hc => hc.mono fun e he => (hmem e).1 he, fun hc => hc.mono fun e he => (hmem e).2 he⟩, upTo_rename, conn_rename]

omit [Inhabited W] in
theorem sortedDists_renamed {n : ℕ} {f : Equiv.Perm ℕ} (hf : ∀ x, f x < n ↔ x < n) {D D' : ℕ → ℕ → W}
    (h : ∀ i j, i < n → j < n → D' (f i) (f j) = D i j) {i : ℕ} (hi : i < n) :
    ((List.range n).map (D' (f i))).insertionSort (· ≤ ·) = ((List.range n).map (D i)).insertionSort (· ≤ ·) := by
  have hperm : ((List.range n).map f).Perm (List.range n) := by
    rw [List.perm_ext_iff_of_nodup (List.nodup_range.map f.injective) List.nodup_range]
    intro a
    rw [List.mem_map, List.mem_range]
    constructor
    · rintro ⟨x, hx, rfl⟩; exact (hf x).2 (List.mem_range.1 hx)
    · intro ha
      exact ⟨f.symm a, List.mem_range.2 (by rw [← hf, Equiv.apply_symm_apply]; exact ha), Equiv.apply_symm_apply _ _⟩
  have h1 : ((List.range n).map (D' (f i))).Perm ((List.range n).map (D i)) := by
    refine (hperm.map (D' (f i))).symm.trans (List.Perm.of_eq ?_)
    rw [List.map_map]
    exact List.map_congr_left fun j hj => h i j hi (List.mem_range.1 hj)
  refine List.Perm.eq_of_pairwise (le := (· ≤ ·)) (fun a b _ _ h1 h2 => le_antisymm h1 h2) (List.pairwise_insertionSort _ _)
    (List.pairwise_insertionSort _ _) ?_
  exact (List.perm_insertionSort _ _).trans (h1.trans (List.perm_insertionSort _ _).symm)

omit [Inhabited W] in
theorem bruteCore_renamed [OrderTop W] [Zero W] {n : ℕ} {f : Equiv.Perm ℕ} (hf : ∀ x, f x < n ↔ x < n) {D D' : ℕ → ℕ → W}
    (h : ∀ i j, i < n → j < n → D' (f i) (f j) = D i j) (ms : ℕ) {i : ℕ} (hi : i < n) : bruteCore n ms D' (f i) = bruteCore n ms D i := by
  unfold bruteCore
  rw [sortedDists_renamed hf h hi]

omit [Inhabited W] in
/-- The spanning trees of permuted data. -/
theorem kruskalBrute_same [OrderTop W] [Zero W] {n ms : ℕ} (hn : 0 < n) {f : Equiv.Perm ℕ} (hf : ∀ x, f x < n ↔ x < n) {D D' : ℕ → ℕ → W}
    (hD : ∀ i j, D i j = D j i) (hD' : ∀ i j, D' i j = D' j i) (h : ∀ i j, i < n → j < n → D' (f i) (f j) = D i j) :
    SameComponents n f (kruskalBrute n ms D CLParams.none) (kruskalBrute n ms D' CLParams.none) := by
  refine sameComponents_complete hf (fun i j hi hj => ?_) (C60_brute_force n ms hn D hD).2 (C60_brute_force n ms hn D' hD').2
  simp only [h i j hi hj, sortedDists_renamed hf h hi, sortedDists_renamed hf h hj]

/-- C92 for the data, `algorithm='kruskal'` (without `knn_k`): permuting the samples permutes the result. -/
theorem C92_kruskal_partial [OrderTop W] [Zero W] {n : ℕ} (hn : 2 ≤ n) (ms : ℕ) {f : Equiv.Perm ℕ} (hf : ∀ x, f x < n ↔ x < n) (D D' : ℕ → ℕ → W)
    (hD : ∀ i j, D i j = D j i) (hD' : ∀ i j, D' i j = D' j i) (h : ∀ i j, i < n → j < n → D' (f i) (f j) = D i j)
    (hd : ((kruskalBrute n ms D CLParams.none).map Edge.w).Nodup) (lam : W → K) (hlam : Antitone lam) (wt wt' : ℕ → K)
    (hwt : ∀ x, x < n → wt' (f x) = wt x) (o : ClusterOpts K) (h1 : 1 < o.minClusterSize) (h0 : ∀ x, x < n → 0 ≤ wt x)
    (hl : ∀ x, x < n → wt x < o.minClusterSize) :
    (clustersFromMst lam wt' o (kruskalBrute n ms D' CLParams.none) = none ↔ clustersFromMst lam wt o (kruskalBrute n ms D CLParams.none) = none) ∧
      ∀ r r', clustersFromMst lam wt o (kruskalBrute n ms D CLParams.none) = some r →
        clustersFromMst lam wt' o (kruskalBrute n ms D' CLParams.none) = some r' → RenamedResult n f r r' :=
  C92_renamed_partial hn hf (kruskalBrute_same (by omega) hf hD hD' h) (C60_brute_force n ms (by omega) D hD).1
    (C60_brute_force n ms (by omega) D' hD').1 hd lam hlam wt wt' hwt o h1 h0 hl

/-- C92 for the data, `algorithm='boruvka'`: any run on the samples and any run on the permuted samples, on any schedules and with any leaf sizes. -/
theorem C92_boruvka_partial [OrderTop W] [Zero W] {R : Type*} [LinearOrder R] {vis vis' : List W → W → Prop} (hvis : ∀ h w, vis h w → anyVis h w)
    (hvis' : ∀ h w, vis' h w → anyVis h w) {ar : Arith R W} (ha : ar.Lawful) {rt : W → W} (hrt : Monotone rt) (hz : rt ar.zero = 0) (zero : R)
    {f : Equiv.Perm ℕ} (pts pts' : ℕ → ℕ → R) (dims n leafSize leafSize' ms : ℕ) (hf : ∀ x, f x < n ↔ x < n)
    (hpts : ∀ i, i < n → pts' (f i) = pts i) (hls : 1 ≤ leafSize) (hls' : 1 ≤ leafSize') (hn : 2 ≤ n) (hms : ms < n) (hbig : ms < 32768)
    (hfin : ∀ i < n, ∀ j < n, rdist ar dims (pts i) (pts j) < ⊤) (t t' : KdTree R) (ht : buildKdTree ar zero pts dims n leafSize = some t)
    (ht' : buildKdTree ar zero pts' dims n leafSize' = some t') (repro repro' : Option ℕ) (edges edges' : List (Edge W)) (core core' : ℕ → W)
    (h : TreeBoruvka vis ar rt dims pts t (numNodes n leafSize) n ms repro (edges.map fun e => ⟨e.u, some e.v, e.w⟩) core)
    (h' : TreeBoruvka vis' ar rt dims pts' t' (numNodes n leafSize') n ms repro' (edges'.map fun e => ⟨e.u, some e.v, e.w⟩) core')
    (hd : (edges.map Edge.w).Nodup) (lam : W → K) (hlam : Antitone lam) (wt wt' : ℕ → K) (hwt : ∀ x, x < n → wt' (f x) = wt x)
    (o : ClusterOpts K) (h1 : 1 < o.minClusterSize) (h0 : ∀ x, x < n → 0 ≤ wt x) (hl : ∀ x, x < n → wt x < o.minClusterSize) :
    (∀ i, i < n → core' (f i) = core i) ∧ (clustersFromMst lam wt' o edges' = none ↔ clustersFromMst lam wt o edges = none) ∧
      ∀ r r', clustersFromMst lam wt o edges = some r → clustersFromMst lam wt' o edges' = some r' → RenamedResult n f r r' := by
  have inj : ∀ {a b : List (Edge W)}, a.map (fun e => (⟨e.u, some e.v, e.w⟩ : TEdge W)) = b.map (fun e => ⟨e.u, some e.v, e.w⟩) → a = b := by
    intro a b hab
    refine List.map_injective_iff.2 (fun x y hxy => ?_) hab
    cases x; cases y
    simpa using hxy
  have hs : ∀ y, y < n → f.symm y < n := fun y hy => by rw [← hf, Equiv.apply_symm_apply]; exact hy
  have hp' : ∀ y, y < n → pts' y = pts (f.symm y) := fun y hy => by
    have := hpts _ (hs y hy)
    rwa [Equiv.apply_symm_apply] at this
  have hfin' : ∀ i < n, ∀ j < n, rdist ar dims (pts' i) (pts' j) < ⊤ := fun i hi j hj => by
    rw [hp' i hi, hp' j hj]; exact hfin _ (hs i hi) _ (hs j hj)
  obtain ⟨_, tree, e1, s1, _⟩ := C35_minimum_spanning_tree_partial hvis ha hrt zero pts dims n leafSize ms hls hn hms hbig hfin t ht repro _ core h
  obtain ⟨c1, tree', e2, _, k1⟩ := C35_agrees_with_kruskal_partial hvis ha hrt hz zero pts dims n leafSize ms hls hn hms hbig hfin t ht repro _ core h
  obtain ⟨_, tree2, e3, s2, _⟩ := C35_minimum_spanning_tree_partial hvis' ha hrt zero pts' dims n leafSize' ms hls' hn hms hbig hfin' t' ht' repro' _ core' h'
  obtain ⟨c2, tree2', e4, _, k2⟩ := C35_agrees_with_kruskal_partial hvis' ha hrt hz zero pts' dims n leafSize' ms hls' hn hms hbig hfin' t' ht' repro' _ core' h'
  rw [← inj e1] at s1
  rw [← inj e2] at k1
  rw [← inj e3] at s2
  rw [← inj e4] at k2
  have hD : ∀ i j, i < n → j < n → rt (rdist ar dims (pts' (f i)) (pts' (f j))) = rt (rdist ar dims (pts i) (pts j)) := fun i j hi hj => by
    rw [hpts i hi, hpts j hj]
  have hsame := kruskalBrute_same (ms := ms) (by omega : 0 < n) hf (D := fun i j => rt (rdist ar dims (pts i) (pts j)))
    (D' := fun i j => rt (rdist ar dims (pts' i) (pts' j))) (fun i j => by rw [rdist_comm ha]) (fun i j => by rw [rdist_comm ha]) hD
  refine ⟨fun i hi => ?_, C92_renamed_partial hn hf (fun τ x y hx hy => (k1 τ x y).trans ((hsame τ x y hx hy).trans (k2 τ (f x) (f y)).symm)) s1 s2 hd lam hlam
    wt wt' hwt o h1 h0 hl⟩
  rw [c1 i hi, c2 _ ((hf i).2 hi)]
  exact (bruteCore_renamed hf hD ms hi)

end

/-! ### Cases -/

/-- Distances of points on a line. -/
def onLine (p : List ℚ) (i j : ℕ) : WithTop ℚ := ((|p.getD i 0 - p.getD j 0| : ℚ) : WithTop ℚ)

theorem onLine_comm (p : List ℚ) (i j : ℕ) : onLine p i j = onLine p j i := by
  unfold onLine; rw [abs_sub_comm]

/-- The seven samples in reverse order. -/
def reverse7 : Equiv.Perm ℕ := Function.Involutive.toPerm (fun x => if x < 7 then 6 - x else x) fun x => by
  simp only
  split_ifs <;> omega

theorem reverse7_lt (x : ℕ) : reverse7 x < 7 ↔ x < 7 := by
  change (if x < 7 then 6 - x else x) < 7 ↔ x < 7
  split <;> omega

/-- Points on a line with gaps 1, 2, 4, 8, 5 and 3/2. -/
def gaps7 : List ℚ := [0, 1, 3, 20, 7, 15, 43 / 2]

/-- Case: reversing the order of the samples reverses the labels. -/
example : ((∃ r r', clustersFromMst lamq (fun _ => 1) groupsOpts (kruskalBrute 7 1 (onLine gaps7) CLParams.none) = some r ∧
    clustersFromMst lamq (fun _ => 1) groupsOpts (kruskalBrute 7 1 (onLine gaps7.reverse) CLParams.none) = some r' ∧
    RenamedResult 7 reverse7 r r' ∧ r.labels = [1, 1, 1, 0, 1, 0, 0] ∧ r'.labels = [0, 0, 1, 0, 1, 1, 1])) := by
  have hn := C92_kruskal_partial (n := 7) (by decide) 1 reverse7_lt (onLine gaps7) (onLine gaps7.reverse) (onLine_comm _) (onLine_comm _)
    (fun i j hi hj => (by decide +kernel : ∀ i < 7, ∀ j < 7, onLine gaps7.reverse (reverse7 i) (reverse7 j) = onLine gaps7 i j) i hi j hj)
    (by decide +kernel) lamq lamq_antitone (fun _ => 1) (fun _ => 1) (fun _ _ => rfl) groupsOpts (by decide +kernel) (by decide +kernel)
    (by decide +kernel)
  have e1 : (clustersFromMst lamq (fun _ => 1) groupsOpts (kruskalBrute 7 1 (onLine gaps7) CLParams.none)).map ClusterResult.labels =
    some [1, 1, 1, 0, 1, 0, 0] := by decide +kernel
  have e2 : (clustersFromMst lamq (fun _ => 1) groupsOpts (kruskalBrute 7 1 (onLine gaps7.reverse) CLParams.none)).map ClusterResult.labels =
    some [0, 0, 1, 0, 1, 1, 1] := by decide +kernel
  obtain ⟨r, hr, hl⟩ := Option.map_eq_some_iff.1 e1
  obtain ⟨r', hr', hl'⟩ := Option.map_eq_some_iff.1 e2
  exact ⟨r, r', hr, hr', hn.2 r r' hr hr', hl, hl'⟩

/-- Case: four points on a line and the same points with two of them swapped have runs as in `C92_boruvka_partial`. -/
example : ∃ (t t' : KdTree ℤ) (edges edges' : List (Edge (WithTop ℤ))) (core core' : ℕ → WithTop ℤ),
    buildKdTree (roundedArith (id : ℤ → ℤ)) 0 gapPts 1 4 2 = some t ∧
    buildKdTree (roundedArith (id : ℤ → ℤ)) 0 (fun i => gapPts (Equiv.swap 0 3 i)) 1 4 2 = some t' ∧
    TreeBoruvka lastVis (roundedArith (id : ℤ → ℤ)) id 1 gapPts t (numNodes 4 2) 4 1 none (edges.map fun e => ⟨e.u, some e.v, e.w⟩) core ∧
    TreeBoruvka lastVis (roundedArith (id : ℤ → ℤ)) id 1 (fun i => gapPts (Equiv.swap 0 3 i)) t' (numNodes 4 2) 4 1 (some 2)
      (edges'.map fun e => ⟨e.u, some e.v, e.w⟩) core' ∧
    (edges.map Edge.w).Nodup := by
  have ha : (roundedArith (id : ℤ → ℤ)).Lawful := exactArith_lawful
  have hfin : ∀ i < 4, ∀ j < 4, rdist (roundedArith (id : ℤ → ℤ)) 1 (gapPts i) (gapPts j) < ⊤ := by decide +kernel
  have hfin' : ∀ i < 4, ∀ j < 4, rdist (roundedArith (id : ℤ → ℤ)) 1 (gapPts (Equiv.swap 0 3 i)) (gapPts (Equiv.swap 0 3 j)) < ⊤ := by decide +kernel
  obtain ⟨t, ht, _⟩ := buildKdTree_valid (roundedArith (id : ℤ → ℤ)) 0 gapPts 1 4 2 (by decide) (by decide)
  obtain ⟨t', ht', _⟩ := buildKdTree_valid (roundedArith (id : ℤ → ℤ)) 0 (fun i => gapPts (Equiv.swap 0 3 i)) 1 4 2 (by decide) (by decide)
  obtain ⟨e1, c1, r1⟩ := C35_gives_result ha id 0 gapPts 1 4 2 1 (by decide) (by decide) (by decide) (by decide) hfin t ht none (by simp)
  obtain ⟨e2, c2, r2⟩ := C35_gives_result ha id 0 (fun i => gapPts (Equiv.swap 0 3 i)) 1 4 2 1 (by decide) (by decide) (by decide) (by decide) hfin' t' ht'
    (some 2) (by simp)
  have hv : ∀ (h : List (WithTop ℤ)) w, lastVis h w → anyVis h w := fun _ _ => lastVis_anyVis
  obtain ⟨_, t1, q1, w1, _⟩ := C35_agrees_with_kruskal_partial hv ha monotone_id rfl 0 gapPts 1 4 2 1 (by decide) (by decide) (by decide) (by decide) hfin t ht
    none e1 c1 r1
  obtain ⟨_, t2, q2, w2, _⟩ := C35_agrees_with_kruskal_partial hv ha monotone_id rfl 0 (fun i => gapPts (Equiv.swap 0 3 i)) 1 4 2 1 (by decide) (by decide)
    (by decide) (by decide) hfin' t' ht' (some 2) e2 c2 r2
  rw [q1] at r1
  rw [q2] at r2
  exact ⟨t, t', t1, t2, c1, c2, ht, ht', r1, r2, w1.nodup_iff.2 (by decide +kernel)⟩

/-- C92 is false without the condition on the lengths.  Sample 3 is halfway between two groups of three; in either order of the samples it
joins the first group. -/
theorem C92_ties : (∀ i < 7, ∀ j < 7, onLine [21, 17, 15, 9, 3, 1, 0] (reverse7 i) (reverse7 j) = onLine [0, 1, 3, 9, 15, 17, 21] i j) ∧
    (clustersFromMst lamq (fun _ => 1) groupsOpts (kruskalBrute 7 1 (onLine [0, 1, 3, 9, 15, 17, 21]) CLParams.none)).map ClusterResult.labels =
      some [0, 0, 0, 0, 1, 1, 1] ∧
    (clustersFromMst lamq (fun _ => 1) groupsOpts (kruskalBrute 7 1 (onLine [21, 17, 15, 9, 3, 1, 0]) CLParams.none)).map ClusterResult.labels =
      some [0, 0, 0, 0, 1, 1, 1] := by
  refine ⟨by decide +kernel, by decide +kernel, by decide +kernel⟩

end Verif
