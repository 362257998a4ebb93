import Verif.Lemmas.CondRen
import Verif.Lemmas.Labels
import Verif.Lemmas.EomSel
import Verif.Model.Pipeline

/-!
# Selection, labels and strengths for a condensed tree with renamed samples
-/

namespace Verif
variable {L S V : Type*}

theorem forall₂_of_map_eq {α β : Type*} {g : α → β} {l l' : List α} (h : l'.map g = l.map g) : List.Forall₂ (fun a b => g b = g a) l l' := by
  induction l generalizing l' with
  | nil =>
    cases l' with
    | nil => exact .nil
    | cons b bs => simp at h
  | cons a as ih =>
    cases l' with
    | nil => simp at h
    | cons b bs =>
      simp only [List.map_cons, List.cons.injEq] at h
      exact .cons h.1 (ih h.2)

section
variable {n : ℕ} {f : Equiv.Perm ℕ} {rows rows' : List (CRow L S)}

/-- Row by row the same, but for the names of samples. -/
theorem RowsRen.forall₂ {f : ℕ → ℕ} (h : RowsRen n f rows rows') : List.Forall₂ (fun r r' => anonRow n r' = anonRow n r) rows rows' :=
  forall₂_of_map_eq h.cols

theorem anonRow_eq {r r' : CRow L S} (h : anonRow n r' = anonRow n r) :
    r'.parent = r.parent ∧ r'.lam = r.lam ∧ r'.size = r.size ∧ (n ≤ r.child → r' = r) ∧ (n ≤ r'.child ↔ n ≤ r.child) := by
  cases r; cases r'
  simp only [anonRow, innerNode, Prod.mk.injEq] at h
  obtain ⟨h1, h2, h3, h4⟩ := h
  subst h1 h3 h4
  refine ⟨rfl, rfl, rfl, ?_, ?_⟩
  · intro hn
    simp only at hn
    rw [if_pos hn] at h2
    split at h2
    · cases h2; rfl
    · cases h2
  · simp only
    constructor
    · intro hn
      rw [if_pos hn] at h2
      by_contra hn'
      rw [if_neg hn'] at h2
      cases h2
    · intro hn
      rw [if_pos hn] at h2
      by_contra hn'
      rw [if_neg hn'] at h2
      cases h2

/-- Same columns, but for the names of samples. -/
abbrev AnonEq (n : ℕ) (rows rows' : List (CRow L S)) : Prop := List.Forall₂ (fun r r' => anonRow n r' = anonRow n r) rows rows'

theorem AnonEq.map {β : Type*} (h : AnonEq n rows rows') {g : CRow L S → β} (hg : ∀ r r', anonRow n r' = anonRow n r → g r' = g r) :
    rows'.map g = rows.map g := by
  induction h with
  | nil => rfl
  | cons h1 _ ih => rw [List.map_cons, List.map_cons, hg _ _ h1, ih]

theorem AnonEq.foldl {β : Type*} (h : AnonEq n rows rows') {g : β → CRow L S → β} (hg : ∀ b r r', anonRow n r' = anonRow n r → g b r' = g b r) (b : β) :
    rows'.foldl g b = rows.foldl g b := by
  induction h generalizing b with
  | nil => rfl
  | cons h1 _ ih => rw [List.foldl_cons, List.foldl_cons, hg _ _ _ h1, ih]

theorem AnonEq.filter (h : AnonEq n rows rows') {p : CRow L S → Bool} (hp : ∀ r r', anonRow n r' = anonRow n r → p r' = p r) :
    AnonEq n (rows.filter p) (rows'.filter p) := by
  induction h with
  | nil => exact .nil
  | cons h1 _ ih =>
    rename_i a b as bs _
    rw [List.filter_cons, List.filter_cons, hp _ _ h1]
    split
    · exact .cons h1 ih
    · exact ih

theorem AnonEq.eq_of_clusters (h : AnonEq n rows rows') (hc : ∀ r ∈ rows, n ≤ r.child) : rows' = rows := by
  induction h with
  | nil => rfl
  | cons h1 _ ih =>
    rw [(anonRow_eq h1).2.2.2.1 (hc _ (by simp)), ih fun r hr => hc r (by simp [hr])]

theorem AnonEq.clusterTree [One S] [LT S] [DecidableLT S] (h : AnonEq n rows rows') (hk : ∀ row ∈ rows, 1 < row.size → n ≤ row.child) :
    clusterTree rows' = clusterTree rows := by
  refine AnonEq.eq_of_clusters (n := n) (h.filter fun r r' he => by rw [(anonRow_eq he).2.2.1]) ?_
  intro r hr
  have := List.mem_filter.1 hr
  exact hk r this.1 (of_decide_eq_true this.2)

theorem AnonEq.scoreNodes [Ring V] [LT V] [DecidableLT V] {rows rows' : List (CRow V V)} (h : AnonEq n rows rows')
    (hk : ∀ row ∈ rows, 1 < row.size → n ≤ row.child) : scoreNodes rows' = scoreNodes rows := by
  have key : ∀ {l l' : List (CRow V V)}, AnonEq n l l' → (∀ row ∈ l, 1 < row.size → n ≤ row.child) → ∀ d,
      l'.foldlM scoreStep d = l.foldlM scoreStep d := by
    intro l l' h hk
    induction h with
    | nil => exact fun _ => rfl
    | cons h1 _ ih =>
      rename_i a b as bs _
      intro d
      have e : scoreStep d b = scoreStep d a := by
        by_cases hs : 1 < a.size
        · rw [(anonRow_eq h1).2.2.2.1 (hk a (by simp) hs)]
        · obtain ⟨e1, e2, e3, _⟩ := anonRow_eq h1
          unfold scoreStep
          rw [e1, e2, e3]
          simp only [hs, if_false]
      rw [List.foldlM_cons, List.foldlM_cons, e]
      congr 1
      funext d'
      exact ih (fun row hr => hk row (by simp [hr])) d'
  cases h with
  | nil => rfl
  | cons h1 h2 =>
    unfold Verif.scoreNodes
    simp only
    rw [(anonRow_eq h1).1]
    exact key (.cons h1 h2) hk _

/-! ### Selection -/

theorem AnonEq.baseSelection [Ring V] [LinearOrder V] {rows rows' : List (CRow V V)} (h : AnonEq n rows rows')
    (hk : ∀ row ∈ rows, 1 < row.size → n ≤ row.child) (o : ClusterOpts V) : baseSelection o n rows' = baseSelection o n rows := by
  unfold Verif.baseSelection extractEom
  rw [h.clusterTree hk, h.scoreNodes hk]

theorem AnonEq.epsilonIf [Field V] [LinearOrder V] {rows rows' : List (CRow V V)} (h : AnonEq n rows rows')
    (hk : ∀ row ∈ rows, 1 < row.size → n ≤ row.child) (eps : V) (sel : List ℕ) : epsilonIf eps rows' sel = epsilonIf eps rows sel := by
  unfold Verif.epsilonIf
  rw [h.clusterTree hk]

/-! ### Simplification -/

/-- Clusters are mapped to clusters. -/
theorem simpLoop_ge [LinearOrder L] [Sub L] (thr : L) (l : List (CRow L S)) (hp : ∀ row ∈ l, n ≤ row.parent) (st : SimpState L)
    (hs : ∀ c, n ≤ c → n ≤ st.pmap c) : ∀ c, n ≤ c → n ≤ (simpLoop thr st l).pmap c := by
  match l with
  | [] => exact hs
  | [_] => exact hs
  | r2 :: r1 :: rest =>
    refine simpLoop_ge thr rest (fun row hr => hp row (by simp [hr])) _ ?_
    intro c hc
    have h2 := hp r2 (by simp)
    have key : n ≤ Function.update (Function.update st.pmap r1.child r2.parent) r2.child r2.parent c := by
      by_cases h3 : c = r2.child
      · rw [h3, Function.update_self]; exact h2
      · rw [Function.update_of_ne h3]
        by_cases h4 : c = r1.child
        · rw [h4, Function.update_self]; exact h2
        · rw [Function.update_of_ne h4]; exact hs c hc
    unfold simpStep
    simp only
    split
    · exact hs c hc
    · split <;> split <;> exact key

theorem simpPropagate_ge (m k : ℕ) (pm : ℕ → ℕ) (hs : ∀ c, n ≤ c → n ≤ pm c) : ∀ c, n ≤ c → n ≤ simpPropagate m k pm c := by
  unfold simpPropagate
  generalize List.range' m k = l
  induction l generalizing pm with
  | nil => exact hs
  | cons i l ih =>
    rw [List.foldl_cons]
    refine ih _ fun c hc => ?_
    by_cases h : c = i
    · rw [h, Function.update_self]; exact hs _ (hs _ (h ▸ hc))
    · rw [Function.update_of_ne h]; exact hs c hc

theorem simpNumber_ge (k : ℕ) (pm : ℕ → ℕ) (hs : ∀ c, n ≤ c → n ≤ pm c) : ∀ c, n ≤ c → n ≤ (simpNumber n k pm).1 c := by
  unfold simpNumber
  generalize List.range' n k = l
  have key : ∀ (l : List ℕ) (st : (ℕ → ℕ) × (ℕ → Bool)), (∀ c, n ≤ c → n ≤ st.1 c) → ∀ c, n ≤ c → n ≤ (l.foldl (fun st i =>
      let parent := st.1 i
      let skipped := Function.update st.2 i (decide (parent ≠ i))
      (Function.update st.1 i (parent - ((List.range' n (parent - n)).filter fun j => skipped j).length), skipped)) st).1 c := by
    intro l
    induction l with
    | nil => exact fun _ hs => hs
    | cons i l ih =>
      intro st hs
      rw [List.foldl_cons]
      refine ih _ fun c hc => ?_
      simp only
      by_cases h : c = i
      · rw [h, Function.update_self]
        have h1 := hs i (h ▸ hc)
        have h2 : ((List.range' n (st.1 i - n)).filter fun j => Function.update st.2 i (decide (st.1 i ≠ i)) j).length ≤ st.1 i - n :=
          (List.length_filter_le _ _).trans (by simp)
        omega
      · rw [Function.update_of_ne h]; exact hs c hc
  exact key l _ hs

theorem simplifyHierarchy_eq [LinearOrder L] [Sub L] [Zero L] [One S] [LT S] [DecidableLT S] (thr : L) {last row0 : CRow L S}
    (hl : (clusterTree rows).getLast? = some last) (h0 : rows.head? = some row0) :
    simplifyHierarchy thr rows = some (rows.filterMap fun row =>
      if (simpNumber row0.parent (last.child + 1 - row0.parent) (simpPropagate row0.parent (last.child + 1 - row0.parent)
          (simpLoop thr (simpInit rows (clusterTree rows)) (clusterTree rows).reverse).pmap)).2 (max row.child row0.parent) then none
      else some ⟨(simpNumber row0.parent (last.child + 1 - row0.parent) (simpPropagate row0.parent (last.child + 1 - row0.parent)
          (simpLoop thr (simpInit rows (clusterTree rows)) (clusterTree rows).reverse).pmap)).1 row.parent,
        if row0.parent ≤ row.child then (simpNumber row0.parent (last.child + 1 - row0.parent)
          (simpPropagate row0.parent (last.child + 1 - row0.parent)
          (simpLoop thr (simpInit rows (clusterTree rows)) (clusterTree rows).reverse).pmap)).1 row.child else row.child,
        ((simpLoop thr (simpInit rows (clusterTree rows)) (clusterTree rows).reverse).lmap row.parent).getD row.lam, row.size⟩) := by
  cases rows with
  | nil => simp at h0
  | cons r rest =>
    simp only [List.head?_cons, Option.some.injEq] at h0
    subst h0
    unfold simplifyHierarchy
    simp only
    rw [hl]

theorem RowsRen.simplify [LinearOrder L] [Sub L] [Zero L] [One S] [LT S] [DecidableLT S] (hf : ∀ x, f x < n ↔ x < n) (h : RowsRen n f rows rows')
    (hk : ∀ row ∈ rows, 1 < row.size → n ≤ row.child) (hp : ∀ row ∈ rows, n ≤ row.parent) (h0 : ∀ row, rows.head? = some row → row.parent = n)
    (thr : L) : (simplifyHierarchy thr rows = none ∧ simplifyHierarchy thr rows' = none) ∨
      ∃ out out', simplifyHierarchy thr rows = some out ∧ simplifyHierarchy thr rows' = some out' ∧ RowsRen n f out out' := by
  have ha : AnonEq n rows rows' := h.forall₂
  have hct := ha.clusterTree hk
  have hinit : simpInit rows' (clusterTree rows) = simpInit rows (clusterTree rows) := by
    unfold simpInit
    rw [ha.foldl (g := fun (b : ℕ → L) row => Function.update b row.parent row.lam) fun b r r' he => by
      rw [(anonRow_eq he).1, (anonRow_eq he).2.1]]
  cases hl : (clusterTree rows).getLast? with
  | none =>
    refine Or.inl ⟨?_, ?_⟩
    · unfold simplifyHierarchy
      simp only
      rw [hl]
    · unfold simplifyHierarchy
      simp only
      rw [hct, hl]
  | some last =>
    cases hrows : rows with
    | nil => rw [hrows] at hl; simp [Verif.clusterTree] at hl
    | cons row0 rest =>
      cases hrows' : rows' with
      | nil => rw [hrows, hrows'] at ha; cases ha
      | cons row0' rest' =>
        right
        have hr0 : row0.parent = n := h0 row0 (by rw [hrows]; rfl)
        have hr0' : row0'.parent = n := by
          have := ha
          rw [hrows, hrows'] at this
          cases this with
          | cons h1 _ => rw [(anonRow_eq h1).1, hr0]
        rw [← hrows, ← hrows']
        refine ⟨_, _, simplifyHierarchy_eq thr hl (by rw [hrows]; rfl), simplifyHierarchy_eq thr (by rw [hct]; exact hl) (by rw [hrows']; rfl), ?_⟩
        rw [hr0, hr0', hct, hinit]
        set st := simpLoop thr (simpInit rows (clusterTree rows)) (clusterTree rows).reverse with hst
        set r := simpNumber n (last.child + 1 - n) (simpPropagate n (last.child + 1 - n) st.pmap) with hr
        have hge : ∀ c, n ≤ c → n ≤ r.1 c := by
          refine simpNumber_ge _ _ (simpPropagate_ge _ _ _ (simpLoop_ge thr _ ?_ _ fun c hc => hc))
          intro row hrow
          exact hp row (List.mem_filter.1 (List.mem_reverse.1 hrow)).1
        set φ : CRow L S → Option (CRow L S) := fun row =>
          if r.2 (max row.child n) then none
          else some ⟨r.1 row.parent, if n ≤ row.child then r.1 row.child else row.child, (st.lmap row.parent).getD row.lam, row.size⟩ with hφ
        constructor
        · have key : ∀ {l l' : List (CRow L S)}, AnonEq n l l' → AnonEq n (l.filterMap φ) (l'.filterMap φ) := by
            intro l l' hll
            induction hll with
            | nil => exact .nil
            | cons h1 _ ih =>
              rename_i a b as bs _
              obtain ⟨e1, e2, e3, e4, e5⟩ := anonRow_eq h1
              by_cases hc : n ≤ a.child
              · rw [e4 hc, List.filterMap_cons, List.filterMap_cons]
                cases φ a with
                | none => exact ih
                | some z => exact .cons rfl ih
              · have hc' : ¬ n ≤ b.child := fun hb => hc (e5.1 hb)
                have m1 : max a.child n = n := max_eq_right (by omega)
                have m2 : max b.child n = n := max_eq_right (by omega)
                rw [List.filterMap_cons, List.filterMap_cons, hφ]
                simp only [m1, m2, hc, hc', if_false]
                by_cases hr2 : r.2 n
                · simp only [hr2, if_true]; exact ih
                · simp only [hr2]
                  refine .cons ?_ ih
                  simp [anonRow, innerNode, hc, hc', e1, e2, e3]
          exact (key ha).map fun _ _ h => h
        · refine (h.perm.filterMap φ).trans (List.Perm.of_eq ?_)
          rw [List.filterMap_map, List.map_filterMap]
          apply List.filterMap_congr
          intro row hrow
          simp only [Function.comp, hφ]
          by_cases hc : n ≤ row.child
          · have : renCRow n f row = row := by unfold renCRow; rw [onNodes_ge hc]
            rw [this]
            split
            · rfl
            · simp only [Option.map_some, renCRow]
              rw [onNodes_ge (hge _ hc)]
          · have e1 : (renCRow n f row).child = onNodes n f row.child := rfl
            have e2 : ¬ n ≤ onNodes n f row.child := by
              have := (onNodes_lt hf row.child).2 (by omega); omega
            rw [e1, max_eq_right (by omega : onNodes n f row.child ≤ n), max_eq_right (by omega : row.child ≤ n)]
            split
            · rfl
            · simp only [e2, if_false, Option.map_some]
              rfl

/-! ### The renamed tree -/

theorem RowsRen.mem_iff {f : ℕ → ℕ} (h : RowsRen n f rows rows') {row : CRow L S} : row ∈ rows' ↔ ∃ r ∈ rows, renCRow n f r = row := by
  rw [h.perm.mem_iff, List.mem_map]

theorem RowsRen.mem_cluster (h : RowsRen n f rows rows') {row : CRow L S} (hr : row ∈ rows) (hc : n ≤ row.child) : row ∈ rows' :=
  h.mem_iff.2 ⟨row, hr, by unfold renCRow; rw [onNodes_ge hc]⟩

theorem onNodes_inj (hf : ∀ x, f x < n ↔ x < n) : Function.Injective (onNodes n f) := by
  intro a b hab
  unfold onNodes at hab
  split at hab <;> split at hab
  · exact f.injective hab
  · rename_i h1 h2; have := (hf a).2 h1; omega
  · rename_i h1 h2; have := (hf b).2 h2; omega
  · exact hab

theorem RowsRen.children {f : ℕ → ℕ} (h : RowsRen n f rows rows') : (rows'.map CRow.child).Perm ((rows.map CRow.child).map (onNodes n f)) := by
  refine (h.perm.map CRow.child).trans (List.Perm.of_eq ?_)
  rw [List.map_map, List.map_map]
  rfl

theorem RowsRen.condTree {k : ℕ} (hf : ∀ x, f x < n ↔ x < n) (h : RowsRen n f rows rows') (hc : CondTree n k rows) : CondTree n k rows' where
  pos := hc.pos
  nodup := h.children.nodup_iff.2 (hc.nodup.map (onNodes_inj hf))
  children := by
    intro c
    rw [h.children.mem_iff, List.mem_map]
    constructor
    · rintro ⟨d, hd, rfl⟩
      rcases (hc.children d).1 hd with h1 | h1
      · exact .inl ((onNodes_lt hf d).2 h1)
      · rw [onNodes_ge h1.1.le]; exact .inr h1
    · rintro (h1 | h1)
      · refine ⟨f.symm c, (hc.children _).2 (.inl ?_), ?_⟩
        · rw [← hf, Equiv.apply_symm_apply]; exact h1
        · unfold onNodes
          rw [if_pos (by rw [← hf, Equiv.apply_symm_apply]; exact h1), Equiv.apply_symm_apply]
      · exact ⟨c, (hc.children _).2 (.inr h1), onNodes_ge h1.1.le⟩
  asc := by
    have ha : AnonEq n rows rows' := h.forall₂
    rw [← hc.asc, List.filter_map, List.filter_map]
    have : AnonEq n (rows.filter fun r => decide (n ≤ r.child)) (rows'.filter fun r => decide (n ≤ r.child)) :=
      ha.filter fun r r' he => by rw [decide_eq_decide]; exact (anonRow_eq he).2.2.2.2
    have he := this.eq_of_clusters fun r hr => of_decide_eq_true (List.mem_filter.1 hr).2
    exact congrArg (List.map CRow.child) he
  parents := by
    intro row hr
    obtain ⟨r, hr', rfl⟩ := h.mem_iff.1 hr
    exact hc.parents r hr'
  down := by
    intro row hr hn
    obtain ⟨r, hr', rfl⟩ := h.mem_iff.1 hr
    have e : (renCRow n f r).child = onNodes n f r.child := rfl
    have hge : n ≤ r.child := by
      by_contra hlt
      have := (onNodes_lt hf r.child).2 (by omega)
      omega
    rw [e, onNodes_ge hge]
    exact hc.down r hr' hge
  order := by
    intro i row hi
    have ha : AnonEq n rows rows' := h.forall₂
    have hlen : rows'.length = rows.length := (List.Forall₂.length_eq ha).symm
    have hget : ∀ (i : ℕ) (r r' : CRow L S), rows[i]? = some r → rows'[i]? = some r' → anonRow n r' = anonRow n r := by
      intro i r r' h1 h2
      obtain ⟨i1, rfl⟩ := List.getElem?_eq_some_iff.1 h1
      obtain ⟨i2, rfl⟩ := List.getElem?_eq_some_iff.1 h2
      exact List.Forall₂.get ha i1 i2
    obtain ⟨hi', _⟩ := List.getElem?_eq_some_iff.1 hi
    have h1 : rows[i]? = some rows[i] := List.getElem?_eq_getElem (by omega)
    have e := (anonRow_eq (hget i _ _ h1 hi)).1
    rw [e]
    rcases hc.order i _ h1 with h2 | ⟨j, r, hj, hjr, hrc⟩
    · exact .inl h2
    · obtain ⟨hj', _⟩ := List.getElem?_eq_some_iff.1 hjr
      have h3 : rows'[j]? = some rows'[j] := List.getElem?_eq_getElem (by omega)
      refine .inr ⟨j, rows'[j], hj, h3, ?_⟩
      have hpar := (hc.parents _ (List.mem_of_getElem? h1)).1
      rw [(anonRow_eq (hget j _ _ hjr h3)).2.2.2.1 (by omega), hrc]

/-! ### Labels -/

section
variable {k : ℕ} {sel : List ℕ}

/-- Clusters keep their representatives. -/
theorem RowsRen.rep_cluster [Zero L] [DecidableEq L] (hf : ∀ x, f x < n ↔ x < n) (h : RowsRen n f rows rows') (hc : CondTree n k rows) {c : ℕ} (h1 : n ≤ c)
    (h2 : c < n + k) : labRep rows' sel n c = labRep rows sel n c := by
  have hc' := h.condTree hf hc
  induction c using Nat.strong_induction_on with
  | _ c ih =>
    by_cases hs : c = n ∨ c ∈ sel
    · rw [hc.rep_sel hs, hc'.rep_sel hs]
    · push Not at hs
      obtain ⟨row, hrow, rfl⟩ := List.mem_map.1 ((hc.children c).2 (.inr ⟨by omega, h2⟩))
      have hu : United sel n row := ⟨hs.2, fun h3 => by omega⟩
      have e1 : labRep rows sel n row.child = labRep rows sel n row.parent := (hc.labInv sel).same row hrow hu
      have e2 : labRep rows' sel n row.child = labRep rows' sel n row.parent :=
        (hc'.labInv sel).same row (h.mem_cluster hrow h1) hu
      rw [e1, e2]
      exact ih row.parent (hc.down row hrow h1) (hc.parents row hrow).1 (hc.parents row hrow).2

/-- A renamed sample gets the label of the sample. -/
theorem RowsRen.labelOne [LinearOrder L] [Zero L] (hf : ∀ x, f x < n ↔ x < n) (h : RowsRen n f rows rows') (hc : CondTree n k rows)
    (hsel : ∀ c ∈ sel, n ≤ c) (e : Option L) {x : ℕ} (hx : x < n) :
    labelOne rows' sel e n (labRep rows' sel n (f x)) (f x) = labelOne rows sel e n (labRep rows sel n x) x := by
  have hc' := h.condTree hf hc
  have hfx := (hf x).2 hx
  obtain ⟨row, hrow, rfl⟩ := List.mem_map.1 ((hc.children x).2 (.inl hx))
  have hrow' : renCRow n f row ∈ rows' := h.mem_iff.2 ⟨row, hrow, rfl⟩
  have hch : (renCRow n f row).child = f row.child := by
    change onNodes n f row.child = _
    unfold onNodes; rw [if_pos hx]
  by_cases hl : row.lam = 0
  · rw [hc.rep_zero hrow hx hl, ← hch, hc'.rep_zero hrow' (by rw [hch]; exact hfx) hl]
    unfold Verif.labelOne
    rw [if_pos hx, if_pos (by rw [hch]; exact hfx)]
  · have e1 : labRep rows sel n row.child = labRep rows sel n row.parent :=
      (hc.labInv sel).same row hrow ⟨fun h1 => by have := hsel _ h1; omega, fun h3 => hl h3.2⟩
    have e2 : labRep rows' sel n (f row.child) = labRep rows sel n row.parent := by
      have e3 : labRep rows' sel n (renCRow n f row).child = labRep rows' sel n row.parent :=
        (hc'.labInv sel).same _ hrow' ⟨fun h1 => by have := hsel _ h1; omega, fun h3 => hl h3.2⟩
      rw [← hch, e3]
      exact h.rep_cluster hf hc (hc.parents row hrow).1 (hc.parents row hrow).2
    rw [e1, e2]
    generalize labRep rows sel n row.parent = rep
    have hfind : ∀ {rows : List (CRow L S)}, (rows.map CRow.child).Nodup → ∀ {row : CRow L S}, row ∈ rows →
        rows.find? (fun r => decide (r.child = row.child)) = some row := by
      intro rows hnd row hrow
      cases hf : rows.find? (fun r => decide (r.child = row.child)) with
      | none =>
        rw [List.find?_eq_none] at hf
        exact absurd (decide_eq_true rfl) (hf row hrow)
      | some r =>
        have h1 := List.mem_of_find?_eq_some hf
        have h2 := List.find?_some hf
        rw [List.inj_on_of_nodup_map hnd h1 hrow (of_decide_eq_true h2)]
    have f1 := hfind hc.nodup hrow
    have f2 := hfind hc'.nodup hrow'
    rw [hch] at f2
    have ha : AnonEq n rows rows' := h.forall₂
    have f3 : (rows'.filter fun r => decide (r.parent = rep)).map CRow.lam = (rows.filter fun r => decide (r.parent = rep)).map CRow.lam :=
      AnonEq.map (n := n) (ha.filter fun r r' he => by rw [(anonRow_eq he).1]) fun r r' he => (anonRow_eq he).2.1
    unfold Verif.labelOne
    rw [f1, f2, f3]
    generalize ((rows.filter fun r => decide (r.parent = rep)).map CRow.lam).max? = m
    cases m <;> cases e <;> rfl

theorem mapM_range_some {β : Type*} {m : ℕ} {g : ℕ → Option β} {l : List β} (h : (List.range m).mapM g = some l) :
    l.length = m ∧ ∀ x, x < m → g x = l[x]? := by
  have h' : (List.range m).mapM g = pure l := h
  have key : ∀ (r : List ℕ) (l : List β), r.mapM g = some l → l.length = r.length ∧ ∀ (i x : ℕ), r[i]? = some x → g x = l[i]? := by
    intro r
    induction r with
    | nil =>
      intro l hl
      simp at hl
      subst hl
      exact ⟨rfl, fun i x hi => by simp at hi⟩
    | cons a r ih =>
      intro l hl
      rw [List.mapM_cons] at hl
      cases hg : g a with
      | none => rw [hg] at hl; simp at hl
      | some b =>
        rw [hg] at hl
        cases hm : r.mapM g with
        | none => rw [hm] at hl; simp at hl
        | some l' =>
          rw [hm] at hl
          have hl : some (b :: l') = some l := hl
          rw [← Option.some.inj hl]
          obtain ⟨i1, i2⟩ := ih l' hm
          refine ⟨by simp [i1], fun i x hi => ?_⟩
          cases i with
          | zero => simp at hi; subst hi; rw [hg]; rfl
          | succ i => rw [List.getElem?_cons_succ] at hi ⊢; exact i2 i x hi
  obtain ⟨h1, h2⟩ := key _ _ h
  rw [List.length_range] at h1
  exact ⟨h1, fun x hx => h2 x x (List.getElem?_range hx)⟩

theorem RowsRen.labelVector [LinearOrder L] [Zero L] (hf : ∀ x, f x < n ↔ x < n) (h : RowsRen n f rows rows') (hc : CondTree n k rows)
    (hne : rows ≠ []) (hsel : ∀ c ∈ sel, n ≤ c) (e : Option L) {labels : List ℤ} (hl : labelVector rows sel e n = some labels) :
    ∃ labels', labelVector rows' sel e n = some labels' ∧ labels.length = n ∧ labels'.length = n ∧
      (∀ x, x < n → labels'[f x]? = labels[x]?) ∧ (∀ l ∈ labels, l < sel.length) ∧ ∀ l ∈ labels', l < sel.length := by
  have hc' := h.condTree hf hc
  have hlen : rows'.length = rows.length := (List.Forall₂.length_eq h.forall₂).symm
  have hne' : rows' ≠ [] := by
    intro he
    rw [he] at hlen
    exact hne (List.length_eq_zero_iff.1 hlen.symm)
  by_cases hs : sel = []
  · subst hs
    have e1 : ∀ r : List (CRow L S), Verif.labelVector r [] e n = some (List.replicate n (-1)) := by
      intro r
      unfold Verif.labelVector
      rw [if_pos (by simp)]
    rw [e1, Option.some.injEq] at hl
    subst hl
    refine ⟨_, e1 rows', by simp, by simp, fun x hx => ?_, ?_, ?_⟩
    · rw [List.getElem?_replicate, List.getElem?_replicate, if_pos hx, if_pos ((hf x).2 hx)]
    · intro l hl; rw [List.eq_of_mem_replicate hl]; simp
    · intro l hl; rw [List.eq_of_mem_replicate hl]; simp
  · rw [hc.labelVector_eq hne hs] at hl
    obtain ⟨h1, h2⟩ := mapM_range_some hl
    have hbound : ∀ l ∈ labels, l < sel.length := by
      intro l hl
      obtain ⟨i, hi⟩ := List.getElem?_of_mem hl
      have hin : i < n := by rw [← h1]; exact (List.getElem?_eq_some_iff.1 hi).1
      have h3 := h2 i hin
      rw [hi] at h3
      have hpos : 0 < sel.length := List.length_pos_of_ne_nil hs
      have hm : ∀ c l, labelMap sel c = some l → l < sel.length := by
        intro c l hcl
        unfold labelMap at hcl
        split at hcl
        · have hle : (sortIds sel).length = sel.length := (List.perm_insertionSort _ sel).length_eq
          rw [← Option.some.inj hcl, hle]
          have : sel.length - 1 - (sortIds sel).reverse.idxOf c < sel.length := by omega
          exact_mod_cast this
        · cases hcl
      unfold Verif.labelOne at h3
      split at h3
      · rw [← Option.some.inj h3]; omega
      · split at h3
        · split at h3
          · split at h3
            · split at h3
              · split at h3
                · exact hm _ _ h3
                · rw [← Option.some.inj h3]; omega
              · split at h3
                · exact hm _ _ h3
                · rw [← Option.some.inj h3]; omega
            · cases h3
          · rw [← Option.some.inj h3]; omega
        · exact hm _ _ h3
    have hsymm : ∀ y, y < n → f.symm y < n := fun y hy => by rw [← hf, Equiv.apply_symm_apply]; exact hy
    have h3 : Verif.labelVector rows' sel e n = some ((List.range n).map fun y => labels.getD (f.symm y) 0) := by
      rw [hc'.labelVector_eq hne' hs]
      apply mapM_of_some
      intro y hy
      have hy := hsymm y (List.mem_range.1 hy)
      have h4 := h.labelOne hf hc hsel e hy
      rw [Equiv.apply_symm_apply] at h4
      rw [h4, h2 _ hy, List.getD_eq_getElem?_getD, List.getElem?_eq_getElem (by omega)]
      rfl
    refine ⟨_, h3, h1, by simp, fun x hx => ?_, hbound, ?_⟩
    · rw [List.getElem?_map, List.getElem?_range ((hf x).2 hx)]
      simp only [Option.map_some, Equiv.symm_apply_apply, List.getD_eq_getElem?_getD]
      rw [List.getElem?_eq_getElem (by omega)]
      rfl
    · intro l hl
      obtain ⟨y, hy, rfl⟩ := List.mem_map.1 hl
      have hy := hsymm y (List.mem_range.1 hy)
      rw [List.getD_eq_getElem?_getD, List.getElem?_eq_getElem (by omega)]
      exact hbound _ (List.getElem_mem _)

end
end
end Verif
