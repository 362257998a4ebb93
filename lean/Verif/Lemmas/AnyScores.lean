import Verif.Model.AnyScores
import Verif.Lemmas.Scale
import Verif.Props.Total

/-!
# Selection with unspecified score arithmetic; infinite lambdas as large numbers
-/

namespace Verif
universe u
variable {L S V W M : Type*} {K : Type u} {n k : ℕ}

theorem CondTree.of_mapLam {rows : List (CRow L S)} {g : L → M} (h : CondTree n k (rows.map (CRow.mapLam g))) : CondTree n k rows := by
  have hmap : (rows.map (CRow.mapLam g)).map CRow.child = rows.map CRow.child := childs_mapLam g rows
  refine ⟨h.pos, by rw [← hmap]; exact h.nodup, by rw [← hmap]; exact h.children, by rw [← hmap]; exact h.asc,
    fun r hr => h.parents _ (List.mem_map_of_mem hr), fun r hr => h.down _ (List.mem_map_of_mem hr), fun i r hi => ?_⟩
  rcases h.order i (r.mapLam g) (by rw [List.getElem?_map, hi]; rfl) with h4 | ⟨j, row', h4, h5, h6⟩
  · exact .inl h4
  · rw [List.getElem?_map] at h5
    obtain ⟨row, hrow, rfl⟩ := Option.map_eq_some_iff.1 h5
    exact .inr ⟨j, row, h4, hrow, h6⟩

theorem NonNested.mapLam_iff {rows : List (CRow L S)} (g : L → M) {sel : List ℕ} : NonNested (rows.map (CRow.mapLam g)) sel ↔ NonNested rows sel := by
  unfold NonNested
  simp only [CDesc.mapLam_iff]

section
variable [One S] [LinearOrder S]

/-- The dictionary of scores has exactly the clusters as keys, whatever the arithmetic. -/
theorem CondTree.scoreNodesAny_keys {rows : List (CRow L S)} (h : CondTree n k rows) (hne : rows ≠ [])
    (hk : ∀ row ∈ rows, 1 < row.size ↔ n ≤ row.child) (a : StabOps V L S) :
    ∃ d, scoreNodesAny a rows = some d ∧ d.keys = List.range' n k := by
  obtain ⟨row, rest, hrows⟩ := List.exists_cons_of_ne_nil hne
  have hfirst : row.parent = n := by
    rcases h.order 0 row (by rw [hrows]; rfl) with h1 | ⟨j, _, hj, _⟩
    · exact h1
    · omega
  have hunf : scoreNodesAny a rows = rows.foldlM (scoreStepAny a) ⟨[n], fun _ => a.zero⟩ := by
    rw [hrows, ← hfirst]; rfl
  have hmain : ∀ l, l <+: rows → ∃ d, l.foldlM (scoreStepAny a) (⟨[n], fun _ => a.zero⟩ : ScoreDict V) = some d ∧
      d.keys = n :: (l.map CRow.child).filter (fun c => decide (n ≤ c)) := by
    intro l
    induction l using List.reverseRecOn with
    | nil => intro _; exact ⟨_, rfl, rfl⟩
    | append_singleton l row ih =>
      intro hpre
      obtain ⟨d, h1, h2⟩ := ih ((List.prefix_append l [row]).trans hpre)
      have hget : rows[l.length]? = some row := by
        obtain ⟨t, ht⟩ := hpre
        rw [← ht]; simp
      have hrow := List.mem_of_getElem? hget
      have hlsub : ∀ j, j < l.length → rows[j]? = l[j]? := by
        intro j hj
        obtain ⟨t, ht⟩ := hpre
        rw [← ht, List.append_assoc, List.getElem?_append_left hj]
      have hpar : row.parent ∈ d.keys := by
        rw [h2]
        rcases h.order _ row hget with h4 | ⟨j, row', hj, h5, h6⟩
        · simp [h4]
        · rw [hlsub j hj] at h5
          refine List.mem_cons_of_mem _ (List.mem_filter.2 ⟨?_, decide_eq_true (h.parents row hrow).1⟩)
          rw [← h6]; exact List.mem_map_of_mem (List.mem_of_getElem? h5)
      have hnd : row.child ∉ l.map CRow.child := by
        have hsub := h.nodup.sublist (hpre.sublist.map CRow.child)
        rw [List.map_append, List.nodup_append] at hsub
        intro hmem
        exact hsub.2.2 _ hmem row.child (by simp) rfl
      rw [List.foldlM_append, h1]
      have hs : ∀ d', scoreStepAny a d row = some d' → (([row] : List (CRow L S)).foldlM (scoreStepAny a) d) = some d' := by
        intro d' hd'
        rw [List.foldlM_cons, hd']; rfl
      by_cases hsz : 1 < row.size
      · have hc := (hk row hrow).1 hsz
        have hcn : row.child ≠ n := by
          have := (h.children row.child).1 (List.mem_map_of_mem hrow); omega
        have hckeys : row.child ∉ d.keys := by
          rw [h2]
          simp only [List.mem_cons, List.mem_filter, not_or, not_and]
          exact ⟨hcn, fun h4 => absurd h4 hnd⟩
        refine ⟨(d.set row.child (a.birth row.lam row.size)).set row.parent
            (a.add ((d.set row.child (a.birth row.lam row.size)).val row.parent) row.lam row.size), hs _ ?_, ?_⟩
        · unfold scoreStepAny
          simp only [hsz, if_true]
          rw [if_pos]
          simp only [ScoreDict.set, hckeys, if_false, List.mem_append]
          exact .inl hpar
        · simp only [ScoreDict.set, hckeys, if_false, List.mem_append, hpar, true_or, if_true]
          rw [h2, List.map_append, List.filter_append]
          simp [hc]
      · have hc : ¬ n ≤ row.child := fun hc => hsz ((hk row hrow).2 hc)
        refine ⟨d.set row.parent (a.add (d.val row.parent) row.lam row.size), hs _ ?_, ?_⟩
        · unfold scoreStepAny
          simp only [hsz, if_false, hpar, if_true]
        · simp only [ScoreDict.set, hpar, if_true]
          rw [h2, List.map_append, List.filter_append]
          simp [hc]
  obtain ⟨d, h1, h2⟩ := hmain rows (List.prefix_refl _)
  refine ⟨d, by rw [hunf, h1], ?_⟩
  rw [h2, h.asc]
  obtain ⟨k, rfl⟩ := Nat.exists_eq_succ_of_ne_zero h.pos.ne'
  rfl

end

/-- What is selected, for any score arithmetic and options. -/
theorem CondTree.baseSelectionAny_sound [Field K] [LinearOrder K] {rows : List (CRow L K)} (h : CondTree n k rows) (hne : rows ≠ [])
    (hk : ∀ row ∈ rows, 1 < row.size ↔ n ≤ row.child) (a : StabOps V L K) (ops : ScoreOps V) (o : ClusterOpts K) :
    ∃ sel0, baseSelectionAny a ops o n rows = some sel0 ∧ sel0.Nodup ∧ NonNested rows sel0 ∧ (∀ c ∈ sel0, n ≤ c ∧ c < n + k) ∧ (k = 1 → sel0 = []) ∧
      (o.method = .leaf ∨ o.allowSingle = false → n ∉ sel0) := by
  have hpos := h.pos
  unfold baseSelectionAny
  cases hmeth : o.method with
  | leaf =>
    obtain ⟨g1, g2, g3, g4⟩ := C20_leaf_selection rows h hk
    refine ⟨_, rfl, g1.imp (fun h => ne_of_lt h), g2, fun c hc => ⟨((g3 c).1 hc).2.1, ((g3 c).1 hc).2.2.1⟩, ?_, fun _ hn => ?_⟩
    · intro h1
      rw [List.eq_nil_iff_forall_not_mem]
      intro c hc
      have := ((g3 c).1 hc).1; omega
    · have g5 := (g3 n).1 hn
      obtain ⟨s, hs, hs'⟩ := g4 g5.1 (n + 1) (by omega) (by omega)
      have g6 := (g3 s).1 hs
      have hds : CDesc rows n s := by
        have hc := h.clTree hk
        exact (h.desc_clusterTree hk g6.2.1).1 (hc.desc_root g6.2.1 g6.2.2.1)
      have := g2 n hn s hs hds
      subst this
      have hc := h.clTree hk
      have hd2 := (h.desc_clusterTree hk le_rfl).2 hs'
      have := hc.desc_range hd2 (by omega) (by omega)
      have hle := hc.desc_le hd2
      omega
  | eom =>
    obtain ⟨d, hd, hkeys⟩ := h.scoreNodesAny_keys hne hk a
    have hnn := C21_eom_not_nested rows h hk ops d (sizeExceeds (clusterTree rows) o.maxClusterSize)
      (rootExceeds o.maxClusterSize (((clusterTree rows).map CRow.parent).foldl min (((clusterTree rows).map CRow.parent).headD 0))) o.allowSingle
    refine ⟨_, by unfold extractEomAny; rw [hd], ?_, hnn.1, hnn.2, ?_, ?_⟩
    · unfold eomClusters
      split
      · exact List.nodup_nil
      · exact List.Nodup.filter _ (by rw [hkeys]; exact List.nodup_range')
    · intro h1
      have hc := h.clTree hk
      have hl := hc.length
      have : clusterTree rows = [] := List.length_eq_zero_iff.1 (by omega)
      rw [this]; rfl
    · intro hal hmem
      have hal := hal.resolve_left (by simp)
      have hc := h.clTree hk
      by_cases hk1 : 1 < k
      · have h2 := (hc.eom_mem hk1 _ _ _ _ _ _).1 hmem
        rw [hal] at h2
        simp only [Bool.false_eq_true, if_false] at h2
        obtain ⟨_, _, r, h3, h4⟩ := h2
        have := hc.kid_lt h3
        have := hc.desc_le h4.1
        omega
      · have hl := hc.length
        have : clusterTree rows = [] := List.length_eq_zero_iff.1 (by omega)
        rw [this] at hmem
        simp [eomClusters] at hmem

/-- If the arithmetic never finds `0.0` greater than `max(score, 0.0)`, every cluster without child cluster lies in a selected one. -/
theorem CondTree.baseSelectionAny_covers [Field K] [LinearOrder K] {rows : List (CRow L K)} (h : CondTree n k rows) (hne : rows ≠ [])
    (hk : ∀ row ∈ rows, 1 < row.size ↔ n ≤ row.child) (a : StabOps V L K) (ops : ScoreOps V) (o : ClusterOpts K)
    (hmax : o.method = .leaf ∨ o.maxClusterSize = none ∧ ∀ x, ops.gt ops.zero (ops.pos x) = false) {sel0 : List ℕ}
    (hsel : baseSelectionAny a ops o n rows = some sel0) (hs : 1 < k) {c : ℕ} (h1 : n ≤ c) (h2 : c < n + k) (hl : Childless n rows c) :
    ∃ s ∈ sel0, CDesc rows s c := by
  unfold baseSelectionAny at hsel
  cases hmeth : o.method with
  | leaf =>
    rw [hmeth] at hsel
    obtain ⟨-, -, g3, -⟩ := C20_leaf_selection rows h hk
    obtain rfl := Option.some.inj hsel
    exact ⟨c, (g3 c).2 ⟨hs, h1, h2, hl⟩, .refl⟩
  | eom =>
    rw [hmeth] at hsel
    obtain ⟨hmx, hops⟩ := hmax.resolve_left (by rw [hmeth]; decide)
    obtain ⟨d, hd, hkeys⟩ := h.scoreNodesAny_keys hne hk a
    have hc := h.clTree hk
    unfold extractEomAny at hsel
    rw [hd, hmx] at hsel
    obtain rfl := Option.some.inj hsel
    have hkids : kidsOf (clusterTree rows) c = [] := by
      rw [List.eq_nil_iff_forall_not_mem]
      intro x hx
      obtain ⟨row, h3, h4, h5⟩ := mem_kidsOf.1 hx
      obtain ⟨h6, h7⟩ := List.mem_filter.1 h3
      have := hl row h6 h4
      have := (hk row h6).1 (of_decide_eq_true h7)
      omega
    have hcn : c ≠ n := by
      rintro rfl
      have := mem_kidsOf.2 (hc.first hs)
      rw [hkids] at this; simp at this
    obtain ⟨tl, htl⟩ : ∃ tl, tl = Function.update (sizeExceeds (clusterTree rows) (none : Option K)) n
      (rootExceeds (none : Option K) (((clusterTree rows).map CRow.parent).foldl min (((clusterTree rows).map CRow.parent).headD 0))) := ⟨_, rfl⟩
    have htake : hc.take ops d.val tl c = true := by
      have htl' : tl c = false := by rw [htl, Function.update_of_ne hcn]; rfl
      simp only [ClTree.take, htl', Bool.or_false, Bool.not_eq_true', ClTree.total, hkids, List.foldl_nil]
      exact hops _
    have hdown : ∀ node, CDesc (clusterTree rows) node c →
        ∃ s, hc.Top ops d.val tl node s ∧ CDesc (clusterTree rows) s c := by
      intro node hd
      induction hj : n + k - node using Nat.strong_induction_on generalizing node with
      | _ j ih =>
        cases ht : hc.take ops d.val tl node
        · rcases desc_cases hd with h3 | ⟨e, h3, h4⟩
          · subst h3; rw [htake] at ht; cases ht
          · have := hc.kid_lt h3
            obtain ⟨s, h5, h6⟩ := ih (n + k - e) (by omega) e h4 rfl
            exact ⟨s, (ClTree.Top.of_not_take ht).2 ⟨e, h3, h5⟩, h6⟩
        · exact ⟨node, (ClTree.Top.of_take ht).2 rfl, hd⟩
    have hroot := hc.desc_root h1 h2
    have hinkeys : ∀ c, CDesc (clusterTree rows) n c → c ∈ d.keys := by
      intro c hcd
      have := hc.desc_range hcd le_rfl (by omega)
      rw [hkeys, List.mem_range'_1]; omega
    cases hal : o.allowSingle
    · obtain ⟨r, h3, h4⟩ := (desc_cases hroot).resolve_left hcn
      obtain ⟨s, h5, h6⟩ := hdown r h4
      refine ⟨s, (hc.eom_mem hs _ _ _ _ _ _).2 ⟨hinkeys s (desc_of_kid h3 h5.1), ?_⟩, (h.desc_clusterTree hk h1).1 h6⟩
      simp only [Bool.false_eq_true, if_false]
      refine ⟨?_, r, h3, htl ▸ h5⟩
      rw [hkeys, List.length_range']; exact hs
    · obtain ⟨s, h5, h6⟩ := hdown n hroot
      refine ⟨s, (hc.eom_mem hs _ _ _ _ _ _).2 ⟨hinkeys s h5.1, ?_⟩, (h.desc_clusterTree hk h1).1 h6⟩
      simp only [if_true]
      exact htl ▸ h5

/-! ## Infinite lambdas -/

section
variable [Field K] [LinearOrder K]

/-- A number in place of `inf`. -/
def topTo (B : K) : WithTop K → K
  | ⊤ => B
  | (a : K) => min a B

@[simp] theorem topTo_top (B : K) : topTo B ⊤ = B := rfl
@[simp] theorem topTo_coe (B a : K) : topTo B (a : WithTop K) = min a B := rfl

theorem topTo_mono (B : K) : Monotone (topTo B) := by
  intro a b hab
  induction b using WithTop.recTopCoe with
  | top =>
    induction a using WithTop.recTopCoe with
    | top => exact le_rfl
    | coe a => exact min_le_right _ _
  | coe b =>
    induction a using WithTop.recTopCoe with
    | top => simp at hab
    | coe a => exact min_le_min_right B (WithTop.coe_le_coe.1 hab)

/-- Infinity and the numbers below `B`. -/
def belowOrTop (B : K) : Set (WithTop K) := {l | l = ⊤ ∨ l < (B : WithTop K)}

theorem topTo_strictMonoOn (B : K) : StrictMonoOn (topTo B) (belowOrTop B) := by
  intro a ha b hb hab
  induction a using WithTop.recTopCoe with
  | top => simp at hab
  | coe a =>
    have ha : a < B := WithTop.coe_lt_coe.1 (ha.resolve_left (by simp))
    rw [topTo_coe, min_eq_left ha.le]
    induction b using WithTop.recTopCoe with
    | top => exact ha
    | coe b =>
      have hb : b < B := WithTop.coe_lt_coe.1 (hb.resolve_left (by simp))
      rw [topTo_coe, min_eq_left hb.le]
      exact WithTop.coe_lt_coe.1 hab

theorem topTo_eq_zero {B : K} (hB : 0 < B) (l : WithTop K) : topTo B l = 0 ↔ l = 0 := by
  induction l using WithTop.recTopCoe with
  | top => simp [hB.ne']
  | coe a =>
    rw [topTo_coe, WithTop.coe_eq_zero]
    constructor
    · intro h
      rcases min_choice a B with h1 | h1
      · rw [← h1]; exact h
      · rw [h1] at h; exact absurd h hB.ne'
    · rintro rfl; exact min_eq_left hB.le

/-- Back to `inf`. -/
def toTop (B x : K) : WithTop K := if x = B then ⊤ else x

theorem toTop_topTo {B : K} {l : WithTop K} (hl : l ∈ belowOrTop B) : toTop B (topTo B l) = l := by
  induction l using WithTop.recTopCoe with
  | top => simp [toTop]
  | coe a =>
    have ha : a < B := WithTop.coe_lt_coe.1 (hl.resolve_left (by simp))
    rw [topTo_coe, min_eq_left ha.le, toTop, if_neg ha.ne]

theorem epsClose_topTo [IsStrictOrderedRing K] {eps B : K} (he : 0 < eps) (hB : 1 / eps < B) (l : WithTop K) :
    epsClose eps (topTo B l) = epsCloseTop eps l := by
  have hB0 : 0 < B := lt_trans (one_div_pos.2 he) hB
  have hBe : 1 / B < eps := by rw [div_lt_comm₀ hB0 he]; exact hB
  induction l using WithTop.recTopCoe with
  | top =>
    simp only [topTo_top, epsCloseTop, epsClose]
    exact decide_eq_decide.2 ⟨fun _ => he, fun _ => ⟨hB0, hBe⟩⟩
  | coe a =>
    change epsClose eps (min a B) = epsClose eps a
    rcases le_total a B with h | h
    · rw [min_eq_left h]
    · rw [min_eq_right h]
      unfold epsClose
      have ha : 0 < a := hB0.trans_le h
      exact decide_eq_decide.2 ⟨fun _ => ⟨ha, lt_of_le_of_lt (one_div_le_one_div_of_le hB0 h) hBe⟩, fun _ => ⟨hB0, hBe⟩⟩

theorem exists_topTo_bound [IsStrictOrderedRing K] (c : K) (rows : List (CRow (WithTop K) S)) :
    ∃ B : K, 0 < B ∧ c < B ∧ ∀ row ∈ rows, row.lam ∈ belowOrTop B := by
  induction rows with
  | nil => exact ⟨max 0 c + 1, by positivity, lt_of_le_of_lt (le_max_right 0 c) (lt_add_one _), by simp⟩
  | cons row rows ih =>
    obtain ⟨B, h1, h2, h3⟩ := ih
    have hmono : ∀ {B' : K}, B ≤ B' → ∀ r ∈ rows, r.lam ∈ belowOrTop B' := fun hB r hr =>
      (h3 r hr).imp_right fun h => h.trans_le (WithTop.coe_le_coe.2 hB)
    rcases hl : row.lam with _ | a
    · refine ⟨B, h1, h2, fun r hr => ?_⟩
      rcases List.mem_cons.1 hr with rfl | hr
      · exact .inl hl
      · exact h3 r hr
    · refine ⟨max B (a + 1), lt_max_of_lt_left h1, lt_max_of_lt_left h2, fun r hr => ?_⟩
      rcases List.mem_cons.1 hr with rfl | hr
      · refine .inr ?_
        rw [hl]
        exact WithTop.coe_lt_coe.2 (lt_max_of_lt_right (lt_add_one a))
      · exact hmono (le_max_left _ _) r hr

end
/-! ## Exact arithmetic -/

section
variable {L M S V : Type*}

theorem eomRec_mapLam (g : L → M) (ct : List (CRow L S)) (ops : ScoreOps V) (score : ℕ → V) (tl : ℕ → Bool) (f : ℕ) : ∀ node sel,
    eomRec (ct.map (CRow.mapLam g)) ops score tl f node sel = eomRec ct ops score tl f node sel := by
  induction f with
  | zero => exact fun _ _ => rfl
  | succ f ih =>
    intro node sel
    unfold eomRec
    simp only [kidsOf_mapLam, unselectBelow_mapLam, ih]

theorem eomClusters_mapLam (g : L → M) (ct : List (CRow L S)) (ops : ScoreOps V) (d : ScoreDict V) (sg : ℕ → Bool) (rg allow : Bool) :
    eomClusters (ct.map (CRow.mapLam g)) ops d sg rg allow = eomClusters ct ops d sg rg allow := by
  unfold eomClusters
  cases ct with
  | nil => rfl
  | cons row ct =>
    simp only [List.map_cons]
    rw [show row.mapLam g :: ct.map (CRow.mapLam g) = (row :: ct).map (CRow.mapLam g) from rfl]
    simp only [kidsOf_mapLam, eomRec_mapLam, List.length_map, parents_mapLam]
    rfl

end

theorem scoreNodesAny_exact {K : Type*} [Field K] [LinearOrder K] (rows : List (CRow K K)) :
    scoreNodesAny (StabOps.exact K) (rows.map (CRow.mapLam WithTop.some)) = scoreNodes rows := by
  have step : ∀ (d : ScoreDict K) (row : CRow K K), scoreStepAny (StabOps.exact K) d (row.mapLam WithTop.some) = scoreStep d row := fun _ _ => rfl
  have key : ∀ (l : List (CRow K K)) (d : ScoreDict K), (l.map (CRow.mapLam WithTop.some)).foldlM (scoreStepAny (StabOps.exact K)) d = l.foldlM scoreStep d := by
    intro l
    induction l with
    | nil => exact fun _ => rfl
    | cons row l ih =>
      intro d
      rw [List.map_cons, List.foldlM_cons, List.foldlM_cons, step]
      cases scoreStep d row with
      | none => rfl
      | some d1 => exact ih d1
  cases rows with
  | nil => rfl
  | cons row rest => exact key (row :: rest) ⟨[row.parent], fun _ => 0⟩

theorem extractEomAny_exact {K : Type*} [Field K] [LinearOrder K] (rows : List (CRow K K)) (mx : Option K) (allow : Bool) :
    extractEomAny (StabOps.exact K) (ScoreOps.exact K) (rows.map (CRow.mapLam WithTop.some)) mx allow = extractEom rows mx allow := by
  unfold extractEomAny extractEom
  simp only [clusterTree_mapLam, scoreNodesAny_exact, parents_mapLam, eomClusters_mapLam]
  cases scoreNodes rows with
  | none => rfl
  | some d =>
    simp only [Option.some.injEq]
    congr 1
    funext c
    unfold sizeExceeds
    cases mx with
    | none => rfl
    | some m => simp only [List.any_map]; rfl

end Verif
