import Verif.Lemmas.Scale
import Verif.Props.Rename
import Verif.Props.Plscan

/-!
# Property C93: the unit of length does not matter
-/

namespace Verif

section
variable {W V K : Type*} [LinearOrder W] [Inhabited W] [LinearOrder V] [Inhabited V] [Field K] [LinearOrder K] [IsStrictOrderedRing K] [Inhabited K]

/-- The result with lengths changed by `φ` and lambdas by `ψ`; labels, strengths and selected clusters are kept. -/
def ClusterResult.stretched (φ : W → V) (ψ : K → K) (r : ClusterResult W K) : ClusterResult V K :=
  ⟨r.labels, r.strengths, r.linkage.map (LRow.mapD φ), r.condensed.map (CRow.mapLam ψ), r.sortedMst.map (Edge.mapW φ), r.selected⟩

theorem linkage_mem {n : ℕ} (hn : 0 < n) {g : List (Edge W)} (hg : SpanningTree n g) (wt : ℕ → K) :
    (Hier.ofRows (mstToLinkage wt (lexsortMst g))).Valid ∧ ∀ row ∈ mstToLinkage wt (lexsortMst g), ∃ e ∈ g, e.w = row.d := by
  have ht := hg.perm (lexsortMst_perm g)
  obtain ⟨hden, h⟩ := C12_linkage_is_dendrogram n hn wt _ ht (lexsortMst_sorted g)
  refine ⟨hden.valid, fun row hr => ?_⟩
  have h1 : row.d ∈ (lexsortMst g).map Edge.w := by rw [← h.1]; exact List.mem_map_of_mem hr
  obtain ⟨e, he, hw⟩ := List.mem_map.1 h1
  exact ⟨e, (lexsortMst_perm g).mem_iff.1 he, hw⟩

/-- C93: multiplying all distances by a number (`φ`), and so dividing all lambdas by it (`a` is its inverse), multiplies the lengths in the result by that number
and changes nothing else, if `cluster_selection_epsilon` is multiplied by it too and `cluster_selection_persistence`, which is a difference of lambdas, is divided by
it.  One fails if and only if the other does.  Also in the semi-supervised mode. -/
theorem C93_scaled {n : ℕ} (hn : 0 < n) {g : List (Edge W)} (hg : SpanningTree n g) {φ : W → V} (hφ : StrictMono φ) {a : K} (ha : 0 < a) {lam : W → K} {lam' : V → K}
    (hlam : ∀ e ∈ g, lam' (φ e.w) = a * lam e.w) (wt : ℕ → K) (o : ClusterOpts K) :
    let o' := { o with epsilon := o.epsilon / a, persistence := a * o.persistence }
    clustersFromMst lam' wt o' (g.map (Edge.mapW φ)) = (clustersFromMst lam wt o g).map (ClusterResult.stretched φ (a * ·)) ∧
      ∀ v m lab, clustersFromMstSS lam' wt o' v m lab (g.map (Edge.mapW φ)) = (clustersFromMstSS lam wt o v m lab g).map (ClusterResult.stretched φ (a * ·)) := by
  intro o'
  obtain ⟨hv, hmem⟩ := linkage_mem hn hg wt
  have hcond : condenseTree (Hier.ofRows ((mstToLinkage wt (lexsortMst g)).map (LRow.mapD φ))) wt o.minClusterSize none lam' =
      (condenseTree (Hier.ofRows (mstToLinkage wt (lexsortMst g))) wt o.minClusterSize none lam).map (CRow.mapLam (a * ·)) := by
    refine condenseTree_ofRows_mapLam hv (fun row hr => ?_) wt o.minClusterSize none
    obtain ⟨e, he, hw⟩ := hmem row hr
    rw [← hw]; exact hlam e he
  have hsm : StrictMonoOn (fun x : K => a * x) Set.univ := fun x _ y _ h => mul_lt_mul_of_pos_left h ha
  have hz : ∀ l ∈ (Set.univ : Set K), a * l = 0 ↔ l = 0 := fun l _ => by simp [ha.ne']
  have htail : ∀ (rows : List (CRow K K)) (s0 : Option (List ℕ)),
      (s0.bind fun sel0 => (epsilonIf (o.epsilon / a) (rows.map (CRow.mapLam (a * ·))) sel0).bind fun sel =>
        (labelVector (rows.map (CRow.mapLam (a * ·))) sel (epsLam (o.epsilon / a)) (g.length + 1)).bind fun labels =>
        (strengthVector ((rows.map (CRow.mapLam (a * ·))).map fun row => ⟨row.parent, row.child, (row.lam : WithTop K), row.size⟩) sel labels).map
          fun strengths => (⟨labels, strengths, (mstToLinkage wt (lexsortMst g)).map (LRow.mapD φ), rows.map (CRow.mapLam (a * ·)),
            (lexsortMst g).map (Edge.mapW φ), sel⟩ : ClusterResult V K)) =
      (s0.bind fun sel0 => (epsilonIf o.epsilon rows sel0).bind fun sel =>
        (labelVector rows sel (epsLam o.epsilon) (g.length + 1)).bind fun labels =>
        (strengthVector (rows.map fun row => ⟨row.parent, row.child, (row.lam : WithTop K), row.size⟩) sel labels).map
          fun strengths => (⟨labels, strengths, mstToLinkage wt (lexsortMst g), rows, lexsortMst g, sel⟩ : ClusterResult W K)).map
          (ClusterResult.stretched φ (a * ·)) := by
    intro rows s0
    cases s0 with
    | none => rfl
    | some sel0 =>
      rw [Option.bind_some, Option.bind_some, epsilonIf_scale ha, epsLam_scale ha]
      cases epsilonIf o.epsilon rows sel0 with
      | none => rfl
      | some sel =>
        rw [Option.bind_some, Option.bind_some, labelVector_mapLam hsm hz rows (fun _ _ => trivial) sel _ (fun _ _ => trivial)]
        cases labelVector rows sel (epsLam o.epsilon) (g.length + 1) with
        | none => rfl
        | some labels =>
          rw [Option.bind_some, Option.bind_some, strengthVector_scale ha, Option.map_map]
          rfl
  constructor
  · unfold clustersFromMst
    simp only [List.length_map, lexsortMst_mapW hφ, mstToLinkage_mapW]
    rw [hcond, simplifyIf_scale ha]
    cases simplifyIf o.persistence (condenseTree (Hier.ofRows (mstToLinkage wt (lexsortMst g))) wt o.minClusterSize none lam) with
    | none => rfl
    | some rows =>
      rw [Option.map_some, Option.bind_some, Option.bind_some, baseSelection_scale ha o o' rfl rfl rfl]
      exact htail rows _
  · intro v m lab
    unfold clustersFromMstSS
    simp only [List.length_map, lexsortMst_mapW hφ, mstToLinkage_mapW]
    rw [hcond, simplifyIf_scale ha]
    cases simplifyIf o.persistence (condenseTree (Hier.ofRows (mstToLinkage wt (lexsortMst g))) wt o.minClusterSize none lam) with
    | none => rfl
    | some rows =>
      rw [Option.map_some, Option.bind_some, Option.bind_some, baseSelectionSS_scale ha o o' rfl rfl]
      exact htail rows _

/-! ### The samples -/

/-- `1 / d`, the lambda of a distance, with a number in place of the `inf` for distance zero. -/
def lamBig (big : K) : WithTop K → K
  | ⊤ => 0
  | (d : K) => if 0 < d then 1 / d else big

omit [Inhabited K] in
theorem lamBig_scale {c : K} (hc : 0 < c) (big : K) (w : WithTop K) : lamBig (c⁻¹ * big) (scaleBy c w) = c⁻¹ * lamBig big w := by
  cases w with
  | top => exact (mul_zero _).symm
  | coe d =>
    change (if 0 < c * d then 1 / (c * d) else c⁻¹ * big) = c⁻¹ * (if 0 < d then 1 / d else big)
    by_cases h : 0 < d
    · rw [if_pos h, if_pos (mul_pos hc h), one_div, one_div, mul_inv]
    · rw [if_neg h, if_neg (fun h' => h ((mul_pos_iff_of_pos_left hc).1 h'))]

omit [Inhabited K] in
theorem scaleBy_strictMono {c : K} (hc : 0 < c) : StrictMono (scaleBy c) := WithTop.strictMono_map_iff.2 fun _ _ h => mul_lt_mul_of_pos_left h hc

omit [Inhabited K] in
theorem scaleBy_zero (c : K) : scaleBy c 0 = 0 := congrArg (fun x : K => (x : WithTop K)) (mul_zero c)

/-- C93 for the data, `algorithm='kruskal'` (without `knn_k`), with or without `cannot_link` constraints: if all distances are multiplied by `c`, the spanning tree
consists of the same edges, in the same order. -/
theorem C93_kruskal {c : K} (hc : 0 < c) {n : ℕ} (hn : 0 < n) (ms : ℕ) (D : ℕ → ℕ → WithTop K) (cl : CLParams)
    (hg : SpanningTree n (kruskalBrute n ms D cl)) (big : K) (wt : ℕ → K) (o : ClusterOpts K) :
    let o' := { o with epsilon := c * o.epsilon, persistence := c⁻¹ * o.persistence }
    let g := kruskalBrute n ms D cl
    let g' := kruskalBrute n ms (fun i j => scaleBy c (D i j)) cl
    g' = g.map (Edge.mapW (scaleBy c)) ∧
      clustersFromMst (lamBig (c⁻¹ * big)) wt o' g' = (clustersFromMst (lamBig big) wt o g).map (ClusterResult.stretched (scaleBy c) (c⁻¹ * ·)) ∧
      ∀ v m lab, clustersFromMstSS (lamBig (c⁻¹ * big)) wt o' v m lab g' =
        (clustersFromMstSS (lamBig big) wt o v m lab g).map (ClusterResult.stretched (scaleBy c) (c⁻¹ * ·)) := by
  intro o' g g'
  have h1 : g' = g.map (Edge.mapW (scaleBy c)) := kruskalBrute_mapW (scaleBy_strictMono hc) (scaleBy_zero c) rfl n ms D cl
  have h2 := C93_scaled hn hg (scaleBy_strictMono hc) (inv_pos.2 hc) (lam := lamBig big) (lam' := lamBig (c⁻¹ * big)) (fun e _ => lamBig_scale hc big e.w) wt o
  rw [div_inv_eq_mul, mul_comm o.epsilon c] at h2
  rw [h1]
  exact ⟨rfl, h2⟩

/-- C93 for the data, `algorithm='boruvka'`: any run on the samples and any run on samples whose distances are `c` times as large, on any schedules and with any leaf
sizes.  Missing: spanning trees with edges of equal lengths, for which the result depends on the order in which the edges are found (`C91_ties`). -/
theorem C93_boruvka_partial {c : K} (hc : 0 < c) {R : Type*} [LinearOrder R] {vis vis' : List (WithTop K) → WithTop K → Prop} (hvis : ∀ h w, vis h w → anyVis h w)
    (hvis' : ∀ h w, vis' h w → anyVis h w) {ar : Arith R (WithTop K)} (ha : ar.Lawful) {rt : WithTop K → WithTop K} (hrt : Monotone rt) (hz : rt ar.zero = 0)
    (zero : R) (pts pts' : ℕ → ℕ → R) (dims n leafSize leafSize' ms : ℕ)
    (hpts : ∀ i j, rt (rdist ar dims (pts' i) (pts' j)) = scaleBy c (rt (rdist ar dims (pts i) (pts j))))
    (hls : 1 ≤ leafSize) (hls' : 1 ≤ leafSize') (hn : 2 ≤ n) (hms : ms < n) (hbig : ms < 32768)
    (hfin : ∀ i < n, ∀ j < n, rdist ar dims (pts i) (pts j) < ⊤) (hfin' : ∀ i < n, ∀ j < n, rdist ar dims (pts' i) (pts' j) < ⊤) (t t' : KdTree R)
    (ht : buildKdTree ar zero pts dims n leafSize = some t) (ht' : buildKdTree ar zero pts' dims n leafSize' = some t') (repro repro' : Option ℕ)
    (edges edges' : List (Edge (WithTop K))) (core core' : ℕ → WithTop K)
    (h : TreeBoruvka vis ar rt dims pts t (numNodes n leafSize) n ms repro (edges.map fun e => ⟨e.u, some e.v, e.w⟩) core)
    (h' : TreeBoruvka vis' ar rt dims pts' t' (numNodes n leafSize') n ms repro' (edges'.map fun e => ⟨e.u, some e.v, e.w⟩) core')
    (hd : (edges.map Edge.w).Nodup) (big : K) (wt : ℕ → K) (o : ClusterOpts K) :
    let o' := { o with epsilon := c * o.epsilon, persistence := c⁻¹ * o.persistence }
    (∀ i, i < n → core' i = scaleBy c (core i)) ∧
      (clustersFromMst (lamBig (c⁻¹ * big)) wt o' edges').map ClusterResult.clustering =
        (clustersFromMst (lamBig big) wt o edges).map fun r => (r.stretched (scaleBy c) (c⁻¹ * ·)).clustering := by
  intro o'
  have inj : ∀ {a b : List (Edge (WithTop K))}, a.map (fun e => (⟨e.u, some e.v, e.w⟩ : TEdge (WithTop K))) = b.map (fun e => ⟨e.u, some e.v, e.w⟩) → a = b := by
    intro a b hab
    refine List.map_injective_iff.2 (fun x y hxy => ?_) hab
    cases x; cases y
    simpa using hxy
  obtain ⟨_, tree, e1, s1, _⟩ := C35_minimum_spanning_tree_partial hvis ha hrt zero pts dims n leafSize ms hls hn hms hbig hfin t ht repro _ core h
  obtain ⟨c1, tree', e2, _, k1⟩ := C35_agrees_with_kruskal_partial hvis ha hrt hz zero pts dims n leafSize ms hls hn hms hbig hfin t ht repro _ core h
  obtain ⟨_, tree2, e3, s2, _⟩ := C35_minimum_spanning_tree_partial hvis' ha hrt zero pts' dims n leafSize' ms hls' hn hms hbig hfin' t' ht' repro' _ core' h'
  obtain ⟨c2, tree2', e4, _, k2⟩ := C35_agrees_with_kruskal_partial hvis' ha hrt hz zero pts' dims n leafSize' ms hls' hn hms hbig hfin' t' ht' repro' _ core' h'
  rw [← inj e1] at s1
  rw [← inj e2] at k1
  rw [← inj e3] at s2
  rw [← inj e4] at k2
  have hmono := scaleBy_strictMono hc
  have hD : (fun i j => rt (rdist ar dims (pts' i) (pts' j))) = fun i j => scaleBy c (rt (rdist ar dims (pts i) (pts j))) := by
    funext i j; exact hpts i j
  simp only [hD] at c2 k2
  rw [kruskalBrute_mapW hmono (scaleBy_zero c) rfl] at k2
  refine ⟨fun i hi => ?_, ?_⟩
  · rw [c1 i hi, c2 i hi]
    exact bruteCore_mapW hmono (scaleBy_zero c) rfl n ms _ i
  · have hup : ∀ (l : List (Edge (WithTop K))) (t : WithTop K), upTo (scaleBy c t) (l.map (Edge.mapW (scaleBy c))) = (upTo t l).map (Edge.mapW (scaleBy c)) := by
      intro l t
      unfold upTo
      rw [List.filter_map]
      congr 2
      funext e
      simp only [Function.comp_apply, Edge.mapW, hmono.le_iff_le]
    have hsurj : ∀ t, ∃ u, scaleBy c u = t := by
      intro t
      cases t with
      | top => exact ⟨⊤, rfl⟩
      | coe x => exact ⟨((c⁻¹ * x : K) : WithTop K), congrArg (fun x : K => (x : WithTop K)) (mul_inv_cancel_left₀ hc.ne' x)⟩
    have hsame : SameComponents n (Equiv.refl ℕ) (edges.map (Edge.mapW (scaleBy c))) edges' := by
      intro t x y _ _
      obtain ⟨u, rfl⟩ := hsurj t
      change _ ↔ Conn (upTo (scaleBy c u) edges') x y
      rw [hup, conn_mapW, k1, k2, hup, conn_mapW]
    have hd' : ((edges.map (Edge.mapW (scaleBy c))).map Edge.w).Nodup := by
      rw [List.map_map]
      have : (edges.map Edge.w).map (scaleBy c) = edges.map (Edge.w ∘ Edge.mapW (scaleBy c)) := by rw [List.map_map]; rfl
      rw [← this]
      exact hd.map hmono.injective
    rw [(hsame.clusters (by omega) ((spanningTree_mapW _ _).2 s1) s2 hd' (lamBig (c⁻¹ * big)) wt o').1]
    have h2 := (C93_scaled (by omega) s1 hmono (inv_pos.2 hc) (lam := lamBig big) (lam' := lamBig (c⁻¹ * big)) (fun e _ => lamBig_scale hc big e.w) wt o).1
    rw [div_inv_eq_mul, mul_comm o.epsilon c] at h2
    rw [h2, Option.map_map]
    rfl

/-! ### Distances changed in another way -/

theorem condenseTree_lam_mem {n : ℕ} (hn : 0 < n) {g : List (Edge W)} (hg : SpanningTree n g) (wt : ℕ → K) {lam : W → K} {s : Set K}
    (hs : ∀ e ∈ g, lam e.w ∈ s) (mcs : K) : ∀ row ∈ condenseTree (Hier.ofRows (mstToLinkage wt (lexsortMst g))) wt mcs none lam, row.lam ∈ s := by
  classical
  obtain ⟨hv, hmem⟩ := linkage_mem hn hg wt
  cases hgl : g with
  | nil =>
    intro row hr
    rw [show mstToLinkage wt (lexsortMst ([] : List (Edge W))) = [] from rfl] at hr
    have : condenseTree (Hier.ofRows ([] : List (LRow W K))) wt mcs none lam = [] := by
      unfold condenseTree
      simp [Hier.ofRows, Hier.root, Hier.bfs, Hier.bfsAux, condenseStep, condenseInit, Hier.n, Hier.kids]
    rw [this] at hr; simp at hr
  | cons e0 rest =>
    rw [← hgl]
    let d0 : s := ⟨lam e0.w, hs e0 (by rw [hgl]; simp)⟩
    let lam2 : W → s := fun d => if h : lam d ∈ s then ⟨lam d, h⟩ else d0
    have key := condenseTree_ofRows_mapLam (g := (Subtype.val : s → K)) (φ := (id : W → W)) hv (lam := lam2) (lam' := lam) (fun row hr => by
      obtain ⟨e, he, hw⟩ := hmem row hr
      have : lam row.d ∈ s := hw ▸ hs e he
      simp only [lam2, id, dif_pos this]) wt mcs none
    have hid : (mstToLinkage wt (lexsortMst g)).map (LRow.mapD id) = mstToLinkage wt (lexsortMst g) := by
      have : (LRow.mapD id : LRow W K → LRow W K) = id := by funext r; cases r; rfl
      rw [this, List.map_id]
    rw [hid] at key
    rw [key]
    intro row hr
    obtain ⟨r, _, rfl⟩ := List.mem_map.1 hr
    exact r.lam.2

/-- C93, second part: with `cluster_selection_method='leaf'`, without epsilon and persistence, only the order of the distances matters.  If they are replaced by other
numbers in the same order — squared, for example — the clusters and labels are the same; the strengths may differ. -/
theorem C93_leaf_order {n : ℕ} (hn : 0 < n) {g : List (Edge W)} (hg : SpanningTree n g) {φ : W → V} (hφ : StrictMono φ) {ψ : K → K}
    (hψ : StrictMonoOn ψ (Set.Ici 0)) (h0 : ψ 0 = 0) {lam : W → K} {lam' : V → K} (hpos : ∀ e ∈ g, 0 ≤ lam e.w) (hlam : ∀ e ∈ g, lam' (φ e.w) = ψ (lam e.w))
    (wt : ℕ → K) (o : ClusterOpts K) (ho : o.method = .leaf) (he : o.epsilon ≤ 0) (hp : o.persistence ≤ 0) :
    (clustersFromMst lam' wt o (g.map (Edge.mapW φ))).map (fun r => (r.labels, r.selected, r.linkage, r.condensed)) =
      (clustersFromMst lam wt o g).map (fun r => (r.labels, r.selected, r.linkage.map (LRow.mapD φ), r.condensed.map (CRow.mapLam ψ))) := by
  obtain ⟨hv, hmem⟩ := linkage_mem hn hg wt
  have hcond : condenseTree (Hier.ofRows ((mstToLinkage wt (lexsortMst g)).map (LRow.mapD φ))) wt o.minClusterSize none lam' =
      (condenseTree (Hier.ofRows (mstToLinkage wt (lexsortMst g))) wt o.minClusterSize none lam).map (CRow.mapLam ψ) := by
    refine condenseTree_ofRows_mapLam hv (fun row hr => ?_) wt o.minClusterSize none
    obtain ⟨e, he, hw⟩ := hmem row hr
    rw [← hw]; exact hlam e he
  have hrows := condenseTree_lam_mem hn hg wt (s := Set.Ici 0) hpos o.minClusterSize
  have hz : ∀ l ∈ Set.Ici (0 : K), ψ l = 0 ↔ l = 0 := fun l hl =>
    ⟨fun h => hψ.injOn hl Set.self_mem_Ici (h.trans h0.symm), fun h => by rw [h, h0]⟩
  have hstr : ∀ (rows : List (CRow K K)) sel labels,
      (strengthVector ((rows.map (CRow.mapLam ψ)).map fun row => ⟨row.parent, row.child, (row.lam : WithTop K), row.size⟩) sel labels).isSome =
      (strengthVector (rows.map fun row => ⟨row.parent, row.child, (row.lam : WithTop K), row.size⟩) sel labels).isSome := by
    intro rows sel labels
    set R := rows.map fun row : CRow K K => (⟨row.parent, row.child, (row.lam : WithTop K), row.size⟩ : CRow (WithTop K) K) with hR
    set R' := (rows.map (CRow.mapLam ψ)).map fun row : CRow K K => (⟨row.parent, row.child, (row.lam : WithTop K), row.size⟩ : CRow (WithTop K) K) with hR'
    have hpar : R'.map CRow.parent = R.map CRow.parent := by rw [hR, hR', List.map_map, List.map_map, List.map_map]; rfl
    have hlen : R'.length = R.length := by rw [hR, hR']; simp
    unfold strengthVector
    rw [hlen, hpar]
    split
    · rfl
    · generalize (R.map CRow.parent).foldl min ((R.map CRow.parent).headD 0) = rootId
      have key : ∀ (l : List (CRow K K)) (res res' : ℕ → K),
          (((l.map (CRow.mapLam ψ)).map fun row : CRow K K => (⟨row.parent, row.child, (row.lam : WithTop K), row.size⟩ : CRow (WithTop K) K)).foldlM
            (strengthStep R' sel labels rootId) res').isSome =
          ((l.map fun row : CRow K K => (⟨row.parent, row.child, (row.lam : WithTop K), row.size⟩ : CRow (WithTop K) K)).foldlM
            (strengthStep R sel labels rootId) res).isSome := by
        intro l
        induction l with
        | nil => exact fun _ _ => rfl
        | cons r l ih =>
          intro res res'
          simp only [List.map_cons, List.foldlM_cons]
          have hstep : ∃ a b : Option (ℕ → K), strengthStep R' sel labels rootId res' ⟨(r.mapLam ψ).parent, (r.mapLam ψ).child, ((r.mapLam ψ).lam : WithTop K),
              (r.mapLam ψ).size⟩ = a ∧ strengthStep R sel labels rootId res ⟨r.parent, r.child, (r.lam : WithTop K), r.size⟩ = b ∧ a.isSome = b.isSome := by
            refine ⟨_, _, rfl, rfl, ?_⟩
            unfold strengthStep CRow.mapLam
            simp only
            split
            · rfl
            · split
              · rfl
              · split
                · rfl
                · split <;> rfl
          obtain ⟨a, b, e1, e2, e3⟩ := hstep
          rw [e1, e2]
          cases a <;> cases b <;> simp at e3
          · rfl
          · exact ih _ _
      exact key rows _ _
  have hsel : ∀ rows : List (CRow K K), baseSelection o (g.length + 1) (rows.map (CRow.mapLam ψ)) = baseSelection o (g.length + 1) rows := by
    intro rows
    unfold baseSelection
    rw [ho]
    simp only [clusterTree_mapLam, leafSelection_mapLam]
  have heps : ∀ (rows : List (CRow K K)) sel, epsilonIf o.epsilon rows sel = some sel := fun rows sel => by
    unfold epsilonIf; rw [if_neg (fun h => absurd h.2 he.not_gt)]
  have hper : ∀ rows : List (CRow K K), simplifyIf o.persistence rows = some rows := fun rows => by
    unfold simplifyIf; rw [if_neg (fun h => absurd h.1 hp.not_gt)]
  have hel : epsLam o.epsilon = none := by unfold epsLam; rw [if_neg he.not_gt]
  unfold clustersFromMst
  simp only [List.length_map, lexsortMst_mapW hφ, mstToLinkage_mapW]
  rw [hcond, hper, hper, hel]
  generalize condenseTree (Hier.ofRows (mstToLinkage wt (lexsortMst g))) wt o.minClusterSize none lam = rows at hrows
  rw [Option.bind_some, Option.bind_some, hsel]
  cases baseSelection o (g.length + 1) rows with
  | none => rfl
  | some sel =>
    have hlab := labelVector_mapLam hψ hz rows hrows sel none (by simp) (g.length + 1)
    rw [Option.map_none] at hlab
    rw [Option.bind_some, Option.bind_some, heps, heps, Option.bind_some, Option.bind_some, hlab]
    cases labelVector rows sel none (g.length + 1) with
    | none => rfl
    | some labels =>
      rw [Option.bind_some, Option.bind_some]
      have := hstr rows sel labels
      revert this
      cases strengthVector ((rows.map (CRow.mapLam ψ)).map fun row => ⟨row.parent, row.child, (row.lam : WithTop K), row.size⟩) sel labels <;>
      cases strengthVector (rows.map fun row => ⟨row.parent, row.child, (row.lam : WithTop K), row.size⟩) sel labels <;> intro this
      · rfl
      · simp at this
      · simp at this
      · rfl

end

/-! ### Cases -/

/-- Squared distances of points multiplied by `k`. -/
theorem rdist_scaled {K : Type*} [Field K] [LinearOrder K] [IsStrictOrderedRing K] (k : K) (dims : ℕ) (x y : ℕ → K) :
    rdist (roundedArith id) dims (fun i => k * x i) (fun i => k * y i) = scaleBy (k * k) (rdist (roundedArith id) dims x y) := by
  have key : ∀ (l : List ℕ) (r : WithTop K),
      l.foldl (fun r i => (roundedArith (id : K → K)).add r ((roundedArith (id : K → K)).sq ((roundedArith (id : K → K)).diff (k * x i) (k * y i))))
        (scaleBy (k * k) r) =
      scaleBy (k * k) (l.foldl (fun r i => (roundedArith (id : K → K)).add r ((roundedArith (id : K → K)).sq ((roundedArith (id : K → K)).diff (x i) (y i)))) r) := by
    intro l
    induction l with
    | nil => exact fun _ => rfl
    | cons i l ih =>
      intro r
      rw [List.foldl_cons, List.foldl_cons, ← ih]
      congr 1
      cases r with
      | top => rfl
      | coe r =>
        change (((k * k * r) + (k * x i - k * y i) * (k * x i - k * y i) : K) : WithTop K) = ((k * k * (r + (x i - y i) * (x i - y i)) : K) : WithTop K)
        congr 1
        ring
  have := key (List.range dims) ((0 : K) : WithTop K)
  rw [show scaleBy (k * k) ((0 : K) : WithTop K) = ((0 : K) : WithTop K) from congrArg (fun x : K => (x : WithTop K)) (mul_zero _)] at this
  exact this

/-- Case: the seven points on a line with all distances tripled, with epsilon and persistence. -/
example : (clustersFromMst (lamBig (3⁻¹ * 1000)) (fun _ => 1) ⟨3, .eom, none, false, 3 * (1 / 2), 3⁻¹ * (1 / 100)⟩
      (kruskalBrute 7 1 (fun i j => scaleBy 3 (onLine gaps7 i j)) CLParams.none)).map ClusterResult.labels = some [1, 1, 1, 0, 1, 0, 0] := by
  have h := (C93_kruskal (c := (3 : ℚ)) (by decide +kernel) (n := 7) (by decide) 1 (onLine gaps7) CLParams.none
    (C60_brute_force 7 1 (by decide) (onLine gaps7) (onLine_comm _)).1 1000 (fun _ => 1) ⟨3, .eom, none, false, 1 / 2, 1 / 100⟩).2.1
  rw [h, Option.map_map]
  change (clustersFromMst (lamBig 1000) (fun _ => 1) ⟨3, .eom, none, false, 1 / 2, 1 / 100⟩ (kruskalBrute 7 1 (onLine gaps7) CLParams.none)).map
    ClusterResult.labels = _
  decide +kernel

/-- Case: four points on a line and the same points with all coordinates doubled have runs as in `C93_boruvka_partial`; the squared distances are multiplied by 4. -/
example : ∃ (t t' : KdTree ℚ) (edges edges' : List (Edge (WithTop ℚ))) (core core' : ℕ → WithTop ℚ),
    buildKdTree (roundedArith (id : ℚ → ℚ)) 0 (fun i j => gapPts i j) 1 4 2 = some t ∧
    buildKdTree (roundedArith (id : ℚ → ℚ)) 0 (fun i j => 2 * gapPts i j) 1 4 2 = some t' ∧
    TreeBoruvka lastVis (roundedArith (id : ℚ → ℚ)) id 1 (fun i j => gapPts i j) t (numNodes 4 2) 4 1 none (edges.map fun e => ⟨e.u, some e.v, e.w⟩) core ∧
    TreeBoruvka lastVis (roundedArith (id : ℚ → ℚ)) id 1 (fun i j => 2 * gapPts i j) t' (numNodes 4 2) 4 1 (some 2)
      (edges'.map fun e => ⟨e.u, some e.v, e.w⟩) core' ∧
    (edges.map Edge.w).Nodup ∧ ∀ i j, id (rdist (roundedArith (id : ℚ → ℚ)) 1 (fun k => 2 * gapPts i k) fun k => 2 * gapPts j k) =
      scaleBy (2 * 2) (id (rdist (roundedArith (id : ℚ → ℚ)) 1 (fun k => gapPts i k) fun k => gapPts j k)) := by
  have ha : (roundedArith (id : ℚ → ℚ)).Lawful := exactArith_lawful
  have hfin : ∀ i < 4, ∀ j < 4, rdist (roundedArith (id : ℚ → ℚ)) 1 (fun k => (gapPts i k : ℚ)) (fun k => (gapPts j k : ℚ)) < ⊤ := by decide +kernel
  have hfin' : ∀ i < 4, ∀ j < 4, rdist (roundedArith (id : ℚ → ℚ)) 1 (fun k => 2 * (gapPts i k : ℚ)) (fun k => 2 * (gapPts j k : ℚ)) < ⊤ := by decide +kernel
  obtain ⟨t, ht, _⟩ := buildKdTree_valid (roundedArith (id : ℚ → ℚ)) 0 (fun i j => (gapPts i j : ℚ)) 1 4 2 (by decide) (by decide)
  obtain ⟨t', ht', _⟩ := buildKdTree_valid (roundedArith (id : ℚ → ℚ)) 0 (fun i j => 2 * (gapPts i j : ℚ)) 1 4 2 (by decide) (by decide)
  obtain ⟨e1, c1, r1⟩ := C35_gives_result ha id 0 (fun i j => (gapPts i j : ℚ)) 1 4 2 1 (by decide) (by decide) (by decide) (by decide) hfin t ht none (by simp)
  obtain ⟨e2, c2, r2⟩ := C35_gives_result ha id 0 (fun i j => 2 * (gapPts i j : ℚ)) 1 4 2 1 (by decide) (by decide) (by decide) (by decide) hfin' t' ht'
    (some 2) (by simp)
  have hv : ∀ (h : List (WithTop ℚ)) w, lastVis h w → anyVis h w := fun _ _ => lastVis_anyVis
  obtain ⟨_, t1, q1, w1, _⟩ := C35_agrees_with_kruskal_partial hv ha monotone_id rfl 0 (fun i j => (gapPts i j : ℚ)) 1 4 2 1 (by decide) (by decide) (by decide)
    (by decide) hfin t ht none e1 c1 r1
  obtain ⟨_, t2, q2, w2, _⟩ := C35_agrees_with_kruskal_partial hv ha monotone_id rfl 0 (fun i j => 2 * (gapPts i j : ℚ)) 1 4 2 1 (by decide) (by decide)
    (by decide) (by decide) hfin' t' ht' (some 2) e2 c2 r2
  rw [q1] at r1
  rw [q2] at r2
  exact ⟨t, t', t1, t2, c1, c2, ht, ht', r1, r2, w1.nodup_iff.2 (by decide +kernel), fun i j => rdist_scaled 2 1 _ _⟩

/-- The distance squared (with its sign, so that the order is kept for all numbers). -/
def sqDist (w : WithTop ℚ) : WithTop ℚ := w.map fun x => x * |x|

theorem sqDist_strictMono : StrictMono sqDist := by
  refine WithTop.strictMono_map_iff.2 fun x y h => ?_
  rcases le_or_gt 0 x with hx | hx
  · rw [abs_of_nonneg hx, abs_of_nonneg (hx.trans h.le)]; nlinarith
  · rw [abs_of_neg hx]
    rcases le_or_gt 0 y with hy | hy
    · rw [abs_of_nonneg hy]; nlinarith
    · rw [abs_of_neg hy]; nlinarith

/-- Three pairs on a line; the gaps are 3, 4, 3, 8, 3. -/
def pairs6 : List ℚ := [0, 3, 7, 10, 18, 21]

/-- The tree that connects every point to the next. -/
def pairsTree : List (Edge (WithTop ℚ)) := [⟨0, 1, (3 : ℚ)⟩, ⟨1, 2, (4 : ℚ)⟩, ⟨2, 3, (3 : ℚ)⟩, ⟨3, 4, (8 : ℚ)⟩, ⟨4, 5, (3 : ℚ)⟩]

theorem kruskal_pairs6 : (kruskalBrute 6 1 (onLine pairs6) CLParams.none).Perm pairsTree := by decide +kernel

theorem pairsTree_tree : SpanningTree 6 pairsTree :=
  (C60_brute_force 6 1 (by decide) (onLine pairs6) (onLine_comm _)).1.perm kruskal_pairs6.symm

/-- Case: with leaf selection, squared distances give the same labels. -/
example : (clustersFromMst (lamBig 1000) (fun _ => 1) ⟨2, .leaf, none, false, 0, 0⟩ (pairsTree.map (Edge.mapW sqDist))).map ClusterResult.labels =
    some [2, 2, 1, 1, 0, 0] := by
  have h := C93_leaf_order (n := 6) (by decide) pairsTree_tree sqDist_strictMono (ψ := fun x : ℚ => x * x)
    (fun x hx y hy h => by have := Set.mem_Ici.1 hx; nlinarith) (mul_zero 0) (lam := lamBig 1000) (lam' := lamBig 1000) (by decide +kernel) (by decide +kernel)
    (fun _ => 1) ⟨2, .leaf, none, false, 0, 0⟩ rfl le_rfl le_rfl
  have h' := congrArg (Option.map Prod.fst) h
  rw [Option.map_map, Option.map_map] at h'
  refine Eq.trans h' ?_
  change (clustersFromMst (lamBig 1000) (fun _ => 1) ⟨2, .leaf, none, false, 0, 0⟩ pairsTree).map ClusterResult.labels = _
  decide +kernel

/-- C93 needs its conditions.  For `cluster_selection_method='eom'` not only the order of the distances matters: with squared distances the four points on the left are
two clusters.  And `cluster_selection_epsilon` is a distance: if only the data are multiplied by 3, the labels change. -/
theorem C93_conditions :
    (clustersFromMst (lamBig 1000) (fun _ => 1) ⟨2, .eom, none, false, 0, 0⟩ pairsTree).map ClusterResult.labels = some [0, 0, 0, 0, 1, 1] ∧
    (clustersFromMst (lamBig 1000) (fun _ => 1) ⟨2, .eom, none, false, 0, 0⟩ (pairsTree.map (Edge.mapW sqDist))).map ClusterResult.labels =
      some [2, 2, 1, 1, 0, 0] ∧
    (clustersFromMst (lamBig 1000) (fun _ => 1) ⟨2, .leaf, none, false, 5, 0⟩ pairsTree).map ClusterResult.labels = some [0, 0, 0, 0, 1, 1] ∧
    (clustersFromMst (lamBig 1000) (fun _ => 1) ⟨2, .leaf, none, false, 5, 0⟩ (pairsTree.map (Edge.mapW (scaleBy 3)))).map ClusterResult.labels =
      some [2, 2, 1, 1, 0, 0] ∧
    (clustersFromMst (lamBig 1000) (fun _ => 1) ⟨2, .leaf, none, false, 0, 1 / 15⟩ pairsTree).map ClusterResult.labels = some [2, 2, 1, 1, 0, 0] ∧
    (clustersFromMst (lamBig 1000) (fun _ => 1) ⟨2, .leaf, none, false, 0, 1 / 15⟩ (pairsTree.map (Edge.mapW (scaleBy 3)))).map ClusterResult.labels =
      some [0, 0, 0, 0, 1, 1] := by
  refine ⟨by decide +kernel, by decide +kernel, by decide +kernel, by decide +kernel, by decide +kernel, by decide +kernel⟩

end Verif
