import Verif.Model.SubRun
import Verif.Props.BranchExamples
import Verif.Props.BruteNeighbors
import Verif.Props.ClusterSize
import Verif.Props.FindSub
import Verif.Props.RawFit

/-!
# C111: detection of sub-clusters on what `fit` stored
-/

namespace Verif
variable {W D K V α β : Type*}

section
variable [LinearOrder D] [OrderTop D] [Inhabited D]
variable [Field K] [LinearOrder K] [IsStrictOrderedRing K] [Inhabited K]

/-- Samples that weigh less than the bound do not reach it alone. -/
theorem two_of_weight {n : ℕ} {p : ℕ → Prop} [DecidablePred p] {wt : ℕ → K} {m : K} (hm : 0 < m) (hl : ∀ x < n, wt x < m)
    (h : m ≤ ((Finset.range n).filter p).sum wt) : ∃ i j, i < j ∧ j < n ∧ p i ∧ p j := by
  by_contra hno
  push Not at hno
  have hsub : ((Finset.range n).filter p).card ≤ 1 := by
    refine Finset.card_le_one.2 fun a ha b hb => ?_
    obtain ⟨a1, a2⟩ := Finset.mem_filter.1 ha
    obtain ⟨b1, b2⟩ := Finset.mem_filter.1 hb
    rcases lt_trichotomy a b with hab | hab | hab
    · exact absurd b2 (hno a b hab (Finset.mem_range.1 b1) a2)
    · exact hab
    · exact absurd a2 (hno b a hab (Finset.mem_range.1 a1) b2)
  rcases Finset.card_le_one_iff_subset_singleton.1 hsub with ⟨x, hx⟩
  rcases Finset.subset_singleton_iff.1 hx with he | he
  · rw [he, Finset.sum_empty] at h
    exact absurd h (not_le.2 hm)
  · rw [he, Finset.sum_singleton] at h
    have : x ∈ (Finset.range n).filter p := by rw [he]; simp
    exact absurd h (not_le.2 (hl x (Finset.mem_range.1 (Finset.mem_filter.1 this).1)))

/-- The labels of a clustering are the numbers below some bound and noise, each number used at least twice. -/
theorem labels_dense {n : ℕ} (hn : 2 ≤ n) {wt : ℕ → K} {t : List (Edge D)} (ht : SpanningTree n t)
    {o : ClusterOpts K} (h1 : 1 < o.minClusterSize) (h0 : ∀ x, x < n → 0 ≤ wt x)
    (hl : ∀ x, x < n → wt x < o.minClusterSize) {lam : D → K} (hlam : Antitone lam) (hpos : ∀ d, 0 ≤ lam d) (hper : o.persistence ≤ 0)
    (hfin : ∀ e ∈ t, 0 < lam e.w) {r : ClusterResult D K} (hr : clustersFromMst lam wt o t = some r) :
    ∃ num : ℕ, (∀ l ∈ r.labels, -1 ≤ l ∧ l < num) ∧
      ∀ c < num, ∃ i j : ℕ, i < j ∧ j < n ∧ r.labels[i]? = some (c : ℤ) ∧ r.labels[j]? = some (c : ℤ) := by
  have hm : 0 < o.minClusterSize := zero_lt_one.trans h1
  by_cases htop : n ∈ r.selected
  · obtain ⟨_, hct, _, _, _, _, _, hlab, _⟩ := C63_returned n hn wt t ht o h1 h0 hl lam hlam hpos hr
    have hb : ∀ l ∈ r.labels, -1 ≤ l ∧ l < 1 := by
      intro l hmem
      obtain ⟨x, hx⟩ := List.mem_iff_getElem?.1 hmem
      have hxn : x < n := by rw [← hlab.1]; exact (List.getElem?_eq_some_iff.1 hx).1
      obtain ⟨row, hrow, rfl⟩ := List.mem_map.1 ((hct.children x).2 (.inl hxn))
      obtain ⟨_, q2, q3⟩ := hlab.2 row hrow hxn
      have h3 := q3 l hx
      refine ⟨h3, ?_⟩
      by_contra hlt
      obtain ⟨i, rfl⟩ := Int.eq_ofNat_of_zero_le (show 0 ≤ l by omega)
      have := ((q2 htop i).1 hx).1
      subst this
      simp at hlt
    by_cases h : (0 : ℤ) ∈ r.labels
    · refine ⟨1, hb, fun c hc => ?_⟩
      obtain rfl : c = 0 := by omega
      exact two_of_weight hm hl (C75_used_labels_partial n hn wt t ht o h1 h0 hl lam hlam hpos hper hr 0 (by decide) h)
    · refine ⟨0, fun l hmem => ⟨(hb l hmem).1, ?_⟩, fun c hc => absurd hc (by omega)⟩
      have := hb l hmem
      have : l ≠ 0 := fun e => h (e ▸ hmem)
      push_cast; omega
  · obtain ⟨_, b, c⟩ := C75_cluster_weight_partial n hn wt t ht o h1 h0 hl lam hlam hpos (fun e he => (hfin e he).ne') hr htop
    exact ⟨r.selected.length, b, fun k hk => two_of_weight hm hl (c k (by omega) (by exact_mod_cast hk)).2⟩

theorem first_step {R : ℕ → ℕ → Prop} {i j : ℕ} (h : Relation.ReflTransGen R i j) (hne : j ≠ i) : ∃ b ≠ i, R i b := by
  induction h using Relation.ReflTransGen.head_induction_on with
  | refl => exact absurd rfl hne
  | @head a c h _ ih =>
    by_cases hc : c = a
    · rw [hc] at ih; exact ih hne
    · exact ⟨c, hc, h⟩

/-- The tree that is stored, if there are two finite rows. -/
theorem storedTree_eq {finite : α → Bool} {mst : List α → List β → List (Edge D)} {X : List α} {side : List β} (hside : side.length = X.length)
    (h2 : 2 ≤ (X.filter finite).length) :
    storedTree finite mst X side = lexsortMst (mst (X.filter finite) (((X.zip side).filter fun p => finite p.1).map Prod.snd)) := by
  have e1 : (if X.all finite = true then X else takeRows X (finiteIndex finite X)) = X.filter finite := by
    by_cases hall : X.all finite = true
    · rw [if_pos hall]
      exact (List.filter_eq_self.2 (List.all_eq_true.1 hall)).symm
    · rw [if_neg hall]; exact takeRows_finite finite X
  have e2 : (if X.all finite = true then side else takeRows side (finiteIndex finite X)) = ((X.zip side).filter fun p => finite p.1).map Prod.snd := by
    by_cases hall : X.all finite = true
    · rw [if_pos hall, List.filter_eq_self.2 fun p hp => List.all_eq_true.1 hall _ (List.of_mem_zip (show (p.1, p.2) ∈ _ from hp)).1,
        List.map_snd_zip hside.le]
    · rw [if_neg hall]; exact takeRows_side finite X side hside
  unfold storedTree
  simp only
  rw [e1, e2, if_neg (by omega)]

/-- What `fit` stores is what the search for sub-clusters needs. -/
theorem fit_subInput {lam : D → K} (hlam : Antitone lam) (hpos : ∀ d, 0 ≤ lam d) {mst : List α → List β → List (Edge D)} {wt : β → K}
    {o : ClusterOpts K} (h1 : 1 < o.minClusterSize) (hp : o.persistence ≤ 0) {finite : α → Bool} {X : List α} {side : List β}
    (hside : side.length = X.length) {outliers : List ℕ}
    (hout : outliers.Perm ((List.range X.length).filter fun i => !(X[i]?.map finite).getD false)) (h2 : 2 ≤ (X.filter finite).length)
    (ht : SpanningTree (X.filter finite).length (mst (X.filter finite) (((X.zip side).filter fun p => finite p.1).map Prod.snd)))
    (h0 : ∀ b ∈ side, 0 ≤ wt b ∧ wt b < o.minClusterSize)
    (hfin : ∀ e ∈ mst (X.filter finite) (((X.zip side).filter fun p => finite p.1).map Prod.snd), 0 < lam e.w)
    {r : FitResult D K} (hr : fitModel finite (fastHdbscan lam mst wt o) outliers X side = .ok r)
    {nb : ℕ → List (Option ℕ)} (hnb : ∀ p < (X.filter finite).length, none ∉ nb p ∧ ∀ q, some q ∈ nb p → q < (X.filter finite).length ∧ q ≠ p)
    (hlink : ∀ (i : ℕ) x l, X[i]? = some x → finite x = true → r.labels[i]? = some l → l ≠ -1 → ∃ j y, X[j]? = some y ∧ finite y = true ∧
      r.labels[j]? = some l ∧ (some ((X.take j).countP finite) ∈ nb ((X.take i).countP finite) ∨
        ∃ e ∈ storedTree finite mst X side, e.u = (X.take i).countP finite ∧ e.v = (X.take j).countP finite)) :
    ∃ num, SubInput (finiteIndex finite X).length num (atFinite (finiteIndex finite X) fun i => r.labels.getD i (-1)) nb (storedTree finite mst X side) ∧
      ∀ l ∈ r.labels, -1 ≤ l ∧ l < num := by
  obtain ⟨r0, hr0, a1, a2, a3, a4⟩ := C31_nonfinite_rows_partial lam mst wt o finite X side hside (fun h => ht.length (by omega)) outliers hout r hr
  have hlen : (((X.zip side).filter fun p => finite p.1).map Prod.snd).length = (X.filter finite).length := by
    rw [← takeRows_side _ _ _ hside, ← finiteIndex_length]
    have : ∀ idx : List ℕ, (∀ i ∈ idx, i < side.length) → (takeRows side idx).length = idx.length := by
      intro idx h
      induction idx with
      | nil => rfl
      | cons i idx ih =>
        unfold takeRows at ih ⊢
        rw [List.filterMap_cons, List.getElem?_eq_getElem (h i (by simp))]
        simp [ih fun j hj => h j (by simp [hj])]
    exact this _ fun i hi => hside ▸ finiteIndex_lt hi
  rw [storedTree_eq hside h2] at hlink ⊢
  have hall : ∀ b ∈ ((X.zip side).filter fun p => finite p.1).map Prod.snd, b ∈ side := by
    intro b hb
    obtain ⟨q, hq, rfl⟩ := List.mem_map.1 hb
    exact (List.of_mem_zip (show (q.1, q.2) ∈ _ from (List.mem_filter.1 hq).1)).2
  generalize ((X.zip side).filter fun p => finite p.1).map Prod.snd = S' at *
  set N := (X.filter finite).length with hN
  have hidx : (finiteIndex finite X).length = N := finiteIndex_length finite X
  have hw : ∀ x, x < N → 0 ≤ ((S'[x]?.map wt).getD 1) ∧ ((S'[x]?.map wt).getD 1) < o.minClusterSize := by
    intro x hx
    rw [List.getElem?_eq_getElem (by omega), Option.map_some, Option.getD_some]
    exact h0 _ (hall _ (List.getElem_mem _))
  unfold fastHdbscan fastWith at hr0
  rw [if_neg (by omega)] at hr0
  split at hr0
  · cases hr0
  rename_i res hres
  cases hr0
  simp only at a1 a4
  obtain ⟨num, n1, n2⟩ := labels_dense h2 ht h1 (fun x hx => (hw x hx).1) (fun x hx => (hw x hx).2) hlam hpos hp hfin hres
  -- the `k`-th finite row
  have hk : ∀ k < N, ∃ i x, X[i]? = some x ∧ finite x = true ∧ (X.take i).countP finite = k ∧
      r.labels[i]? = some (atFinite (finiteIndex finite X) (fun i => r.labels.getD i (-1)) k) ∧
      res.labels[k]? = some (atFinite (finiteIndex finite X) (fun i => r.labels.getD i (-1)) k) := by
    intro k hk
    obtain ⟨i, b1, b2, b3⟩ := finite_row (List.getElem?_eq_getElem hk)
    have hi := finiteIndex_pos b1 b2
    rw [b3] at hi
    have e : atFinite (finiteIndex finite X) (fun i => r.labels.getD i (-1)) k = r.labels.getD i (-1) := by
      unfold atFinite; rw [List.getD_eq_getElem?_getD, hi]; rfl
    have hl : r.labels[i]? = some (r.labels.getD i (-1)) := by
      have : i < r.labels.length := by rw [a2]; exact (List.getElem?_eq_some_iff.1 b1).1
      rw [List.getD_eq_getElem?_getD, List.getElem?_eq_getElem this]; rfl
    refine ⟨i, _, b1, b2, b3, e ▸ hl, ?_⟩
    rw [e, ← hl, ((a4 i _ b1).2 b2).1, b3]
  have hpos' : ∀ i x, X[i]? = some x → finite x = true → (X.take i).countP finite < N := fun i x hx hf => by
    have := (List.getElem?_eq_some_iff.1 (finiteIndex_pos hx hf)).1
    omega
  have hat : ∀ i x, X[i]? = some x → finite x = true →
      atFinite (finiteIndex finite X) (fun i => r.labels.getD i (-1)) ((X.take i).countP finite) = r.labels.getD i (-1) := fun i x hx hf => by
    unfold atFinite; rw [List.getD_eq_getElem?_getD, finiteIndex_pos hx hf]; rfl
  refine ⟨num, ⟨fun k hk' => ?_, fun c hc => ?_, fun p hp' q hq => ?_, fun e he => ?_, fun p hp' hm => ?_, fun p hp' h0' => ?_⟩, fun l hl => ?_⟩
  · obtain ⟨_, _, _, _, _, _, hh⟩ := hk k (by omega)
    exact n1 _ (List.mem_of_getElem? hh)
  · obtain ⟨i, j, c1, c2, c3, c4⟩ := n2 c hc
    obtain ⟨_, _, _, _, _, _, hi⟩ := hk i (by omega)
    obtain ⟨_, _, _, _, _, _, hj⟩ := hk j (by omega)
    rw [c3, Option.some.injEq] at hi
    rw [c4, Option.some.injEq] at hj
    exact ⟨i, j, c1, by omega, hi.symm, hj.symm⟩
  · rw [hidx] at hp' ⊢
    exact (hnb p hp').2 q hq
  · rw [(lexsortMst_perm _).mem_iff] at he
    rw [hidx]
    have := ht.inRange e he
    refine ⟨this.1, this.2, fun hne => ?_⟩
    obtain ⟨l1, l2, he'⟩ := List.append_of_mem he
    refine ht.acyclic l1 e l2 he' ?_
    rw [hne]; exact .refl _ _
  · exact absurd hm (hnb p (by omega)).1
  · obtain ⟨i, x, b1, b2, b3, b4, _⟩ := hk p (by omega)
    obtain ⟨j, y, d1, d2, d3, d4⟩ := hlink i x _ b1 b2 b4 (by omega)
    have e2 := hat j y d1 d2
    rw [List.getD_eq_getElem?_getD, d3, Option.getD_some] at e2
    exact ⟨_, hp', by have := hpos' j y d1 d2; omega, rfl, e2, b3 ▸ d4⟩
  · obtain ⟨i, hi⟩ := List.mem_iff_getElem?.1 hl
    have hiX : i < X.length := by rw [← a2]; exact (List.getElem?_eq_some_iff.1 hi).1
    have hx := List.getElem?_eq_getElem hiX
    cases hf : finite X[i] with
    | true =>
      rw [((a4 i _ hx).2 hf).1] at hi
      exact n1 _ (List.mem_of_getElem? hi)
    | false =>
      rw [((a4 i _ hx).1 hf).1, Option.some.injEq] at hi
      omega

omit [IsStrictOrderedRing K] [Inhabited K] in
/-- The lens value of a sample of a cluster is that of its row. -/
theorem arrayLens_row [Inhabited W] {n : ℕ} {tree : List (CRow K K)} {idx : List ℕ}
    (hrec : recoverFinite n tree = some idx ∨ (recoverFinite n tree = none ∧ idx = List.range n)) (lab : ℕ → ℤ) (values : List W) (c k : ℕ)
    (hk : k < (clusterPoints idx.length (atFinite idx lab) c).length) :
    arrayLens n tree lab values c k = values.getD ((rowsIn idx lab c).getD k 0) default := by
  unfold arrayLens
  rcases hrec with hrec | ⟨hrec, rfl⟩
  · rw [hrec, ← remap_clusterPoints]
    simp only
    congr 1
    unfold remapPoints
    rw [List.getD_eq_getElem?_getD (l := List.map _ _), List.getElem?_map, List.getElem?_eq_getElem hk]
    simp [List.getD_eq_getElem?_getD, List.getElem?_eq_getElem hk]
  · rw [hrec]; rfl

end

section
variable [LinearOrder W] [OrderTop W] [Inhabited W] [LinearOrder D] [OrderTop D] [Inhabited D]
variable [Field K] [LinearOrder K] [IsStrictOrderedRing K] [Inhabited K]

omit [LinearOrder D] [OrderTop D] [Inhabited D] [IsStrictOrderedRing K] in
/-- What is said of a cluster depends on the lens values of its samples only. -/
theorem SubResult.lens_congr {lam : W → K} {wt : ℕ → K} {o : ClusterOpts K} {N : ℕ} {lab : ℕ → ℤ} {nb : ℕ → List (Option ℕ)} {mst : List (Edge D)}
    {lens lens' : ℕ → W} {c : ℕ} {sub : ℕ → ℤ} {str : ℕ → K} (he : ∀ k < (clusterPoints N lab c).length, lens k = lens' k)
    (h : SubResult lam wt o N lab nb mst lens c sub str) : SubResult lam wt o N lab nb mst lens' c sub str := by
  refine ⟨h.apart, fun hall => ?_⟩
  obtain ⟨t, r, t1, t2, t3, t4⟩ := h.together hall
  refine ⟨t, r, t1, fun e hm => ?_, t3, t4⟩
  obtain ⟨a, b⟩ := t2 e hm
  exact ⟨by rw [a, he _ (t1.inRange e hm).1, he _ (t1.inRange e hm).2], b⟩

omit [OrderTop D] [Inhabited D] in
/-- A call of the detector on arrays that fit together. -/
theorem run_all_rows [LinearOrder V] [Add V] (inv : W → Option V) (zero : V) {cl : FittedClusterer D K} {a : SubRunArgs K} {values : List W}
    {num : ℕ} {idx : List ℕ} (hrec : recoverFinite cl.rows cl.tree = some idx ∨ (recoverFinite cl.rows cl.tree = none ∧ idx = List.range cl.rows))
    {lab : ℕ → ℤ} {probs : ℕ → K} (hin : subInputs cl.labels cl.probs 1 a.labels a.probs = (lab, probs))
    (h : SubInput idx.length num (atFinite idx lab) cl.nb cl.mst) (hnum : 0 < num) {sortRow : LensRow W D → LensRow W D} (hs : SortsRows sortRow)
    {lam : W → K} (hlam : Antitone lam) (hpos : ∀ d, 0 ≤ lam d) (hprop : a.propagate = false) (h1 : 1 < (subOptions cl.opts a).minClusterSize)
    (hw : ∀ i < cl.rows, 0 ≤ (a.weights.getD fun _ => 1) i ∧ (a.weights.getD fun _ => 1) i < (subOptions cl.opts a).minClusterSize)
    (hvals : values.length = cl.rows) (hvpos : ∀ v ∈ values, 0 < lam v)
    (hok : (a.persistence ≤ 0 ∧ (subOptions cl.opts a).maxClusterSize = none) ∨ ∃ f, runDetector inv zero sortRow lam cl a values = some f) :
    ∃ f, runDetector inv zero sortRow lam cl a values = some f ∧
      (f.out.labels.length = cl.rows ∧ f.out.probs.length = cl.rows ∧ f.out.clusterLabels.length = cl.rows ∧ f.out.clusterProbs.length = cl.rows ∧
        f.out.subLabels.length = cl.rows ∧ f.out.subProbs.length = cl.rows) ∧
      (∀ i, i < cl.rows → i ∉ idx → f.out.labels[i]? = some (-1) ∧ f.out.probs[i]? = some 0 ∧ f.out.clusterLabels[i]? = some (-1) ∧
        f.out.clusterProbs[i]? = some 0 ∧ f.out.subLabels[i]? = some 0 ∧ f.out.subProbs[i]? = some 1) ∧
      (∀ i ∈ idx, i < cl.rows ∧ f.out.clusterLabels[i]? = some (lab i) ∧ f.out.clusterProbs[i]? = some (probs i)) ∧
      (∀ i ∈ idx, lab i = -1 → f.out.labels[i]? = some (-1) ∧ f.out.probs[i]? = some (probs i) ∧ f.out.subLabels[i]? = some 0 ∧
        f.out.subProbs[i]? = some 0) ∧
      (∀ i ∈ idx, lab i ≠ -1 → ∃ (l sl : ℤ) (sp : K), 0 ≤ l ∧ -1 ≤ sl ∧ 0 ≤ sp ∧ sp ≤ 1 ∧ f.out.labels[i]? = some l ∧ f.out.subLabels[i]? = some sl ∧
        f.out.subProbs[i]? = some sp ∧ f.out.probs[i]? = some ((probs i + sp) / 2)) ∧
      (∀ i ∈ idx, ∀ j ∈ idx, lab i ≠ -1 → lab j ≠ -1 →
        (f.out.labels[i]? = f.out.labels[j]? ↔ lab i = lab j ∧ f.out.subLabels[i]? = f.out.subLabels[j]?)) ∧
      ∀ c < num, SubResult lam (atFinite idx (a.weights.getD fun _ => 1)) (subOptions cl.opts a) idx.length (atFinite idx lab) cl.nb cl.mst
        (fun k => values.getD ((rowsIn idx lab c).getD k 0) default) c (fun k => f.out.subLabels.getD (idx.getD k 0) 0)
        (fun k => f.out.subProbs.getD (idx.getD k 0) 0) := by
  have hlt : ∀ i ∈ idx, i < cl.rows := by
    rcases hrec with hrec | ⟨_, rfl⟩
    · unfold recoverFinite at hrec
      split at hrec
      · cases hrec
        exact fun i hi => List.mem_range.1 (List.mem_filter.1 hi).1
      · cases hrec
    · exact fun i hi => List.mem_range.1 hi
  obtain ⟨p0, p1, q1, q2, q3, _⟩ := h.two 0 hnum
  have hmem : ∀ k < idx.length, idx.getD k 0 ∈ idx := fun k hk => by
    rw [List.getD_eq_getElem?_getD, List.getElem?_eq_getElem hk]; exact List.getElem_mem _
  have hnoise : ¬ ((List.range cl.rows).all fun i => decide (lab i = -1)) = true := by
    rw [List.all_eq_true]
    intro hall
    have := hall _ (List.mem_range.2 (hlt _ (hmem p0 (by omega))))
    have hh : lab (idx.getD p0 0) = 0 := q3
    rw [hh] at this
    simp at this
  have hrows : 0 < cl.rows := by have := hlt _ (hmem p0 (by omega)); omega
  have hunf : runDetector inv zero sortRow lam cl a values = detectorFit inv zero false sortRow lam (a.weights.getD fun _ => 1) (subOptions cl.opts a) cl.rows
      cl.tree lab probs cl.nb cl.core cl.mst (arrayLens cl.rows cl.tree lab values) := by
    unfold runDetector
    simp only [hin, hprop]
    rw [if_neg hnoise, if_neg (by simpa using hvals)]
  rw [hunf] at hok ⊢
  have hlens : ∀ c i, 0 < lam (arrayLens cl.rows cl.tree lab values c i) := by
    have hv : ∀ i < cl.rows, 0 < lam (values.getD i default) := fun i hi => by
      rw [List.getD_eq_getElem?_getD, List.getElem?_eq_getElem (by omega)]; exact hvpos _ (List.getElem_mem _)
    have hg : ∀ (l : List ℕ) (m i : ℕ), 0 < m → (∀ x ∈ l, x < m) → l.getD i 0 < m := by
      intro l m i hm hl
      rw [List.getD_eq_getElem?_getD]
      cases hli : l[i]? with
      | none => exact hm
      | some x => exact hl x (List.mem_of_getElem? hli)
    intro c i
    unfold arrayLens
    split
    · exact hv _ (hg _ _ _ hrows fun x hx => (mem_clusterPoints.1 hx).1)
    · rename_i idx' he
      have : idx' = idx := by
        rcases hrec with hrec | ⟨hrec, _⟩
        · rw [hrec] at he; exact (Option.some.inj he).symm
        · rw [hrec] at he; cases he
      subst this
      exact hv _ (hg _ _ _ hrows hlt)
  obtain ⟨out, e0, e1, e2, e3, e4, e5, e6, e7⟩ := C78_all_rows_partial hrec h hnum hs lam hlam hpos (a.weights.getD fun _ => 1) (subOptions cl.opts a) h1
    (fun x hx => (hw x (hlt x hx)).1) (fun x hx => (hw x (hlt x hx)).2) cl.core probs (arrayLens cl.rows cl.tree lab values) hlens
    (hok.imp_right fun ⟨f, hf⟩ => findSub_of_detector hf)
  have hd := detectorFit_out inv zero sortRow lam (a.weights.getD fun _ => 1) (subOptions cl.opts a) cl.rows cl.tree lab probs cl.nb cl.core cl.mst
    (arrayLens cl.rows cl.tree lab values)
  rw [e0] at hd
  obtain ⟨f, f1, rfl⟩ := Option.map_eq_some_iff.1 hd
  exact ⟨f, f1, e1, e2, e3, e4, e5, e6, fun c hc => (e7 c hc).lens_congr fun k hk => arrayLens_row hrec lab values c k hk⟩

/-- The finite rows, from the stored condensed tree. -/
theorem fit_recover {lam : D → K} {mst : List α → List β → List (Edge D)} {wt : β → K}
    {o : ClusterOpts K} (h1 : 1 < o.minClusterSize) (hp : o.persistence ≤ 0) {finite : α → Bool} {X : List α} {side : List β}
    (hside : side.length = X.length) {outliers : List ℕ}
    (hout : outliers.Perm ((List.range X.length).filter fun i => !(X[i]?.map finite).getD false)) (h2 : 2 ≤ (X.filter finite).length)
    (ht : SpanningTree (X.filter finite).length (mst (X.filter finite) (((X.zip side).filter fun p => finite p.1).map Prod.snd)))
    (h0 : ∀ b ∈ side, 0 ≤ wt b ∧ wt b < o.minClusterSize)
    (hfin : ∀ e ∈ mst (X.filter finite) (((X.zip side).filter fun p => finite p.1).map Prod.snd), 0 < lam e.w)
    {r : FitResult D K} (hr : fitModel finite (fastHdbscan lam mst wt o) outliers X side = .ok r) :
    recoverFinite X.length r.condensed = some (finiteIndex finite X) ∨
      (recoverFinite X.length r.condensed = none ∧ finiteIndex finite X = List.range X.length) := by
  have hrec := C77_recover_fit_partial lam mst wt o finite X side hside outliers hout (fun _ => ht) h0 h1 hp hfin r hr
  by_cases hall : ∀ x ∈ X, finite x = true
  · rw [if_pos hall] at hrec
    refine .inr ⟨hrec, List.filter_eq_self.2 fun i hi => ?_⟩
    rw [List.getElem?_eq_getElem (List.mem_range.1 hi)]
    exact hall _ (List.getElem_mem _)
  · rw [if_neg hall] at hrec
    exact .inl hrec

/-- **C111** (partial).  `SubClusterDetector.fit` on a clusterer fitted on the rows `X` (any spanning tree routine, sample weights, either method), with one lens value per
row, no other labels, strengths from the clusterer unless given, and without `propagate_labels`.  `nb` are the neighbours stored for the finite rows.  The run returns; labels and
strengths of the clusters are those of the clusterer; rows with missing values and noise have label -1; the new labels of other rows agree exactly for rows of the same cluster with
the same sub-cluster label; the new strengths are the means of the two strengths; and each cluster is divided into its connected pieces or, if there is only one, by
clustering a spanning tree whose edges have the larger lens value of their rows as weight.
Missing: clustered rows without a stored neighbour or tree edge into their cluster (`C111_empty_row`), positive persistence of the clusterer, lens values of lambda 0. -/
theorem C111_sub_clusters_partial [LinearOrder V] [Add V] (inv : W → Option V) (zero : V)
    -- the clusterer
    (lamD : D → K) (hlamD : Antitone lamD) (hposD : ∀ d, 0 ≤ lamD d) (mst : List α → List β → List (Edge D)) (wt : β → K)
    (o : ClusterOpts K) (h1 : 1 < o.minClusterSize) (hp : o.persistence ≤ 0) (finite : α → Bool) (X : List α) (side : List β)
    (hside : side.length = X.length) (outliers : List ℕ)
    (hout : outliers.Perm ((List.range X.length).filter fun i => !(X[i]?.map finite).getD false)) (h2 : 2 ≤ (X.filter finite).length)
    (ht : SpanningTree (X.filter finite).length (mst (X.filter finite) (((X.zip side).filter fun p => finite p.1).map Prod.snd)))
    (h0 : ∀ b ∈ side, 0 ≤ wt b ∧ wt b < o.minClusterSize)
    (hfin : ∀ e ∈ mst (X.filter finite) (((X.zip side).filter fun p => finite p.1).map Prod.snd), 0 < lamD e.w)
    (r : FitResult D K) (hr : fitModel finite (fastHdbscan lamD mst wt o) outliers X side = .ok r)
    (nb : ℕ → List (Option ℕ)) (hnb : ∀ p < (X.filter finite).length, none ∉ nb p ∧ ∀ q, some q ∈ nb p → q < (X.filter finite).length ∧ q ≠ p)
    (hlink : ∀ (i : ℕ) x l, X[i]? = some x → finite x = true → r.labels[i]? = some l → l ≠ -1 → ∃ j y, X[j]? = some y ∧ finite y = true ∧
      r.labels[j]? = some l ∧ (some ((X.take j).countP finite) ∈ nb ((X.take i).countP finite) ∨
        ∃ e ∈ storedTree finite mst X side, e.u = (X.take i).countP finite ∧ e.v = (X.take j).countP finite))
    (core : ℕ → D)
    -- the detector
    {sortRow : LensRow W D → LensRow W D} (hs : SortsRows sortRow) (lam : W → K) (hlam : Antitone lam) (hpos : ∀ d, 0 ≤ lam d)
    (a : SubRunArgs K) (hl : a.labels = none) (hprop : a.propagate = false) (hm : 1 < a.minClusterSize.getD o.minClusterSize)
    (hw : ∀ i < X.length, 0 ≤ (a.weights.getD fun _ => 1) i ∧ (a.weights.getD fun _ => 1) i < a.minClusterSize.getD o.minClusterSize)
    (values : List W) (hvals : values.length = X.length) (hvpos : ∀ v ∈ values, 0 < lam v) (hnoise : ∃ l ∈ r.labels, l ≠ -1)
    (hok : (a.persistence ≤ 0 ∧ a.maxClusterSize.getD o.maxClusterSize = none) ∨
      ∃ f, runDetector inv zero sortRow lam (r.clusterer X.length o nb core (storedTree finite mst X side)) a values = some f)
    (idx : List ℕ) (hidx : idx = (List.range X.length).filter fun i => (X[i]?.map finite).getD false) :
    ∃ f, runDetector inv zero sortRow lam (r.clusterer X.length o nb core (storedTree finite mst X side)) a values = some f ∧
      f.out.labels.length = X.length ∧ f.out.probs.length = X.length ∧ f.out.clusterLabels = r.labels ∧
      (a.probs = none → f.out.clusterProbs = r.strengths) ∧
      (∀ (i : ℕ) x, X[i]? = some x → finite x = false → f.out.labels[i]? = some (-1) ∧ f.out.probs[i]? = some 0 ∧ f.out.subLabels[i]? = some 0) ∧
      (∀ (i : ℕ) x, X[i]? = some x → finite x = true → r.labels[i]? = some (-1) → f.out.labels[i]? = some (-1) ∧
        f.out.probs[i]? = some ((a.probs.getD fun i => r.strengths.getD i 0) i)) ∧
      (∀ (i : ℕ) l, r.labels[i]? = some l → l ≠ -1 → ∃ (l' sl : ℤ) (sp : K), 0 ≤ l' ∧ -1 ≤ sl ∧ 0 ≤ sp ∧ sp ≤ 1 ∧ f.out.labels[i]? = some l' ∧
        f.out.subLabels[i]? = some sl ∧ f.out.subProbs[i]? = some sp ∧
        f.out.probs[i]? = some (((a.probs.getD fun i => r.strengths.getD i 0) i + sp) / 2)) ∧
      (∀ (i j : ℕ) l l', r.labels[i]? = some l → r.labels[j]? = some l' → l ≠ -1 → l' ≠ -1 →
        (f.out.labels[i]? = f.out.labels[j]? ↔ l = l' ∧ f.out.subLabels[i]? = f.out.subLabels[j]?)) ∧
      ∀ c : ℕ, (c : ℤ) ∈ r.labels → SubResult lam (fun k => (a.weights.getD fun _ => 1) (idx.getD k 0))
        ⟨a.minClusterSize.getD o.minClusterSize, a.method.getD o.method, a.maxClusterSize.getD o.maxClusterSize, a.allowSingle.getD o.allowSingle,
          a.epsilon, a.persistence⟩ idx.length (fun k => r.labels.getD (idx.getD k 0) (-1)) nb (storedTree finite mst X side)
        (fun k => values.getD (((List.range X.length).filter fun i => r.labels[i]? = some (c : ℤ)).getD k 0) default) c
        (fun k => f.out.subLabels.getD (idx.getD k 0) 0) (fun k => f.out.subProbs.getD (idx.getD k 0) 0) := by
  obtain ⟨num, hin, hbound⟩ := fit_subInput hlamD hposD h1 hp hside hout h2 ht h0 hfin hr hnb hlink
  have hrec := fit_recover h1 hp hside hout h2 ht h0 hfin hr
  obtain ⟨r0, hr0, a1, a2, a3, a4⟩ := C31_nonfinite_rows_partial lamD mst wt o finite X side hside (fun h => ht.length (by omega)) outliers hout r hr
  have hidx' : finiteIndex finite X = idx := hidx.symm
  rw [hidx'] at hrec hin
  set lab : ℕ → ℤ := fun i => r.labels.getD i (-1) with hlabdef
  have hlab : ∀ (i : ℕ) (l : ℤ), r.labels[i]? = some l → lab i = l := fun i l h => by rw [hlabdef]; simp only [List.getD_eq_getElem?_getD, h]; rfl
  have hmem : ∀ i : ℕ, i ∈ idx ↔ ∃ x, X[i]? = some x ∧ finite x = true := fun i => by rw [← hidx']; exact mem_finiteIndex
  have hcl : ∀ (i : ℕ) (l : ℤ), r.labels[i]? = some l → l ≠ -1 → i ∈ idx := by
    intro i l hi hne
    have hiX : i < X.length := by rw [← a2]; exact (List.getElem?_eq_some_iff.1 hi).1
    have hx := List.getElem?_eq_getElem hiX
    cases hf : finite X[i] with
    | true => exact (hmem i).2 ⟨_, hx, hf⟩
    | false => rw [((a4 i _ hx).1 hf).1, Option.some.injEq] at hi; exact absurd hi.symm hne
  have hnum : 0 < num := by
    obtain ⟨l, hl, hne⟩ := hnoise
    have := hbound l hl
    omega
  obtain ⟨f, f0, ⟨g1, g2, g3, g4, _, _⟩, f2, f3, f4, f5, f6, f7⟩ := run_all_rows (cl := r.clusterer X.length o nb core (storedTree finite mst X side)) (a := a) (values := values)
    (num := num) (idx := idx) (lab := lab) (probs := a.probs.getD fun i => r.strengths.getD i 0) inv zero hrec
    (by rw [hl]; cases a.probs <;> rfl) hin hnum hs hlam hpos hprop hm hw hvals hvpos hok
  refine ⟨f, f0, g1, g2, ?_, fun hpr => ?_, fun i x hx hf => ?_, fun i x hx hf hn => ?_, fun i l hi hne => ?_, fun i j l l' hi hj hn hn' => ?_, fun c hc => ?_⟩
  · apply List.ext_getElem?
    intro i
    by_cases hi : i < X.length
    · have hx := List.getElem?_eq_getElem hi
      cases hf : finite X[i] with
      | true =>
        rw [(f3 i ((hmem i).2 ⟨_, hx, hf⟩)).2.1, hlabdef]
        simp only [List.getD_eq_getElem?_getD, List.getElem?_eq_getElem (show i < r.labels.length by omega), Option.getD_some]
      | false =>
        rw [(f2 i hi fun h => by obtain ⟨x, e1, e2⟩ := (hmem i).1 h; rw [hx] at e1; cases e1; rw [hf] at e2; cases e2).2.2.1, ((a4 i _ hx).1 hf).1]
    · have hg3 : f.out.clusterLabels.length = X.length := g3
      rw [List.getElem?_eq_none (by omega), List.getElem?_eq_none (by omega)]
  · apply List.ext_getElem?
    intro i
    by_cases hi : i < X.length
    · have hx := List.getElem?_eq_getElem hi
      cases hf : finite X[i] with
      | true =>
        rw [(f3 i ((hmem i).2 ⟨_, hx, hf⟩)).2.2, hpr]
        simp only [Option.getD_none, List.getD_eq_getElem?_getD, List.getElem?_eq_getElem (show i < r.strengths.length by omega), Option.getD_some]
      | false =>
        rw [(f2 i hi fun h => by obtain ⟨x, e1, e2⟩ := (hmem i).1 h; rw [hx] at e1; cases e1; rw [hf] at e2; cases e2).2.2.2.1, ((a4 i _ hx).1 hf).2]
    · have hg4 : f.out.clusterProbs.length = X.length := g4
      rw [List.getElem?_eq_none (by omega), List.getElem?_eq_none (by omega)]
  · obtain ⟨e1, e2, _, _, e3, _⟩ := f2 i (List.getElem?_eq_some_iff.1 hx).1 fun h => by
      obtain ⟨x', e1, e2⟩ := (hmem i).1 h; rw [hx] at e1; cases e1; rw [hf] at e2; cases e2
    exact ⟨e1, e2, e3⟩
  · obtain ⟨e1, e2, _⟩ := f4 i ((hmem i).2 ⟨x, hx, hf⟩) (hlab i _ hn)
    exact ⟨e1, e2⟩
  · exact f5 i (hcl i l hi hne) (by rw [hlab i l hi]; exact hne)
  · have := f6 i (hcl i l hi hn) j (hcl j l' hj hn') (by rw [hlab i l hi]; exact hn) (by rw [hlab j l' hj]; exact hn')
    rwa [hlab i l hi, hlab j l' hj] at this
  · have hcn : c < num := by have := hbound c hc; omega
    have hrows : rowsIn idx lab c = (List.range X.length).filter fun i => r.labels[i]? = some (c : ℤ) := by
      unfold rowsIn
      rw [hidx, List.filter_filter]
      refine List.filter_congr fun i hi => ?_
      have hi := List.mem_range.1 hi
      have hx := List.getElem?_eq_getElem hi
      have hli : r.labels[i]? = some (lab i) := by
        rw [hlabdef]
        simp only [List.getD_eq_getElem?_getD, List.getElem?_eq_getElem (show i < r.labels.length by omega), Option.getD_some]
      rw [hx, hli, Option.map_some, Option.getD_some]
      cases hf : finite X[i] with
      | true => simp
      | false =>
        rw [((a4 i _ hx).1 hf).1, Option.some.injEq] at hli
        simp [← hli]
    have := f7 c hcn
    rw [hrows] at this
    exact this

/-- **C111** (partial), all in one for `algorithm='kruskal'`, `min_samples` at most 1 and default selection options: data with at least two finite rows, a symmetric
distance which is finite and larger than that of a row to itself, no row with two others at the same distance.  `fit` returns, and if there is a cluster, `SubClusterDetector.fit` with default
options returns for all lens values with positive lambda: clusters and strengths are kept, noise stays noise, and the clusters are divided.
Missing: ties and `min_samples` above 1, where a row may have no neighbour in its cluster (`C111_empty_row`). -/
theorem C111_kruskal_partial [Zero D] [LinearOrder V] [Add V] (inv : W → Option V) (zero : V)
    (lamD : D → K) (hlamD : Antitone lamD) (hposD : ∀ d, 0 ≤ lamD d) (hzero : ∀ d, lamD d = 0 ↔ d = ⊤)
    (finite : α → Bool) (dist : α → α → D) (hsym : ∀ x y, dist x y = dist y x) (hd0 : ∀ x y, 0 ≤ dist x y) (ms mcs : ℕ) (hms : ms ≤ 1) (hmcs : 2 ≤ mcs)
    (X : List α) (h2 : 2 ≤ (X.filter finite).length)
    (hd : ∀ (i j : ℕ) x y, X[i]? = some x → X[j]? = some y → finite x = true → finite y = true → i ≠ j → dist x x < dist x y ∧ dist x y < ⊤)
    (htie : ∀ (i j k : ℕ) x y z, X[i]? = some x → X[j]? = some y → X[k]? = some z → finite x = true → finite y = true → finite z = true →
      i ≠ j → i ≠ k → dist x y = dist x z → j = k)
    (outliers : List ℕ) (hout : outliers.Perm ((List.range X.length).filter fun i => !(X[i]?.map finite).getD false))
    (o : ClusterOpts K) (ho : o.minClusterSize = mcs) (hsingle : o.allowSingle = false) (hmx : o.maxClusterSize = none) (heps : o.epsilon ≤ 0)
    (hper : o.persistence ≤ 0)
    (nb : ℕ → List (Option ℕ)) (hnb : ∀ p < (X.filter finite).length, ∃ out,
      BruteNeighbors (X.filter finite).length ms (rowDist dist (X.filter finite)) p out ∧ nb p = out.map some) (core : ℕ → D)
    {sortRow : LensRow W D → LensRow W D} (hs : SortsRows sortRow) (lam : W → K) (hlam : Antitone lam) (hpos : ∀ d, 0 ≤ lam d)
    (values : List W) (hvals : values.length = X.length) (hvpos : ∀ v ∈ values, 0 < lam v) :
    ∃ r, fitModel finite (fastHdbscan lamD (kruskalRows dist ms) (fun _ => 1) o) outliers X (X.map fun _ => ()) = .ok r ∧
      ((∃ l ∈ r.labels, l ≠ -1) →
        ∃ f, runDetector inv zero sortRow lam (r.clusterer X.length o nb core (storedTree finite (kruskalRows dist ms) X (X.map fun _ => ())))
            { epsilon := 0, persistence := 0 } values = some f ∧
          f.out.clusterLabels = r.labels ∧ f.out.clusterProbs = r.strengths ∧
          (∀ i < X.length, f.out.labels[i]? = some (-1) ↔ r.labels[i]? = some (-1)) ∧
          ∀ i j : ℕ, f.out.labels[i]? ≠ some (-1) → f.out.labels[i]? = f.out.labels[j]? → r.labels[i]? = r.labels[j]?) := by
  obtain ⟨r, hr, hsound⟩ := C97_fit_kruskal_partial lamD hlamD hposD hzero finite dist hsym ms mcs hmcs X h2 outliers hout o ho hsingle hmx heps hper
  refine ⟨r, hr, fun hnoise => ?_⟩
  obtain ⟨h3, _⟩ := kruskalRows_tree dist hsym ms (X.filter finite) h2 (((X.zip (X.map fun _ => ())).filter fun p => finite p.1).map Prod.snd)
  have hmK : 1 < o.minClusterSize := by rw [ho]; exact_mod_cast hmcs
  set N := (X.filter finite).length with hN
  have hDrow : ∀ i j x y, X[i]? = some x → X[j]? = some y → finite x = true → finite y = true →
      rowDist dist (X.filter finite) ((X.take i).countP finite) ((X.take j).countP finite) = dist x y := fun i j x y hx hy hfx hfy =>
    rowDist_eq (finite_pos hx hfx) (finite_pos hy hfy)
  have hreach : ∀ x y, rowReach dist (X.filter finite) ms x y = dist x y := fun x y => by
    unfold rowReach coreOf
    rw [if_pos hms, if_pos hms, max_eq_left (hd0 x y), max_eq_left (hd0 x y)]
  have hDlt : ∀ p < N, ∀ q < N, q ≠ p → rowDist dist (X.filter finite) p p < rowDist dist (X.filter finite) p q ∧
      rowDist dist (X.filter finite) p q < ⊤ := by
    intro p hp q hq hne
    obtain ⟨i, b1, b2, rfl⟩ := finite_row (List.getElem?_eq_getElem hp)
    obtain ⟨j, c1, c2, rfl⟩ := finite_row (List.getElem?_eq_getElem hq)
    rw [hDrow i j _ _ b1 c1 b2 c2, hDrow i i _ _ b1 b1 b2 b2]
    exact hd i j _ _ b1 c1 b2 c2 fun h => hne (by rw [h])
  have hnear : ∀ p < N, ∃ q < N, q ≠ p ∧ nb p = [some q] ∧ ∀ b < N, b ≠ p → b ≠ q → rowDist dist (X.filter finite) p q ≤ rowDist dist (X.filter finite) p b := by
    intro p hp
    obtain ⟨out, hb, he⟩ := hnb p hp
    obtain ⟨c1, _, c3, _, _, _, c7⟩ := (C99_neighbours_partial N ms h2 (rowDist dist (X.filter finite)) p hp (fun j hj => by
      by_cases hjp : j = p
      · rw [hjp]
      · exact (hDlt p hp j hj hjp).1.le)).2 out hb
    obtain ⟨c8, c9⟩ := c7 fun j hj hne => (hDlt p hp j hj hne).1
    rw [show min (max 1 ms) (N - 1) = 1 by omega] at c1
    obtain ⟨q, rfl⟩ := List.length_eq_one_iff.1 c1
    refine ⟨q, c3 q (by simp), fun h => c8 (by simp [h]), he, fun b hb hbp hbq => c9 q (by simp) b hb hbp (by simpa using hbq)⟩
  have hlink : ∀ (i : ℕ) x l, X[i]? = some x → finite x = true → r.labels[i]? = some l → l ≠ -1 → ∃ j y, X[j]? = some y ∧ finite y = true ∧
      r.labels[j]? = some l ∧ some ((X.take j).countP finite) ∈ nb ((X.take i).countP finite) := by
    intro i x l hx hf hl hne
    have hlm := List.mem_of_getElem? hl
    obtain ⟨_, hcount⟩ := hsound.size l hlm hne
    obtain ⟨τ, t1, t2⟩ := hsound.cluster l hlm hne
    -- another row of the cluster
    have hj : ∃ j ≠ i, r.labels[j]? = some l := by
      by_contra hno
      push Not at hno
      rw [← count_eq_card] at hcount
      have : ((Finset.range r.labels.length).filter fun x => r.labels[x]? = some l) ⊆ {i} := fun j hj => by
        rw [Finset.mem_singleton]
        by_contra hji
        exact hno j hji (Finset.mem_filter.1 hj).2
      have := Finset.card_le_card this
      rw [Finset.card_singleton] at this
      omega
    obtain ⟨j, hji, hjl⟩ := hj
    have hstep : ∃ b ≠ i, r.labels[b]? = some l ∧ Within finite dist ms X (· ≤ τ) i b := by
      obtain ⟨b, b1, b2⟩ := first_step (t1 i j hl hjl) hji
      exact ⟨b, b1, b2.2.1, b2.2.2⟩
    obtain ⟨b, hbi, hbl, x', z, e1, e2, _, e4, e5⟩ := hstep
    rw [hx] at e1; cases e1
    beta_reduce at e5
    rw [hreach] at e5
    have hpi : (X.take i).countP finite < N := (List.getElem?_eq_some_iff.1 (finite_pos hx hf)).1
    have hpb : (X.take b).countP finite < N := (List.getElem?_eq_some_iff.1 (finite_pos e2 e4)).1
    obtain ⟨q, hq, hqi, hnbq, hmin⟩ := hnear _ hpi
    obtain ⟨k, k1, k2, rfl⟩ := finite_row (List.getElem?_eq_getElem hq)
    refine ⟨k, _, k1, k2, ?_, by rw [hnbq]; simp⟩
    by_cases hbk : b = k
    · rw [← hbk]; exact hbl
    · have hle := hmin _ hpb (fun h => hbi (finite_pos_inj e2 e4 hx hf h)) fun h => hbk (finite_pos_inj e2 e4 k1 k2 h)
      rw [hDrow i k _ _ hx k1 hf k2, hDrow i b _ _ hx e2 hf e4] at hle
      have hik : i ≠ k := fun h => hqi (by rw [h])
      have hlt : dist x (X.filter finite)[(X.take k).countP finite] < τ :=
        lt_of_lt_of_le (lt_of_le_of_ne hle fun h => hbk (htie i k b _ _ _ hx k1 e2 hf k2 e4 hik (Ne.symm hbi) h).symm) e5
      exact t2 i k hl ⟨x, _, hx, k1, hf, k2, by beta_reduce; rw [hreach]; exact hlt⟩
  obtain ⟨f, f0, g1, g2, f1, f2, f3, f4, f5, f6, _⟩ := C111_sub_clusters_partial inv zero lamD hlamD hposD (kruskalRows dist ms) (fun _ => 1) o hmK hper finite X
    (X.map fun _ => ()) (by simp) outliers hout h2 h3 (fun _ _ => ⟨zero_le_one, hmK⟩) (fun e he => by
      refine lt_of_le_of_ne (hposD _) fun h => ?_
      have htop := (hzero e.w).1 h.symm
      have hD : ∀ i j, rowDist dist (X.filter finite) i j = rowDist dist (X.filter finite) j i := by
        intro i j
        unfold rowDist
        cases (X.filter finite)[i]? <;> cases (X.filter finite)[j]? <;> simp [hsym]
      obtain ⟨_, h4⟩ := C60_brute_force N ms (by omega) (rowDist dist (X.filter finite)) hD
      obtain ⟨hu, hv, hne, hw⟩ := mem_completeGraph.1 (h4.forest.sub.subset he)
      beta_reduce at hw
      rw [rowDist_core (List.getElem?_eq_getElem hu), rowDist_core (List.getElem?_eq_getElem hv), htop] at hw
      unfold coreOf at hw
      rw [if_pos hms, if_pos hms] at hw
      have hfin := (hDlt _ hu _ hv hne.symm).2
      have h00 : 0 ≤ rowDist dist (X.filter finite) e.u e.v := by
        rw [rowDist_eq (List.getElem?_eq_getElem hu) (List.getElem?_eq_getElem hv)]; exact hd0 _ _
      rw [max_eq_left h00, max_eq_left h00] at hw
      rw [← hw] at hfin
      exact lt_irrefl _ hfin) r hr nb (fun p hp => by
      obtain ⟨q, q1, q2, q3, _⟩ := hnear p hp
      rw [q3]
      refine ⟨by simp, fun q' hq' => ?_⟩
      simp at hq'
      subst hq'
      exact ⟨q1, q2⟩) (fun i x l hx hf hl hne => by
      obtain ⟨j, y, c1, c2, c3, c4⟩ := hlink i x l hx hf hl hne
      exact ⟨j, y, c1, c2, c3, .inl c4⟩) core hs lam hlam hpos { epsilon := 0, persistence := 0 } rfl rfl hmK (fun _ _ => ⟨zero_le_one, hmK⟩) values hvals hvpos hnoise
    (.inl ⟨le_rfl, hmx⟩) _ rfl
  have hiff : ∀ i < X.length, f.out.labels[i]? = some (-1) ↔ r.labels[i]? = some (-1) := by
    intro i hi
    have hx := List.getElem?_eq_getElem hi
    have hlen := hsound.length.1
    have hl := List.getElem?_eq_getElem (show i < r.labels.length by omega)
    cases hf : finite X[i] with
    | false => exact ⟨fun _ => (hsound.missing i _ hx hf).1, fun _ => (f3 i _ hx hf).1⟩
    | true =>
      refine ⟨fun h => ?_, fun h => (f4 i _ hx hf h).1⟩
      by_contra hne
      obtain ⟨l', _, _, d1, _, _, _, d2, _⟩ := f5 i _ hl fun h => hne (by rw [hl, h])
      rw [d2, Option.some.injEq] at h
      omega
  refine ⟨f, f0, f1, f2 rfl, hiff, fun i j hi hij => ?_⟩
  by_cases hin : i < X.length
  · have hjn : j < X.length := by
      by_contra hjn
      rw [List.getElem?_eq_none (l := f.out.labels) (i := j) (by omega), List.getElem?_eq_getElem (by omega)] at hij
      cases hij
    have hl := List.getElem?_eq_getElem (show i < r.labels.length by have := hsound.length.1; omega)
    have hl' := List.getElem?_eq_getElem (show j < r.labels.length by have := hsound.length.1; omega)
    have h1 := ((f6 i j _ _ hl hl' (fun h => hi ((hiff i hin).2 (by rw [hl, h]))) fun h => hi (hij.trans ((hiff j hjn).2 (by rw [hl', h])))).1 hij).1
    rw [hl, hl', h1]
  · have hjn : ¬ j < X.length := by
      intro hjn
      rw [List.getElem?_eq_none (by omega), List.getElem?_eq_getElem (by omega)] at hij
      cases hij
    rw [List.getElem?_eq_none (by have := hsound.length.1; omega), List.getElem?_eq_none (by have := hsound.length.1; omega)]

omit [OrderTop D] [Inhabited D] in
/-- **C111** (partial) with other labels, but no strengths: every kept row has cluster strength 1, so that noise has label -1 and strength 1, and the strength of the others is the mean
of 1 and the sub-cluster strength.  `idx` are the rows found to be kept.  Missing: labels outside `SubInput`. -/
theorem C111_given_labels_partial [LinearOrder V] [Add V] (inv : W → Option V) (zero : V) (cl : FittedClusterer D K) (a : SubRunArgs K) (values : List W)
    (num : ℕ) (idx : List ℕ) (hrec : recoverFinite cl.rows cl.tree = some idx ∨ (recoverFinite cl.rows cl.tree = none ∧ idx = List.range cl.rows))
    (lab : ℕ → ℤ) (hl : a.labels = some lab) (hp : a.probs = none)
    (h : SubInput idx.length num (fun k => lab (idx.getD k 0)) cl.nb cl.mst) (hnum : 0 < num) {sortRow : LensRow W D → LensRow W D} (hs : SortsRows sortRow)
    (lam : W → K) (hlam : Antitone lam) (hpos : ∀ d, 0 ≤ lam d) (hprop : a.propagate = false) (h1 : 1 < a.minClusterSize.getD cl.opts.minClusterSize)
    (hw : ∀ i < cl.rows, 0 ≤ (a.weights.getD fun _ => 1) i ∧ (a.weights.getD fun _ => 1) i < a.minClusterSize.getD cl.opts.minClusterSize)
    (hvals : values.length = cl.rows) (hvpos : ∀ v ∈ values, 0 < lam v) (hper : a.persistence ≤ 0) (hmx : a.maxClusterSize.getD cl.opts.maxClusterSize = none) :
    ∃ f, runDetector inv zero sortRow lam cl a values = some f ∧
      (∀ i < cl.rows, i ∉ idx → f.out.labels[i]? = some (-1) ∧ f.out.probs[i]? = some 0 ∧ f.out.clusterLabels[i]? = some (-1)) ∧
      (∀ i ∈ idx, f.out.clusterLabels[i]? = some (lab i) ∧ f.out.clusterProbs[i]? = some 1) ∧
      (∀ i ∈ idx, lab i = -1 → f.out.labels[i]? = some (-1) ∧ f.out.probs[i]? = some 1) ∧
      (∀ i ∈ idx, lab i ≠ -1 → ∃ (l : ℤ) (sp : K), 0 ≤ l ∧ f.out.labels[i]? = some l ∧ f.out.subProbs[i]? = some sp ∧ f.out.probs[i]? = some ((1 + sp) / 2)) ∧
      ∀ i ∈ idx, ∀ j ∈ idx, lab i ≠ -1 → lab j ≠ -1 →
        (f.out.labels[i]? = f.out.labels[j]? ↔ lab i = lab j ∧ f.out.subLabels[i]? = f.out.subLabels[j]?) := by
  obtain ⟨f, f0, _, f2, f3, f4, f5, f6, _⟩ := run_all_rows (lab := lab) (probs := fun _ => 1) inv zero hrec (by rw [hl, hp]; rfl) h hnum hs hlam hpos hprop h1 hw hvals
    hvpos (.inl ⟨hper, hmx⟩)
  refine ⟨f, f0, fun i hi hni => ?_, fun i hi => (f3 i hi).2, fun i hi hn => ?_, fun i hi hn => ?_, f6⟩
  · obtain ⟨e1, e2, e3, _⟩ := f2 i hi hni
    exact ⟨e1, e2, e3⟩
  · obtain ⟨e1, e2, _⟩ := f4 i hi hn
    exact ⟨e1, e2⟩
  · obtain ⟨l, _, sp, e1, _, _, _, e2, _, e3, e4⟩ := f5 i hi hn
    exact ⟨l, sp, e1, e2, e3, e4⟩

end

/-! ## Concrete cases and counterexamples -/

/-- A stable sort of the rows, for distances that are rationals or infinite. -/
def stableRowsT (r : LensRow (WithTop ℚ) (WithTop ℚ)) : LensRow (WithTop ℚ) (WithTop ℚ) := r.insertionSort fun a b => a.2.1 ≤ b.2.1

theorem stableRowsT_sorts : SortsRows stableRowsT := by
  refine ⟨fun r => List.perm_insertionSort _ r, fun r => ?_⟩
  have : Std.Total (fun a b : ℕ × WithTop ℚ × WithTop ℚ => a.2.1 ≤ b.2.1) := ⟨fun a b => le_total _ _⟩
  have : IsTrans (ℕ × WithTop ℚ × WithTop ℚ) (fun a b => a.2.1 ≤ b.2.1) := ⟨fun a b c => le_trans⟩
  exact List.pairwise_insertionSort _ r

/-- Squared Euclidean distance in the plane. -/
def planeDist (x y : ℤ × ℤ) : WithTop ℚ :=
  ((((x.1 - y.1).natAbs * (x.1 - y.1).natAbs + (x.2 - y.2).natAbs * (x.2 - y.2).natAbs : ℕ) : ℚ) : WithTop ℚ)

/-- Eight points. -/
def plane8 : List (ℤ × ℤ) := [(0, 30), (0, 0), (0, 32), (34, 32), (34, 33), (34, 34), (20, 0), (-20, 0)]

/-- Their two nearest neighbours. -/
def planeNb (i : ℕ) : List ℕ := [[2, 1], [6, 7], [0, 1], [4, 5], [3, 5], [4, 3], [1, 3], [1, 0]].getD i []

def planeEdge (u v : ℕ) (w : ℚ) : Edge (WithTop ℚ) := ⟨u, v, (w : WithTop ℚ)⟩

/-- The spanning tree that Kruskal's algorithm finds. -/
def planeTree : List (Edge (WithTop ℚ)) :=
  [planeEdge 3 4 4, planeEdge 3 5 4, planeEdge 0 1 900, planeEdge 0 2 1024, planeEdge 2 3 1156, planeEdge 1 6 1220, planeEdge 0 7 1300]

theorem planeTree_eq : kruskalBrute 8 2 (rowDist planeDist plane8) CLParams.none = planeTree := by decide +kernel

/-- Options for clusters of three samples. -/
def planeOpts : ClusterOpts ℚ := { exOpts .eom 0 with minClusterSize := 3 }

/-- Lens values: 9 for row 1. -/
def planeLens : List (WithTop ℚ) := [1, 9, 3, 4, 5, 6, 7, 8].map fun x : ℚ => (x : WithTop ℚ)

/-- The two merges of the first cluster. -/
def firstMerges (f : DetectorFit (WithTop ℚ) (WithTop ℚ) ℚ) : List (ℕ × ℕ × WithTop ℚ) :=
  match f.clusters with
  | ⟨_, .clustered r, _⟩ :: _ => r.linkage.map fun e => (e.l, e.r, e.d)
  | _ => []

/-- Rows on a line, the first with NaN, without ties. -/
def subLine : List (Option ℚ) := [none, some 0, some 1, some 10, some 12]

/-- Their nearest neighbours. -/
def subLineNb (p : ℕ) : List (Option ℕ) := [[some 1], [some 0], [some 3], [some 2]].getD p []

set_option synthInstance.maxSize 2000 in
/-- Case for `C111_kruskal_partial`. -/
example : ∃ r, fitModel Option.isSome (fastHdbscan lamq (kruskalRows rowLine 1) (fun _ => 1) (exOpts .eom 0)) [0] subLine (subLine.map fun _ => ()) = .ok r ∧
    ((∃ l ∈ r.labels, l ≠ -1) →
      ∃ f, runDetector inv12 0 stableRowsT lamq (r.clusterer 5 (exOpts .eom 0) subLineNb (fun _ => 0)
            (storedTree Option.isSome (kruskalRows rowLine 1) subLine (subLine.map fun _ => ()))) { epsilon := 0, persistence := 0 }
            ([7, 1, 2, 3, 4].map fun x : ℚ => (x : WithTop ℚ)) = some f ∧
        f.out.clusterLabels = r.labels ∧ f.out.clusterProbs = r.strengths ∧
        (∀ i < 5, f.out.labels[i]? = some (-1) ↔ r.labels[i]? = some (-1)) ∧
        ∀ i j : ℕ, f.out.labels[i]? ≠ some (-1) → f.out.labels[i]? = f.out.labels[j]? → r.labels[i]? = r.labels[j]?) := by
  have hlt : ∀ {i : ℕ} {x : Option ℚ}, subLine[i]? = some x → i < 5 := fun h => (List.getElem?_eq_some_iff.1 h).1
  have k1 : ∀ i < 5, ∀ j < 5, ∀ x ∈ subLine[i]?.toList, ∀ y ∈ subLine[j]?.toList, x.isSome = true → y.isSome = true → i ≠ j →
    rowLine x x < rowLine x y ∧ rowLine x y < ⊤ := by decide +kernel
  have k2 : ∀ i < 5, ∀ j < 5, ∀ k < 5, ∀ x ∈ subLine[i]?.toList, ∀ y ∈ subLine[j]?.toList, ∀ z ∈ subLine[k]?.toList, x.isSome = true → y.isSome = true →
    z.isSome = true → i ≠ j → i ≠ k →
    rowLine x y = rowLine x z → j = k := by decide +kernel
  refine C111_kruskal_partial inv12 0 lamq lamq_antitone lamq_nonneg lamq_zero Option.isSome rowLine rowLine_comm (fun x y => ?_) 1 2 le_rfl le_rfl subLine (by decide)
    (fun i j x y hx hy => k1 i (hlt hx) j (hlt hy) x (by simp [hx]) y (by simp [hy]))
    (fun i j k x y z hx hy hz => k2 i (hlt hx) j (hlt hy) k (hlt hz) x (by simp [hx]) y (by simp [hy]) z (by simp [hz])) [0] (by decide +kernel)
    (exOpts .eom 0) rfl rfl rfl le_rfl le_rfl subLineNb (fun p hp => ?_) (fun _ => 0) stableRowsT_sorts lamq lamq_antitone lamq_nonneg _ (by decide) (by decide +kernel)
  · exact WithTop.coe_le_coe.2 (abs_nonneg _)
  · have hp : p < 4 := hp
    interval_cases p
    · exact ⟨[1], ⟨[0, 1], [0, 1], ⟨by decide, by decide, by decide, by decide +kernel⟩, .refl _, by decide +kernel, by decide⟩, rfl⟩
    · exact ⟨[0], ⟨[1, 0], [1, 0], ⟨by decide, by decide, by decide, by decide +kernel⟩, .refl _, by decide +kernel, by decide⟩, rfl⟩
    · exact ⟨[3], ⟨[2, 3], [2, 3], ⟨by decide, by decide, by decide, by decide +kernel⟩, .refl _, by decide +kernel, by decide⟩, rfl⟩
    · exact ⟨[2], ⟨[3, 2], [3, 2], ⟨by decide, by decide, by decide, by decide +kernel⟩, .refl _, by decide +kernel, by decide⟩, rfl⟩

/-- Case for `C111_given_labels_partial`: seven samples with labels given by the user. -/
example : ∃ f, runDetector inv12 0 stableRowsQ lamq (⟨7, exOpts .eom 0, fun _ => 0, fun _ => 1 / 2, [], exNb7, fun _ => 0, exTree7⟩ : FittedClusterer ℕ ℚ)
      { labels := some exLab7, epsilon := 0, persistence := 0 } ([1, 2, 3, 4, 5, 6, 7].map fun x : ℚ => (x : WithTop ℚ)) = some f ∧
    f.out.labels[6]? = some (-1) ∧ f.out.probs[6]? = some 1 := by
  have hr : recoverFinite 7 ([] : List (CRow ℚ ℚ)) = none := by decide
  obtain ⟨f, f0, _, _, f3, _⟩ := C111_given_labels_partial inv12 0
    (⟨7, exOpts .eom 0, fun _ => 0, fun _ => 1 / 2, [], exNb7, fun _ => 0, exTree7⟩ : FittedClusterer ℕ ℚ)
    { labels := some exLab7, epsilon := 0, persistence := 0 } ([1, 2, 3, 4, 5, 6, 7].map fun x : ℚ => (x : WithTop ℚ)) 2 (List.range 7) (.inr ⟨hr, rfl⟩) exLab7 rfl rfl
    (exSub7.congr fun i hi => by simp [List.getD_eq_getElem?_getD, hi]) (by decide) stableRowsQ_sorts lamq lamq_antitone lamq_nonneg rfl (by decide)
    (fun _ _ => ⟨zero_le_one, one_lt_two⟩) rfl (by decide +kernel) le_rfl rfl
  exact ⟨f, f0, f3 6 (by decide) rfl⟩

/-- **C111** fails for rows without a neighbour in their cluster.  `fit` with `min_samples=2`, `min_cluster_size=3` on these eight points puts rows 0, 1 and 2 in one cluster.
Both neighbours of row 1 are noise, and the tree edge of row 1 is stored from row 0, so that row 1 of the graph of its cluster is empty.  With lens value 9 for row 1 all edges at
row 1 weigh 9, but row 1 is merged at 3. -/
theorem C111_empty_row : (∀ p < 8, BruteNeighbors 8 2 (rowDist planeDist plane8) p (planeNb p)) ∧
    ∃ r f, fitModel (fun _ => true) (fastHdbscan lamq (kruskalRows planeDist 2) (fun _ => 1) planeOpts) [] plane8 (plane8.map fun _ => ()) = .ok r ∧
      r.labels = [0, 0, 0, 1, 1, 1, -1, -1] ∧
      runDetector inv12 0 stableRowsT lamq (r.clusterer 8 planeOpts (fun i => (planeNb i).map some) (fun _ => 0)
          (storedTree (fun _ => true) (kruskalRows planeDist 2) plane8 (plane8.map fun _ => ()))) { minClusterSize := some 2, epsilon := 0, persistence := 0 }
        planeLens = some f ∧
      firstMerges f = [(2, 0, ((3 : ℚ) : WithTop ℚ)), (3, 1, ((3 : ℚ) : WithTop ℚ))] := by
  constructor
  · intro p hp
    interval_cases p
    · exact ⟨[0, 2, 1], [0, 2, 1], ⟨by decide, by decide, by decide, by decide +kernel⟩, .refl _, by decide +kernel, by decide⟩
    · exact ⟨[1, 6, 7], [1, 6, 7], ⟨by decide, by decide, by decide, by decide +kernel⟩, .refl _, by decide +kernel, by decide⟩
    · exact ⟨[2, 0, 1], [2, 0, 1], ⟨by decide, by decide, by decide, by decide +kernel⟩, .refl _, by decide +kernel, by decide⟩
    · exact ⟨[3, 4, 5], [3, 4, 5], ⟨by decide, by decide, by decide, by decide +kernel⟩, .refl _, by decide +kernel, by decide⟩
    · exact ⟨[4, 3, 5], [4, 3, 5], ⟨by decide, by decide, by decide, by decide +kernel⟩, .refl _, by decide +kernel, by decide⟩
    · exact ⟨[5, 4, 3], [5, 4, 3], ⟨by decide, by decide, by decide, by decide +kernel⟩, .refl _, by decide +kernel, by decide⟩
    · exact ⟨[6, 1, 3], [6, 1, 3], ⟨by decide, by decide, by decide, by decide +kernel⟩, .refl _, by decide +kernel, by decide⟩
    · exact ⟨[7, 1, 0], [7, 1, 0], ⟨by decide, by decide, by decide, by decide +kernel⟩, .refl _, by decide +kernel, by decide⟩
  · have ht : kruskalRows planeDist 2 plane8 (plane8.map fun _ => ()) = planeTree := planeTree_eq
    have hfit : fitModel (fun _ => true) (fastHdbscan lamq (kruskalRows planeDist 2) (fun _ => 1) planeOpts) [] plane8 (plane8.map fun _ => ()) =
        fitModel (fun _ => true) (fastHdbscan lamq (fun _ _ => planeTree) (fun _ => 1) planeOpts) [] plane8 (plane8.map fun _ => ()) := by
      unfold fitModel
      rw [if_pos (by decide), if_pos (by decide)]
      unfold fastHdbscan fastWith
      simp only [ht]
    have hst : storedTree (fun _ => true) (kruskalRows planeDist 2) plane8 (plane8.map fun _ => ()) = lexsortMst planeTree := by
      rw [storedTree_eq (by simp) (by decide)]
      exact congrArg _ ht
    rw [hfit, hst]
    have hd : (match fitModel (fun _ => true) (fastHdbscan lamq (fun _ _ => planeTree) (fun _ => 1) planeOpts) [] plane8 (plane8.map fun _ => ()) with
        | .ok r => decide (r.labels = [0, 0, 0, 1, 1, 1, -1, -1]) && (match runDetector inv12 0 stableRowsT lamq (r.clusterer 8 planeOpts (fun i => (planeNb i).map some) (fun _ => 0)
            (lexsortMst planeTree)) { minClusterSize := some 2, epsilon := 0, persistence := 0 } planeLens with
          | some f => decide (firstMerges f = [(2, 0, ((3 : ℚ) : WithTop ℚ)), (3, 1, ((3 : ℚ) : WithTop ℚ))])
          | none => false)
        | .error _ => false) = true := by decide +kernel
    split at hd
    · rename_i r hr
      rw [Bool.and_eq_true] at hd
      obtain ⟨d1, d2⟩ := hd
      split at d2
      · rename_i f hf
        exact ⟨r, f, hr, of_decide_eq_true d1, hf, of_decide_eq_true d2⟩
      · cases d2
    · cases hd

end Verif
