import Verif.Model.Plscan
import Verif.Model.Lambda
import Verif.Props.BuildLayers
import Verif.Props.ClusterSize
import Verif.Lemmas.PreTrees

/-!
# C84, C85, C86: `PLSCAN`
-/

namespace Verif
variable {K : Type*}

section
variable [Field K] [LinearOrder K]

/-! ## C84 -/

theorem argmaxScore_split : ∀ (ls : List (Layer K)), ls ≠ [] → ∃ pre best post, argmaxScore ls = some best ∧ ls = pre ++ best :: post ∧
    (∀ a ∈ pre, a.score < best.score) ∧ ∀ a ∈ post, a.score ≤ best.score := by
  intro ls hne
  induction ls using List.reverseRecOn with
  | nil => exact absurd rfl hne
  | append_singleton as a ih =>
    cases as with
    | nil => exact ⟨[], a, [], rfl, rfl, by simp, by simp⟩
    | cons b as =>
      obtain ⟨pre, best, post, h1, h2, h3, h4⟩ := ih (by simp)
      have hf : argmaxScore (b :: as ++ [a]) = some (if best.score < a.score then a else best) := by
        have : argmaxScore (b :: as) = some (as.foldl (fun best x => if best.score < x.score then x else best) b) := rfl
        rw [this, Option.some_inj] at h1
        change some ((as ++ [a]).foldl (fun best x => if best.score < x.score then x else best) b) = _
        rw [List.foldl_append, h1]; rfl
      by_cases hlt : best.score < a.score
      · refine ⟨b :: as, a, [], by rw [hf, if_pos hlt], by simp, fun x hx => ?_, by simp⟩
        rw [h2, List.mem_append, List.mem_cons] at hx
        rcases hx with hx | rfl | hx
        · exact (h3 x hx).trans hlt
        · exact hlt
        · exact (h4 x hx).trans_lt hlt
      · refine ⟨pre, best, post ++ [a], by rw [hf, if_neg hlt], by rw [h2]; simp, h3, fun x hx => ?_⟩
        rw [List.mem_append, List.mem_singleton] at hx
        rcases hx with hx | rfl
        · exact h4 x hx
        · exact not_lt.1 hlt

theorem bestLayer_split (ls : List (Layer K)) (hne : ls ≠ []) : ∃ pre best post, bestLayer ls = some best ∧ ls = pre ++ best :: post ∧
    (∀ a ∈ pre, a.score < best.score) ∧ ∀ a ∈ post, a.score ≤ best.score := by
  unfold bestLayer
  split
  · next l => exact ⟨[], l, [], rfl, rfl, by simp, by simp⟩
  · exact argmaxScore_split ls hne

/-- Shifting and scaling changes no edge and keeps finite weights finite. -/
theorem normaliseEdges_mapW (core : List (WithTop K)) (edges : List (Edge (WithTop K))) :
    ∃ f : WithTop K → WithTop K, (∀ w, f w = ⊤ ↔ w = ⊤) ∧ normaliseEdges core edges = edges.map (Edge.mapW f) := by
  have hid : edges = edges.map (Edge.mapW id) := by
    rw [show (Edge.mapW id : Edge (WithTop K) → Edge (WithTop K)) = id from rfl, List.map_id]
  unfold normaliseEdges
  split
  · exact ⟨id, fun _ => Iff.rfl, hid⟩
  · next mn _ =>
    split
    · exact ⟨_, fun w => WithTop.map_eq_top_iff, rfl⟩
    · exact ⟨id, fun _ => Iff.rfl, hid⟩

variable [IsStrictOrderedRing K] [Inhabited K]

/-- **C84.**  Fitting returns, for every spanning tree of at least two samples, `base_min_cluster_size` at least 2 and `max_layers` at least 1.
There are at most `max_layers` layers, in order of falling numbers of clusters; one of them, the base layer, is the leaf clustering for
`base_min_cluster_size`, the others those for larger minimum cluster sizes (`IsLayer`).  `labels_` and `membership_strengths_` are those of the first
layer with the highest score.  This is the base layer only if there is no other. -/
theorem C84_fit (n : ℕ) (hn : 2 ≤ n) (core : List (WithTop K)) (edges : List (Edge (WithTop K))) (ht : SpanningTree n edges)
    (sortE : List (Edge (WithTop K)) → List (Edge (WithTop K))) (hsortE : ∀ l, (sortE l).Perm l ∧ (sortE l).Pairwise fun a b => a.w ≤ b.w)
    (lamSearch lam : WithTop K → K) (hpos : ∀ d, 0 ≤ lam d)
    (expInv : K → K) (hexp : ∀ x, 0 < x → expInv x ≤ 1) (order : (ℕ → K) → List ℕ → List ℕ)
    (horder : ∀ x l, (order x l).Perm l ∧ (order x l).Pairwise fun a b => x b ≤ x a) (sortLayers : List (Layer K) → List (Layer K))
    (hsort : ∀ l, (sortLayers l).Perm l ∧ (sortLayers l).Pairwise fun a b => maxLabel b.labels ≤ maxLabel a.labels) (thr : ℚ) (maxLayers : ℕ)
    (hmax : 1 ≤ maxLayers) (m : ℕ) (hm : 2 ≤ m) :
    let linkage := mstToLinkage (fun _ => (1 : K)) (sortE (normaliseEdges core edges))
    ∃ (r : PlscanFit K) (base : Layer K) (others : List (ℕ × List ℕ × Layer K)),
      plscanFit expInv order sortLayers sortE lamSearch lam thr maxLayers m none n core edges = some r ∧
      r.tree = layerTreeDict (buildClusterTree r.layers.length (layerLabels r.layers)) ∧
      r.layers.Perm (base :: others.map fun o => o.2.2) ∧ r.layers.length ≤ maxLayers ∧
      (r.layers.Pairwise fun a b => maxLabel b.labels ≤ maxLabel a.labels) ∧
      base.score = 0 ∧ (∃ leaves, extractLeaves (searchTree lam linkage m) = some leaves ∧
        IsLeafClustering n (searchTree lam linkage m) ⟨leaves, base.labels, base.strengths⟩) ∧
      (∀ o ∈ others, IsLayer n linkage lam m o.1 o.2.1 o.2.2) ∧
      ∃ pre best post, r.layers = pre ++ best :: post ∧ (∀ a ∈ pre, a.score < best.score) ∧ (∀ a ∈ post, a.score ≤ best.score) ∧
        r.labels = best.labels ∧ r.strengths = best.strengths ∧ (others = [] → best = base) ∧ (others ≠ [] → ∃ o ∈ others, o.2.2 = best) := by
  intro linkage
  obtain ⟨f, _, hf⟩ := normaliseEdges_mapW core edges
  have ht1 : SpanningTree n (normaliseEdges core edges) := by rw [hf]; exact (spanningTree_mapW f edges).2 ht
  have ht2 := ht1.perm (hsortE (normaliseEdges core edges)).1
  obtain ⟨hden, _⟩ := C12_linkage_is_dendrogram n (by omega) (fun _ => (1 : K)) _ ht2 (hsortE (normaliseEdges core edges)).2
  obtain ⟨layers, base, others, g1, g2, g3, g4, g5, g6, g7, g8⟩ := C69_layers n hn linkage hden lam hpos expInv hexp order horder sortLayers hsort thr
    maxLayers hmax m hm
  have hne : layers ≠ [] := by
    rintro rfl
    simpa using g2.length_eq
  obtain ⟨pre, best, post, b1, b2, b3, b4⟩ := bestLayer_split layers hne
  refine ⟨⟨layers, layerTreeDict (buildClusterTree layers.length (layerLabels layers)), best.labels, best.strengths⟩, base, others, ?_, rfl, g2, g3,
    g4, g5, g6, g7, pre, best, post, b2, b3, b4, rfl, rfl, fun ho => ?_, fun ho => ?_⟩
  · unfold plscanFit
    simp only
    rw [show buildLayers expInv order sortLayers thr maxLayers n lam (mstToLinkage (fun _ => (1 : K)) (sortE (normaliseEdges core edges))) m =
      some layers from g1, Option.bind_some, b1]
    rfl
  · subst ho
    have : best ∈ layers := by rw [b2]; simp
    simpa using g2.mem_iff.1 this
  · have hmem : best ∈ layers := by rw [b2]; simp
    rcases List.mem_cons.1 (g2.mem_iff.1 hmem) with rfl | h
    · obtain ⟨o, os, rfl⟩ := List.exists_cons_of_ne_nil ho
      have h1 := (g7 o (by simp)).score
      have h2 : o.2.2 ∈ layers := g2.mem_iff.2 (by simp)
      have h3 : o.2.2.score ≤ best.score := by
        rw [b2, List.mem_append, List.mem_cons] at h2
        rcases h2 with h2 | h2 | h2
        · exact (b3 _ h2).le
        · rw [h2]
        · exact b4 _ h2
      rw [g5] at h3
      exact absurd h1 (not_lt.2 h3)
    · obtain ⟨o, ho', e⟩ := List.mem_map.1 h
      exact ⟨o, ho', e⟩

/-- What a fit returns: the base layer is the leaf clustering for the minimum cluster size `mB` and lambda `lamB`, the other layers are those of the tree
condensed with `m` and `lam`. -/
structure FitShape (n : ℕ) (linkage : List (LRow (WithTop K) K)) (lamB : WithTop K → K) (mB : ℕ) (lam : WithTop K → K) (m : ℕ) (r : PlscanFit K) (base : Layer K)
    (leaves : List ℕ) (others : List (ℕ × List ℕ × Layer K)) : Prop where
  tree : r.tree = layerTreeDict (buildClusterTree r.layers.length (layerLabels r.layers))
  perm : r.layers.Perm (base :: others.map fun o => o.2.2)
  sorted : r.layers.Pairwise fun a b => maxLabel b.labels ≤ maxLabel a.labels
  extract : extractLeaves (searchTree lamB linkage mB) = some leaves
  base_leaf : IsLeafClustering n (searchTree lamB linkage mB) ⟨leaves, base.labels, base.strengths⟩
  others_layer : ∀ o ∈ others, IsLayer n linkage lam m o.1 o.2.1 o.2.2
  best : ∃ layer ∈ r.layers, r.labels = layer.labels ∧ r.strengths = layer.strengths
  best_other : others ≠ [] → ∃ o ∈ others, r.labels = o.2.2.labels ∧ r.strengths = o.2.2.strengths

omit [IsStrictOrderedRing K] in
theorem FitShape.others_ne {n : ℕ} {linkage : List (LRow (WithTop K) K)} {lamB : WithTop K → K} {mB : ℕ} {lam : WithTop K → K} {m : ℕ} {r : PlscanFit K}
    {base : Layer K} {leaves : List ℕ} {others : List (ℕ × List ℕ × Layer K)} (h : FitShape n linkage lamB mB lam m r base leaves others)
    (hlen : 1 < r.layers.length) : others ≠ [] := by
  rintro rfl
  have := h.perm.length_eq
  simp at this
  omega

/-- The fit with `base_min_cluster_size`. -/
theorem fit_shape (n : ℕ) (hn : 2 ≤ n) (core : List (WithTop K)) (edges : List (Edge (WithTop K))) (ht : SpanningTree n edges)
    (sortE : List (Edge (WithTop K)) → List (Edge (WithTop K))) (hsortE : ∀ l, (sortE l).Perm l ∧ (sortE l).Pairwise fun a b => a.w ≤ b.w)
    (lamSearch lam : WithTop K → K) (hpos : ∀ d, 0 ≤ lam d)
    (expInv : K → K) (hexp : ∀ x, 0 < x → expInv x ≤ 1) (order : (ℕ → K) → List ℕ → List ℕ)
    (horder : ∀ x l, (order x l).Perm l ∧ (order x l).Pairwise fun a b => x b ≤ x a) (sortLayers : List (Layer K) → List (Layer K))
    (hsort : ∀ l, (sortLayers l).Perm l ∧ (sortLayers l).Pairwise fun a b => maxLabel b.labels ≤ maxLabel a.labels) (thr : ℚ) (maxLayers : ℕ)
    (hmax : 1 ≤ maxLayers) (m : ℕ) (hm : 2 ≤ m) :
    ∃ (r : PlscanFit K) (base : Layer K) (leaves : List ℕ) (others : List (ℕ × List ℕ × Layer K)),
      plscanFit expInv order sortLayers sortE lamSearch lam thr maxLayers m none n core edges = some r ∧
      FitShape n (mstToLinkage (fun _ => (1 : K)) (sortE (normaliseEdges core edges))) lam m lam m r base leaves others := by
  obtain ⟨r, base, others, g1, g2, g3, _, g5, _, ⟨leaves, g6, g6'⟩, g7, pre, best, post, b1, _, _, b4, b5, _, b6⟩ := C84_fit n hn core edges ht sortE hsortE
    lamSearch lam hpos expInv hexp order horder sortLayers hsort thr maxLayers hmax m hm
  refine ⟨r, base, leaves, others, g1, g2, g3, g5, g6, g6', g7, ⟨best, by rw [b1]; simp, b4, b5⟩, fun ho => ?_⟩
  obtain ⟨o, ho', e⟩ := b6 ho
  exact ⟨o, ho', by rw [b4, e], by rw [b5, e]⟩

/-- The sorted, normalised spanning tree: a dendrogram whose condensed trees have no lambda 0, if no edge is infinite. -/
theorem fit_tree {n : ℕ} (hn : 2 ≤ n) (core : List (WithTop K)) {edges : List (Edge (WithTop K))} (ht : SpanningTree n edges) (hfin : ∀ e ∈ edges, e.w ≠ ⊤)
    {sortE : List (Edge (WithTop K)) → List (Edge (WithTop K))} (hsortE : ∀ l, (sortE l).Perm l ∧ (sortE l).Pairwise fun a b => a.w ≤ b.w) :
    Dendrogram n (fun _ => (1 : K)) (mstToLinkage (fun _ => (1 : K)) (sortE (normaliseEdges core edges))) ∧
    ∀ lam : WithTop K → K, (∀ d, d ≠ ⊤ → lam d ≠ 0) → ∀ m : ℕ, 2 ≤ m →
      ∀ row ∈ searchTree lam (mstToLinkage (fun _ => (1 : K)) (sortE (normaliseEdges core edges))) m, row.lam ≠ 0 := by
  obtain ⟨f, hf1, hf2⟩ := normaliseEdges_mapW core edges
  have ht1 : SpanningTree n (normaliseEdges core edges) := by rw [hf2]; exact (spanningTree_mapW f edges).2 ht
  have ht2 := ht1.perm (hsortE (normaliseEdges core edges)).1
  refine ⟨(C12_linkage_is_dendrogram n (by omega) (fun _ => (1 : K)) _ ht2 (hsortE (normaliseEdges core edges)).2).1, fun lam hlam m hm row hrow => ?_⟩
  have hm' : (1 : K) < m := by exact_mod_cast (show 1 < m by omega)
  obtain ⟨e, he, h2⟩ := condense_lam_edge hn ht2 (fun _ _ => zero_le_one) (fun _ _ => hm') lam row hrow
  rw [h2]
  refine hlam _ fun htop => ?_
  have he' := (hsortE (normaliseEdges core edges)).1.mem_iff.1 he
  rw [hf2] at he'
  obtain ⟨d, hd, rfl⟩ := List.mem_map.1 he'
  exact hfin d hd ((hf1 _).1 htop)

/-! ## C85 -/

/-- All distances multiplied by `c`. -/
def scaleBy (c : K) (w : WithTop K) : WithTop K := w.map fun x => c * x

omit [LinearOrder K] [IsStrictOrderedRing K] [Inhabited K] in
theorem finiteCore_scale (c : K) : ∀ core : List (WithTop K), finiteCore (core.map (scaleBy c)) = (finiteCore core).map fun x => c * x
  | [] => rfl
  | ⊤ :: core => finiteCore_scale c core
  | (d : K) :: core => congrArg (c * d :: ·) (finiteCore_scale c core)

omit [Inhabited K] in
theorem min?_scale {c : K} (hc : 0 < c) (l : List K) : (l.map fun x => c * x).min? = l.min?.map fun x => c * x := by
  cases h : l.min? with
  | none => rw [List.min?_eq_none_iff.1 h]; rfl
  | some mn =>
    obtain ⟨h1, h2⟩ := List.min?_eq_some_iff.1 h
    rw [Option.map_some]
    refine List.min?_eq_some_iff.2 ⟨List.mem_map_of_mem h1, fun b hb => ?_⟩
    obtain ⟨x, hx, rfl⟩ := List.mem_map.1 hb
    exact mul_le_mul_of_nonneg_left (h2 x hx) hc.le

omit [LinearOrder K] [IsStrictOrderedRing K] [Inhabited K] in
theorem meanOf_scale (c : K) (l : List K) : meanOf (l.map fun x => c * x) = c * meanOf l := by
  unfold meanOf
  rw [List.sum_map_mul_left, List.length_map, List.map_id', mul_div_assoc]

omit [Inhabited K] in
/-- The smallest of numbers that are not all equal is below their mean. -/
theorem min_lt_mean {l : List K} {mn : K} (h : l.min? = some mn) {a b : K} (ha : a ∈ l) (hb : b ∈ l) (hab : a ≠ b) : mn < meanOf l := by
  obtain ⟨hmem, hle⟩ := List.min?_eq_some_iff.1 h
  have hlen : 0 < l.length := List.length_pos_of_mem hmem
  have hlen' : (0 : K) < (l.length : K) := by exact_mod_cast hlen
  unfold meanOf
  rw [lt_div_iff₀ hlen']
  have hc : ∃ x ∈ l, mn < x := by
    rcases eq_or_ne a mn with rfl | hne
    · exact ⟨b, hb, lt_of_le_of_ne (hle b hb) hab⟩
    · exact ⟨a, ha, lt_of_le_of_ne (hle a ha) hne.symm⟩
  have := List.sum_lt_sum (l := l) (fun _ => mn) id hle hc
  rw [List.map_const', List.sum_replicate, nsmul_eq_mul, List.map_id, mul_comm] at this
  exact this

omit [Inhabited K] in
theorem normaliseEdges_scale {c : K} (hc : 0 < c) (core : List (WithTop K)) (edges : List (Edge (WithTop K)))
    (hne : ∃ a b : K, (a : WithTop K) ∈ core ∧ (b : WithTop K) ∈ core ∧ a ≠ b) :
    normaliseEdges (core.map (scaleBy c)) (edges.map (Edge.mapW (scaleBy c))) = normaliseEdges core edges := by
  obtain ⟨a, b, ha, hb, hab⟩ := hne
  have hmem : ∀ {x : K}, (x : WithTop K) ∈ core → x ∈ finiteCore core := fun h => List.mem_filterMap.2 ⟨_, h, rfl⟩
  have ha' := hmem ha
  have hb' := hmem hb
  unfold normaliseEdges
  rw [finiteCore_scale, min?_scale hc, meanOf_scale]
  cases h : (finiteCore core).min? with
  | none => rw [List.min?_eq_none_iff.1 h] at ha'; simp at ha'
  | some mn =>
    have hlt := min_lt_mean h ha' hb' hab
    simp only [Option.map_some]
    rw [if_pos hlt, if_pos (mul_lt_mul_of_pos_left hlt hc), List.map_map]
    refine List.map_congr_left fun e _ => ?_
    simp only [Function.comp_apply, Edge.mapW, scaleBy]
    congr 1
    rw [WithTop.map_map]
    congr 1
    funext x
    simp only [Function.comp_apply]
    rw [← mul_sub, ← mul_sub, mul_div_mul_left _ _ hc.ne']

omit [Inhabited K] in
/-- **C85.**  The fitted model does not depend on the unit of length: multiplying every core distance and every edge of the spanning tree by the same
positive number changes nothing, provided two finite core distances differ.  (If they do not, weights are left as they are: `C85_equal_core_distances`.) -/
theorem C85_scale_partial [Inhabited K] (n : ℕ) {c : K} (hc : 0 < c) (core : List (WithTop K)) (edges : List (Edge (WithTop K)))
    (hne : ∃ a b : K, (a : WithTop K) ∈ core ∧ (b : WithTop K) ∈ core ∧ a ≠ b)
    (sortE : List (Edge (WithTop K)) → List (Edge (WithTop K))) (lamSearch lam : WithTop K → K) (expInv : K → K) (order : (ℕ → K) → List ℕ → List ℕ)
    (sortLayers : List (Layer K) → List (Layer K)) (thr : ℚ) (maxLayers m : ℕ) (baseN : Option ℤ) :
    plscanFit expInv order sortLayers sortE lamSearch lam thr maxLayers m baseN n (core.map (scaleBy c)) (edges.map (Edge.mapW (scaleBy c))) =
      plscanFit expInv order sortLayers sortE lamSearch lam thr maxLayers m baseN n core edges := by
  unfold plscanFit
  rw [normaliseEdges_scale hc core edges hne]

/-! ## C86 -/

omit [IsStrictOrderedRing K] [Inhabited K] in
/-- Labels have no gap when every selected cluster has a sample. -/
theorem dense_of_labelsMean {n k : ℕ} {rows : List (CRow K K)} (h : CondTree n k rows) {sel : List ℕ} {labels : List ℤ}
    (hl : LabelsMean n rows sel none labels) (hlam : ∀ row ∈ rows, row.lam ≠ 0) (hs : n ∉ sel → ∀ c ∈ sel, ∃ x, x < n ∧ CDesc rows c x) :
    DenseLayer labels := by
  obtain ⟨hlen, hl⟩ := hl
  intro v hv
  obtain ⟨x, hx⟩ := List.mem_iff_getElem?.1 hv
  have hxn : x < n := by rw [← hlen]; exact (List.getElem?_eq_some_iff.1 hx).1
  obtain ⟨row, hrow, rfl⟩ := List.mem_map.1 ((h.children x).2 (.inl hxn))
  obtain ⟨h1, h2, h3⟩ := hl row hrow hxn
  refine ⟨h3 v hx, fun u hu huv => ?_⟩
  obtain ⟨i, rfl⟩ := Int.eq_ofNat_of_zero_le (hu.trans huv)
  obtain ⟨j, rfl⟩ := Int.eq_ofNat_of_zero_le hu
  have hji : j ≤ i := by exact_mod_cast huv
  by_cases hn : n ∈ sel
  · have := ((h2 hn i).1 hx).1
    rw [show j = i by omega]; exact hv
  · obtain ⟨_, s, hs1, _⟩ := (h1 hn i).1 hx
    have hjl : j < (sel.insertionSort (· ≤ ·)).length := by
      have := (List.getElem?_eq_some_iff.1 hs1).1
      omega
    have hc : (sel.insertionSort (· ≤ ·))[j] ∈ sel := (List.mem_insertionSort _).1 (List.getElem_mem hjl)
    obtain ⟨y, hy, hd⟩ := hs hn _ hc
    obtain ⟨row', hrow', rfl⟩ := List.mem_map.1 ((h.children y).2 (.inl hy))
    exact List.mem_of_getElem? (((hl row' hrow' hy).1 hn j).2 ⟨hlam _ hrow', _, List.getElem?_eq_getElem hjl, hd⟩)

/-- The samples of a cluster of a condensed tree for minimum cluster size `m`: at least `m` of them. -/
theorem cluster_card {W : Type*} [LinearOrder W] [Inhabited W] {n : ℕ} (hn : 2 ≤ n) {linkage : List (LRow W K)} (h : Dendrogram n (fun _ => (1 : K)) linkage)
    (lam : W → K) {m : ℕ} (hm : 2 ≤ m) : ∃ k, CondTree n k (searchTree lam linkage m) ∧
      ∀ c, n < c → c < n + k → ∀ X : Finset ℕ, (∀ x, x ∈ X ↔ x < n ∧ CDesc (searchTree lam linkage m) c x) → m ≤ X.card := by
  classical
  have hm' : (1 : K) < m := by exact_mod_cast (show 1 < m by omega)
  obtain ⟨k, hct, _, hreal⟩ := C17_condensed_clusters_real n hn (fun _ => (1 : K)) linkage h (m : K) (fun _ _ => zero_le_one) (fun _ _ => hm') lam
  refine ⟨k, hct, fun c h1 h2 X hX => ?_⟩
  obtain ⟨row, hrow, rfl⟩ := List.mem_map.1 ((hct.children c).2 (.inr ⟨h1, h2⟩))
  obtain ⟨g1, g2⟩ := (hreal row hrow).2 (by omega)
  rw [g2, Finset.sum_const, nsmul_eq_mul, mul_one, Nat.cast_le] at g1
  convert g1 using 2
  ext x
  rw [hX, Finset.mem_filter, Finset.mem_range]
  rfl

/-- The clusters of a layer have more than `s` samples. -/
theorem layer_big {W : Type*} [LinearOrder W] [Inhabited W] {n : ℕ} (hn : 2 ≤ n) {linkage : List (LRow W K)}
    (h : Dendrogram n (fun _ => (1 : K)) linkage) {lam : W → K} (hpos : ∀ d, 0 ≤ lam d) {m s : ℕ} (hm : 2 ≤ m) {sel : List ℕ} {l : Layer K}
    (hl : IsLayer n linkage lam m s sel l) : ∀ c ∈ sel, ∀ X : Finset ℕ, (∀ x, x ∈ X ↔ x < n ∧ CDesc (searchTree lam linkage m) c x) → s < X.card := by
  classical
  obtain ⟨hms, hsn⟩ := hl.size
  obtain ⟨k', hct', hcard⟩ := cluster_card hn h lam (show 2 ≤ s + 1 by omega)
  obtain ⟨leaves, hext, hsets⟩ := hl.leaves
  intro c hc X hX
  have : {x | x < n ∧ CDesc (searchTree lam linkage m) c x} ∈ sampleSets n (searchTree lam linkage (s + 1)) leaves := by
    rw [← hsets]; exact ⟨c, hc, rfl⟩
  obtain ⟨c', hc', he⟩ := this
  have hX' : ∀ x, x ∈ X ↔ x < n ∧ CDesc (searchTree lam linkage (s + 1)) c' x := fun x => by
    rw [hX]
    exact Set.ext_iff.1 he x
  obtain ⟨r, hr, ⟨_, _, _, ⟨k'', hct'', hleaf⟩, _⟩, _⟩ := leafResult_total n hn linkage h lam hpos (s + 1) (by omega)
  have hext' : extractLeaves (searchTree lam linkage (s + 1)) = some r.leaves := by
    unfold leafResult at hr
    obtain ⟨ls, e1, e2⟩ := Option.bind_eq_some_iff.1 hr
    obtain ⟨lb, e3, e4⟩ := Option.bind_eq_some_iff.1 e2
    obtain ⟨st, e5, e6⟩ := Option.map_eq_some_iff.1 e4
    rw [e1, ← e6]
  rw [hext, Option.some_inj] at hext'
  rw [hext'] at hc'
  obtain ⟨f1, f2, _⟩ := (hleaf c').1 hc'
  rcases f1.eq_or_lt with rfl | f1
  · have : X = Finset.range n := by
      ext x
      rw [hX', Finset.mem_range]
      refine ⟨fun hx => hx.1, fun hx => ⟨hx, ?_⟩⟩
      obtain ⟨row, hrow, he⟩ := List.mem_map.1 ((hct'.children x).2 (.inl hx))
      obtain ⟨p1, p2⟩ := hct'.parents row hrow
      exact (hct'.root_desc p1 p2).tail ⟨row, hrow, rfl, he⟩
    rw [this, Finset.card_range]; exact hsn
  · have := (hct'.children c').1 ((hct''.children c').2 (.inr ⟨f1, f2⟩))
    exact hcard c' f1 (by omega) X hX'

/-- A layer above the base layer, without samples leaving at lambda 0: labels without a gap, each given to more than `s` samples. -/
theorem layer_labels {W : Type*} [LinearOrder W] [Inhabited W] {n : ℕ} (hn : 2 ≤ n) {linkage : List (LRow W K)}
    (h : Dendrogram n (fun _ => (1 : K)) linkage) {lam : W → K} (hpos : ∀ d, 0 ≤ lam d) {m s : ℕ} (hm : 2 ≤ m) (hlam : ∀ row ∈ searchTree lam linkage m, row.lam ≠ 0)
    {sel : List ℕ} {l : Layer K} (hl : IsLayer n linkage lam m s sel l) :
    DenseLayer l.labels ∧ (∀ v ∈ l.labels, -1 ≤ v ∧ v < sel.length) ∧
      ∀ i : ℕ, i < sel.length → s < ((Finset.range n).filter fun x => l.labels[x]? = some (i : ℤ)).card := by
  classical
  obtain ⟨hms, hsn⟩ := hl.size
  obtain ⟨k, hct, _⟩ := cluster_card hn h lam hm
  obtain ⟨k', hct', hcard⟩ := cluster_card hn h lam (show 2 ≤ s + 1 by omega)
  have hnsel : n ∉ sel := fun hc => absurd (hl.two.2 n hc) (lt_irrefl _)
  obtain ⟨hlen, hlab⟩ := hl.labels
  obtain ⟨leaves, hext, hsets⟩ := hl.leaves
  have hbig := layer_big hn h hpos hm hl
  have hrowOf : ∀ x, x < n → ∃ row ∈ searchTree lam linkage m, row.child = x := fun x hx => by
    obtain ⟨row, hrow, he⟩ := List.mem_map.1 ((hct.children x).2 (.inl hx))
    exact ⟨row, hrow, he⟩
  have hlabel : ∀ x, x < n → ∀ i : ℕ, l.labels[x]? = some (i : ℤ) ↔
      ∃ c, (sel.insertionSort (· ≤ ·))[i]? = some c ∧ CDesc (searchTree lam linkage m) c x := fun x hx i => by
    obtain ⟨row, hrow, rfl⟩ := hrowOf x hx
    rw [(hlab row hrow hx).1 hnsel i]
    exact ⟨fun hh => hh.2, fun hh => ⟨hlam row hrow, hh⟩⟩
  refine ⟨dense_of_labelsMean hct hl.labels hlam fun _ c hc => ?_, fun v hv => ?_, fun i hi => ?_⟩
  · have := hbig c hc ((Finset.range n).filter fun x => CDesc (searchTree lam linkage m) c x) fun x => by simp
    obtain ⟨x, hx⟩ := Finset.card_pos.1 (Nat.lt_of_le_of_lt (Nat.zero_le _) this)
    exact ⟨x, by simpa using hx⟩
  · obtain ⟨x, hx⟩ := List.mem_iff_getElem?.1 hv
    have hxn : x < n := by rw [← hlen]; exact (List.getElem?_eq_some_iff.1 hx).1
    obtain ⟨row, hrow, he⟩ := hrowOf x hxn
    subst he
    have h1 := (hlab row hrow hxn).2.2 v hx
    refine ⟨h1, ?_⟩
    by_cases h0 : 0 ≤ v
    · obtain ⟨i, rfl⟩ := Int.eq_ofNat_of_zero_le h0
      obtain ⟨c, hc, _⟩ := (hlabel _ hxn i).1 hx
      have := (List.getElem?_eq_some_iff.1 hc).1
      rw [List.length_insertionSort] at this
      exact_mod_cast this
    · omega
  · have hi' : i < (sel.insertionSort (· ≤ ·)).length := by rw [List.length_insertionSort]; exact hi
    have hc : (sel.insertionSort (· ≤ ·))[i] ∈ sel := (List.mem_insertionSort _).1 (List.getElem_mem hi')
    refine hbig _ hc _ fun x => ?_
    rw [Finset.mem_filter, Finset.mem_range]
    refine and_congr_right fun hx => ?_
    rw [hlabel x hx i, List.getElem?_eq_getElem hi']
    simp

/-- The base layer, without samples leaving at lambda 0: labels without a gap. -/
theorem base_dense {W : Type*} [LinearOrder W] [Inhabited W] {n : ℕ} (hn : 2 ≤ n) {linkage : List (LRow W K)}
    (h : Dendrogram n (fun _ => (1 : K)) linkage) {lam : W → K} {m : ℕ} (hm : 2 ≤ m) (hlam : ∀ row ∈ searchTree lam linkage m, row.lam ≠ 0)
    {r : LeafResult K} (hl : IsLeafClustering n (searchTree lam linkage m) r) : DenseLayer r.labels := by
  classical
  obtain ⟨_, _, h3, ⟨k', hct', hleaf⟩, _⟩ := hl
  obtain ⟨k, hct, hcard⟩ := cluster_card hn h lam hm
  refine dense_of_labelsMean hct h3 hlam fun hns c hc => ?_
  obtain ⟨f1, f2, _⟩ := (hleaf c).1 hc
  have f1' : n < c := lt_of_le_of_ne f1 fun e => hns (by rw [e]; exact hc)
  have := (hct.children c).1 ((hct'.children c).2 (.inr ⟨f1', f2⟩))
  have := hcard c f1' (by omega) ((Finset.range n).filter fun x => CDesc (searchTree lam linkage m) c x) fun x => by simp
  obtain ⟨x, hx⟩ := Finset.card_pos.1 (Nat.lt_of_lt_of_le (by omega) this)
  exact ⟨x, by simpa using hx⟩

/-- If there is another layer then the base layer is not the whole data set. -/
theorem FitShape.no_top {n : ℕ} (hn : 2 ≤ n) {linkage : List (LRow (WithTop K) K)} (hden : Dendrogram n (fun _ => (1 : K)) linkage) {lamB lam : WithTop K → K} {mB m : ℕ}
    (hmB : 2 ≤ mB) (hle : mB ≤ m) (hpos : ∀ d, 0 ≤ lam d) {r : PlscanFit K} {base : Layer K} {leaves : List ℕ} {others : List (ℕ × List ℕ × Layer K)}
    (h : FitShape n linkage lamB mB lam m r base leaves others) (ho : others ≠ []) : n ∉ leaves := by
  classical
  intro htop
  obtain ⟨hnd, _, _, ⟨k, hct, hleaf⟩, _⟩ := h.base_leaf
  have hk1 := hct.childless_root ((hleaf n).1 htop).2.2
  have hlen : leaves.length ≤ 1 := by
    have hsub : leaves ⊆ [n] := fun c hc => by
      obtain ⟨h1, h2, _⟩ := (hleaf c).1 hc
      have : c = n := by omega
      simp [this]
    exact (hnd.subperm hsub).length_le
  obtain ⟨o, ho⟩ := List.exists_mem_of_ne_nil _ ho
  have hl := h.others_layer o ho
  obtain ⟨hms, hsn⟩ := hl.size
  have hcnt : ∀ (lam' : WithTop K → K) (s : ℕ), 2 ≤ s → ∀ ls, extractLeaves (searchTree lam' linkage s) = some ls →
      ls.length = 1 + bigMerges n (fun _ => (1 : K)) linkage (s : K) := by
    intro lam' s hs ls hls
    obtain ⟨l, e1, _, e2⟩ := C64_leaf_count n hn (fun _ => (1 : K)) linkage hden (s : K)
      (by exact_mod_cast (show 1 < s by omega)) (fun _ _ => zero_le_one) (fun _ _ => by exact_mod_cast (show 1 < s by omega)) lam'
    rw [show extractLeaves (searchTree lam' linkage s) = some l from e1, Option.some.injEq] at hls
    rw [← hls, e2]
  have h1 := hcnt lamB mB hmB leaves h.extract
  obtain ⟨ls, hx, hsets⟩ := hl.leaves
  have h2 := hcnt lam (o.1 + 1) (by omega) ls hx
  have h3 := bigMerges_anti n (fun _ => (1 : K)) linkage (s := (mB : K)) (t := ((o.1 + 1 : ℕ) : K)) (by exact_mod_cast (show mB ≤ o.1 + 1 by omega))
  obtain ⟨d, hd⟩ := List.length_eq_one_iff.1 (show ls.length = 1 by omega)
  subst hd
  obtain ⟨k', hct', _⟩ := cluster_card hn hden lam (show 2 ≤ m by omega)
  have hbig := layer_big hn hden hpos (show 2 ≤ m by omega) hl
  have hone : ∀ c ∈ o.2.1, {x | x < n ∧ CDesc (searchTree lam linkage m) c x} = {x | x < n ∧ CDesc (searchTree lam linkage (o.1 + 1)) d x} := by
    intro c hc
    have : {x | x < n ∧ CDesc (searchTree lam linkage m) c x} ∈ sampleSets n (searchTree lam linkage (o.1 + 1)) [d] := by
      rw [← hsets]; exact ⟨c, hc, rfl⟩
    obtain ⟨d', hd', e⟩ := this
    rw [List.mem_singleton.1 hd'] at e
    exact e
  have hall : ∀ c ∈ o.2.1, ∀ c' ∈ o.2.1, c = c' := by
    intro c hc c' hc'
    have h4 := hbig c hc ((Finset.range n).filter fun x => CDesc _ c x) fun x => by rw [Finset.mem_filter, Finset.mem_range]
    obtain ⟨x, hx⟩ := Finset.card_pos.1 (Nat.lt_of_le_of_lt (Nat.zero_le _) h4)
    obtain ⟨hxn, hx⟩ := Finset.mem_filter.1 hx
    have hx' : CDesc (searchTree lam linkage m) c' x := by
      have : x ∈ {x | x < n ∧ CDesc (searchTree lam linkage m) c' x} := by
        rw [hone c' hc', ← hone c hc]; exact ⟨Finset.mem_range.1 hxn, hx⟩
      exact this.2
    rcases hct'.desc_comparable hx hx' with h5 | h5
    · exact hl.nonNested c hc c' hc' h5
    · exact (hl.nonNested c' hc' c hc h5).symm
  have := hl.two.1
  match hsel : o.2.1, hl.nodup with
  | [], _ => rw [hsel] at this; simp at this
  | [_], _ => rw [hsel] at this; simp at this
  | a :: b :: t, hnd' =>
    have := hall a (by rw [hsel]; simp) b (by rw [hsel]; simp)
    subst this
    simp at hnd'

/-- **C86** for any base layer. -/
theorem shape_tree {n : ℕ} (hn : 2 ≤ n) {linkage : List (LRow (WithTop K) K)} (hden : Dendrogram n (fun _ => (1 : K)) linkage) {lamB lam : WithTop K → K} {mB m : ℕ}
    (hmB : 2 ≤ mB) (hm : 2 ≤ m) (hpos : ∀ d, 0 ≤ lam d) (hrowsB : ∀ row ∈ searchTree lamB linkage mB, row.lam ≠ 0)
    (hrows : ∀ row ∈ searchTree lam linkage m, row.lam ≠ 0) {r : PlscanFit K} {base : Layer K} {leaves : List ℕ} {others : List (ℕ × List ℕ × Layer K)}
    (h : FitShape n linkage lamB mB lam m r base leaves others) :
    (r.tree.map Prod.fst).Nodup ∧
      (∀ l c, (∃ k ks, (k, ks) ∈ r.tree ∧ (l, c) ∈ ks) ↔ ∃ layer, r.layers[l]? = some layer ∧ 0 ≤ c ∧ c ∈ layer.labels) ∧
      (∀ k ks, (k, ks) ∈ r.tree → ∀ l c, (l, c) ∈ ks → LayerParent r.layers.length (layerLabels r.layers) k.1 k.2 l c ∨
        (k = (r.layers.length, 0) ∧ ∀ pl p, l < pl → pl < r.layers.length → 0 ≤ p → ¬ Shares (layerLabels r.layers) pl p l c)) ∧
      (1 < r.layers.length → ∃ t : ℕ, 2 ≤ t ∧ (∀ v ∈ r.labels, -1 ≤ v ∧ v < t) ∧
        ∀ i : ℕ, i < t → m < ((Finset.range n).filter fun x => r.labels[x]? = some (i : ℤ)).card) := by
  classical
  have hdense : ∀ l, l < r.layers.length → DenseLayer (layerLabels r.layers l) := by
    intro l hl
    unfold layerLabels
    rw [List.getElem?_eq_getElem hl, Option.map_some, Option.getD_some]
    have := h.perm.mem_iff.1 (List.getElem_mem hl)
    rcases List.mem_cons.1 this with h' | h'
    · rw [h']; exact base_dense hn hden hmB hrowsB h.base_leaf
    · obtain ⟨o, ho, he⟩ := List.mem_map.1 h'
      rw [← he]; exact (layer_labels hn hden hpos hm hrows (h.others_layer o ho)).1
  obtain ⟨c1, c2, c3⟩ := C53_layer_tree_partial r.layers.length (layerLabels r.layers) hdense
  obtain ⟨d1, d2, d3⟩ := C53_dictionary (buildClusterTree r.layers.length (layerLabels r.layers))
  rw [← h.tree] at d1 d2 d3
  refine ⟨d1, fun l c => ?_, fun k ks hk l c hc => ?_, fun hlen => ?_⟩
  · have hlay : (∃ layer, r.layers[l]? = some layer ∧ 0 ≤ c ∧ c ∈ layer.labels) ↔ l < r.layers.length ∧ 0 ≤ c ∧ c ∈ layerLabels r.layers l := by
      unfold layerLabels
      constructor
      · rintro ⟨layer, e1, e2, e3⟩
        exact ⟨(List.getElem?_eq_some_iff.1 e1).1, e2, by rw [e1]; exact e3⟩
      · rintro ⟨e1, e2, e3⟩
        rw [List.getElem?_eq_getElem e1] at e3
        exact ⟨_, List.getElem?_eq_getElem e1, e2, e3⟩
    rw [hlay, ← c2 l c]
    constructor
    · rintro ⟨k, ks, hk, hc⟩
      rw [(d3 k ks hk).2] at hc
      obtain ⟨row, hr, he⟩ := List.mem_map.1 hc
      exact List.mem_map.2 ⟨row, (List.mem_filter.1 hr).1, he⟩
    · intro hc
      obtain ⟨row, hr, he⟩ := List.mem_map.1 hc
      obtain ⟨ks, h1, h2⟩ := d2 row hr
      exact ⟨_, ks, h1, he ▸ h2⟩
  · rw [(d3 k ks hk).2] at hc
    obtain ⟨row, hr, he⟩ := List.mem_map.1 hc
    have hk' := of_decide_eq_true (List.mem_filter.1 hr).2
    replace hr := (List.mem_filter.1 hr).1
    simp only [Prod.mk.injEq] at he
    obtain ⟨rfl, rfl⟩ := he
    subst hk'
    rcases c3 row hr with h | ⟨h1, h2, h3⟩
    · exact .inl h
    · exact .inr ⟨by rw [h1, h2], h3⟩
  · obtain ⟨o, ho', he, -⟩ := h.best_other (h.others_ne hlen)
    obtain ⟨_, e2, e3⟩ := layer_labels hn hden hpos hm hrows (h.others_layer o ho')
    have hs := (h.others_layer o ho').size.1
    refine ⟨o.2.1.length, (h.others_layer o ho').two.1, ?_, fun i hi => ?_⟩
    · rw [he]; exact e2
    · rw [he]
      exact Nat.lt_of_le_of_lt hs (e3 i hi)

/-- **C86** (for a spanning tree without infinite edges).  The tree of the layers is right: its entries have different parents; its children are exactly
the clusters of the layers, by the labels in use; each is listed under the nearest cluster of a later layer that shares a sample with it, or under
the artificial root `(number of layers, 0)` if there is none.  If there is more than one layer then `labels_` has at least two clusters, numbered without
a gap, each of more than `base_min_cluster_size` samples.
Missing: infinite edges, for which both can fail, `C86_infinite_edges`. -/
theorem C86_layer_tree_partial (n : ℕ) (hn : 2 ≤ n) (core : List (WithTop K)) (edges : List (Edge (WithTop K))) (ht : SpanningTree n edges)
    (hfin : ∀ e ∈ edges, e.w ≠ ⊤)
    (sortE : List (Edge (WithTop K)) → List (Edge (WithTop K))) (hsortE : ∀ l, (sortE l).Perm l ∧ (sortE l).Pairwise fun a b => a.w ≤ b.w)
    (lamSearch lam : WithTop K → K) (hpos : ∀ d, 0 ≤ lam d) (hlam : ∀ d, d ≠ ⊤ → lam d ≠ 0)
    (expInv : K → K) (hexp : ∀ x, 0 < x → expInv x ≤ 1) (order : (ℕ → K) → List ℕ → List ℕ)
    (horder : ∀ x l, (order x l).Perm l ∧ (order x l).Pairwise fun a b => x b ≤ x a) (sortLayers : List (Layer K) → List (Layer K))
    (hsort : ∀ l, (sortLayers l).Perm l ∧ (sortLayers l).Pairwise fun a b => maxLabel b.labels ≤ maxLabel a.labels) (thr : ℚ) (maxLayers : ℕ)
    (hmax : 1 ≤ maxLayers) (m : ℕ) (hm : 2 ≤ m) :
    ∃ r : PlscanFit K, plscanFit expInv order sortLayers sortE lamSearch lam thr maxLayers m none n core edges = some r ∧
      (r.tree.map Prod.fst).Nodup ∧
      (∀ l c, (∃ k ks, (k, ks) ∈ r.tree ∧ (l, c) ∈ ks) ↔ ∃ layer, r.layers[l]? = some layer ∧ 0 ≤ c ∧ c ∈ layer.labels) ∧
      (∀ k ks, (k, ks) ∈ r.tree → ∀ l c, (l, c) ∈ ks → LayerParent r.layers.length (layerLabels r.layers) k.1 k.2 l c ∨
        (k = (r.layers.length, 0) ∧ ∀ pl p, l < pl → pl < r.layers.length → 0 ≤ p → ¬ Shares (layerLabels r.layers) pl p l c)) ∧
      (1 < r.layers.length → ∃ t : ℕ, 2 ≤ t ∧ (∀ v ∈ r.labels, -1 ≤ v ∧ v < t) ∧
        ∀ i : ℕ, i < t → m < ((Finset.range n).filter fun x => r.labels[x]? = some (i : ℤ)).card) := by
  obtain ⟨r, base, leaves, others, g1, h⟩ := fit_shape n hn core edges ht sortE hsortE lamSearch lam hpos expInv hexp order horder sortLayers hsort thr
    maxLayers hmax m hm
  obtain ⟨hden, hrows⟩ := fit_tree hn core ht hfin hsortE
  exact ⟨r, g1, shape_tree hn hden hm hm hpos (hrows lam hlam m hm) (hrows lam hlam m hm) h⟩

end

/-- **C84**, parameters: `PLSCAN` accepts exactly positive integers (for `base_n_clusters` also `None`), the two algorithms, and cannot-link
constraints with `kruskal` only. -/
theorem C84_arguments (a : PlscanArgs K) : checkPlscanArgs a = .ok () ↔
    (∃ z : ℤ, 0 < z ∧ a.minSamples = .int z) ∧ (∃ z : ℤ, 0 < z ∧ a.maxLayers = .int z) ∧ (∃ z : ℤ, 0 < z ∧ a.baseMinClusterSize = .int z) ∧
    (a.baseNClusters = .pyNone ∨ ∃ z : ℤ, 0 < z ∧ a.baseNClusters = .int z) ∧ (a.algorithm = "boruvka" ∨ a.algorithm = "kruskal") ∧
    (a.hasCannotLink = true → a.algorithm = "kruskal") := by
  have hint : ∀ v : PyVal K, (¬ v.isInt ∨ v.intNonpos) ↔ ¬ ∃ z : ℤ, 0 < z ∧ v = .int z := by
    intro v
    cases v <;> simp [PyVal.isInt, PyVal.intNonpos]
  have hnone : ∀ v : PyVal K, v.isNone = true ↔ v = .pyNone := by
    intro v
    cases v <;> simp [PyVal.isNone]
  have hbase : (¬ a.baseNClusters.isNone = true ∧ (¬ a.baseNClusters.isInt = true ∨ a.baseNClusters.intNonpos = true)) ↔
      ¬ (a.baseNClusters = .pyNone ∨ ∃ z : ℤ, 0 < z ∧ a.baseNClusters = .int z) := by rw [hint, hnone, not_or]
  have halg : a.algorithm ∉ ["boruvka", "kruskal"] ↔ ¬ (a.algorithm = "boruvka" ∨ a.algorithm = "kruskal") := by simp
  unfold checkPlscanArgs
  split_ifs with h1 h2 h3 h4 h5 h6
  · exact iff_of_false (by simp) fun h => (hint _).1 h1 h.1
  · exact iff_of_false (by simp) fun h => (hint _).1 h2 h.2.1
  · exact iff_of_false (by simp) fun h => (hint _).1 h3 h.2.2.1
  · exact iff_of_false (by simp) fun h => hbase.1 h4 h.2.2.2.1
  · exact iff_of_false (by simp) fun h => h6.2 (h.2.2.2.2.2 h6.1)
  · rw [hint, not_not] at h1 h2 h3
    rw [hbase, not_not] at h4
    rw [← not_not (a := a.algorithm ∈ _), halg, not_not] at h5
    exact iff_of_true rfl ⟨h1, h2, h3, h4, h5, fun h => by_contra fun h' => h6 ⟨h, h'⟩⟩
  · exact iff_of_false (by simp) fun h => halg.1 h5 h.2.2.2.2.1

/-- **C84**, input: `fit` goes on exactly for a valid graph without sample weights and `metric='precomputed'`, or for a dense matrix (with `pynndescent`
installed unless the metric is euclidean). -/
theorem C84_input (a : PlscanInput) : checkPlscanInput a = .ok () ↔
    (a.metric = "precomputed" ∧ a.graphOk = true ∧ a.hasWeights = false) ∨
    (a.metric ≠ "precomputed" ∧ a.isSparse = false ∧ (a.metric ≠ "euclidean" → a.hasPynndescent = true)) := by
  unfold checkPlscanInput
  split_ifs <;> simp_all

example : checkPlscanInput ⟨"euclidean", false, false, true, false⟩ = .ok () := rfl

/-! ## Concrete cases -/

/-- The functions of the code meet the hypotheses on `lam` and `expInv`. -/
theorem C84_code_functions : (∀ d, 0 ≤ plscanLam d) ∧ (∀ d, d ≠ ⊤ → plscanLam d ≠ 0) ∧ ∀ x : ℝ, 0 < x → Real.exp (-1 / x) ≤ 1 := by
  refine ⟨fun d => ?_, fun d hd => ?_, fun x hx => ?_⟩
  · match d with
    | ⊤ => exact le_rfl
    | (d : ℝ) => exact (Real.exp_pos _).le
  · match d with
    | ⊤ => exact absurd rfl hd
    | (d : ℝ) => exact (Real.exp_pos _).ne'
  · rw [Real.exp_le_one_iff, neg_div]
    exact neg_nonpos.2 (by positivity)

/-- A positive antitone function in the place of `exp(-d)`, with rational values. -/
def plLam : WithTop ℚ → ℚ
  | ⊤ => 0
  | (d : ℚ) => 1 / (1 + max d 0)

theorem plLam_nonneg (d : WithTop ℚ) : 0 ≤ plLam d := by
  match d with
  | ⊤ => exact le_rfl
  | (d : ℚ) => exact div_nonneg zero_le_one (add_nonneg zero_le_one (le_max_right _ _))

theorem plLam_ne_zero (d : WithTop ℚ) (h : d ≠ ⊤) : plLam d ≠ 0 := by
  match d with
  | ⊤ => exact absurd rfl h
  | (d : ℚ) => exact (div_pos one_pos (add_pos_of_pos_of_nonneg one_pos (le_max_right _ _))).ne'

/-- A stable sort of the edges. -/
def plSort (l : List (Edge (WithTop ℚ))) : List (Edge (WithTop ℚ)) := l.insertionSort fun a b => a.w ≤ b.w

theorem plSort_sorts (l : List (Edge (WithTop ℚ))) : (plSort l).Perm l ∧ (plSort l).Pairwise fun a b => a.w ≤ b.w := by
  haveI : Std.Total fun a b : Edge (WithTop ℚ) => a.w ≤ b.w := ⟨fun a b => le_total _ _⟩
  haveI : IsTrans (Edge (WithTop ℚ)) fun a b => a.w ≤ b.w := ⟨fun a b c h1 h2 => h1.trans h2⟩
  exact ⟨List.perm_insertionSort _ _, List.pairwise_insertionSort _ _⟩

/-- Two triples at distance `a` from each other and five samples at distance `b` from them. -/
def exPl (a b : ℚ) : List (Edge (WithTop ℚ)) :=
  [⟨0, 1, 0⟩, ⟨1, 2, 0⟩, ⟨2, 3, a⟩, ⟨3, 4, 0⟩, ⟨4, 5, 0⟩, ⟨5, 6, b⟩, ⟨6, 7, 0⟩, ⟨7, 8, 0⟩, ⟨8, 9, 0⟩, ⟨9, 10, 0⟩]

theorem exPl_tree (a b : ℚ) : SpanningTree 11 (exPl a b) := by
  have hstep : ∀ i, i < 10 → Conn (exPl a b) i (i + 1) := by
    intro i hi
    have hl : i < (exPl a b).length := hi
    have h1 : ((exPl a b)[i]).u = i ∧ ((exPl a b)[i]).v = i + 1 := by
      unfold exPl
      interval_cases i <;> exact ⟨rfl, rfl⟩
    have := Conn.edge (List.getElem_mem hl)
    rwa [h1.1, h1.2] at this
  have h0 : ∀ x, x < 11 → Conn (exPl a b) x 0 := by
    intro x hx
    induction x with
    | zero => exact Conn.refl _ _
    | succ x ih => exact (hstep x (by omega)).symm.trans (ih (by omega))
  have hconn : ∀ x y, x < 11 → y < 11 → Conn (exPl a b) x y := fun x y hx hy => (h0 x hx).trans (h0 y hy).symm
  have hrange : InRange 11 (exPl a b) := by unfold InRange exPl; simp
  exact ⟨hrange, acyclic_of_connected hrange hconn (by rfl), hconn⟩

/-- Two layers: two triples and the five; all six and the five. -/
theorem exPl_fit : (plscanFit exExpInv exOrder exSortLayers plSort plLam plLam (1 / 2) 10 2 none 11 [1, 1] (exPl 1 100)).map
      (fun r => (r.labels, r.layers.map fun l => l.labels)) =
    some ([0, 0, 0, 0, 0, 0, 1, 1, 1, 1, 1], [[2, 2, 2, 1, 1, 1, 0, 0, 0, 0, 0], [0, 0, 0, 0, 0, 0, 1, 1, 1, 1, 1]]) := by decide +kernel

/-- Its tree of layers: the triples below the six. -/
theorem exPl_layer_tree : (plscanFit exExpInv exOrder exSortLayers plSort plLam plLam (1 / 2) 10 2 none 11 [1, 1] (exPl 1 100)).map PlscanFit.tree =
    some [((1, 0), [(0, 2), (0, 1)]), ((1, 1), [(0, 0)]), ((2, 0), [(1, 0), (1, 1)])] := by decide +kernel

/-- The hypotheses of C84 and C86 hold for it. -/
example : ∃ r : PlscanFit ℚ, plscanFit exExpInv exOrder exSortLayers plSort plLam plLam (1 / 2) 10 2 none 11 [1, 1] (exPl 1 100) = some r ∧
    r.layers.length ≤ 10 := by
  obtain ⟨r, _, _, h1, _, _, h2, _⟩ := C84_fit 11 (by decide) [1, 1] (exPl 1 100) (exPl_tree 1 100) plSort plSort_sorts plLam plLam plLam_nonneg exExpInv
    (fun x hx => by unfold exExpInv; rw [div_le_one (by linarith)]; linarith) exOrder exOrder_sorts exSortLayers exSortLayers_sorts (1 / 2) 10 (by decide) 2
    (by decide)
  exact ⟨r, h1, h2⟩

example : ∃ r : PlscanFit ℚ, plscanFit exExpInv exOrder exSortLayers plSort plLam plLam (1 / 2) 10 2 none 11 [1, 1] (exPl 1 100) = some r ∧
    (r.tree.map Prod.fst).Nodup := by
  obtain ⟨r, h1, h2, _⟩ := C86_layer_tree_partial 11 (by decide) [1, 1] (exPl 1 100) (exPl_tree 1 100) (by decide) plSort plSort_sorts plLam plLam plLam_nonneg
    plLam_ne_zero exExpInv (fun x hx => by unfold exExpInv; rw [div_le_one (by linarith)]; linarith) exOrder exOrder_sorts exSortLayers exSortLayers_sorts
    (1 / 2) 10 (by decide) 2 (by decide)
  exact ⟨r, h1, h2⟩

/-- The hypothesis of C85 holds for core distances 1 and 2. -/
example : plscanFit exExpInv exOrder exSortLayers plSort plLam plLam (1 / 2) 10 2 none 11 [((100 : ℚ) : WithTop ℚ), (200 : ℚ)] (exPl 100 10000) =
    plscanFit exExpInv exOrder exSortLayers plSort plLam plLam (1 / 2) 10 2 none 11 [((1 : ℚ) : WithTop ℚ), (2 : ℚ)] (exPl 1 100) := by
  refine Eq.trans ?_ (C85_scale_partial 11 (c := (100 : ℚ)) (by norm_num) [((1 : ℚ) : WithTop ℚ), (2 : ℚ)] (exPl 1 100) ⟨1, 2, by simp, by simp, by norm_num⟩
    plSort plLam plLam exExpInv exOrder exSortLayers (1 / 2) 10 2 none)
  congr 1 <;> decide +kernel

/-- **C85** fails when all finite core distances are equal, as on a regular grid: the same samples in a unit a hundred times smaller get three
clusters instead of two.  (`plLam` and `exExpInv` stand for the exponentials; with those it happens between other units.) -/
theorem C85_equal_core_distances :
    (plscanFit exExpInv exOrder exSortLayers plSort plLam plLam (1 / 2) 10 2 none 11 [1, 1] (exPl 1 100)).map PlscanFit.labels =
      some [0, 0, 0, 0, 0, 0, 1, 1, 1, 1, 1] ∧
    (plscanFit exExpInv exOrder exSortLayers plSort plLam plLam (1 / 2) 10 2 none 11 (([1, 1] : List (WithTop ℚ)).map (scaleBy 100))
        ((exPl 1 100).map (Edge.mapW (scaleBy 100)))).map PlscanFit.labels = some [2, 2, 2, 1, 1, 1, 0, 0, 0, 0, 0] := by
  constructor <;> decide +kernel

/-- Six isolated samples, two triples and four samples, connected by `bridge_forest_with_inf`. -/
def exBridged : List (Edge (WithTop ℚ)) :=
  [⟨6, 7, 1⟩, ⟨7, 8, 1⟩, ⟨9, 10, 1⟩, ⟨10, 11, 1⟩, ⟨12, 13, 1⟩, ⟨13, 14, 1⟩, ⟨14, 15, 1⟩, ⟨8, 9, 3⟩,
    ⟨0, 1, ⊤⟩, ⟨1, 2, ⊤⟩, ⟨2, 3, ⊤⟩, ⟨3, 4, ⊤⟩, ⟨4, 5, ⊤⟩, ⟨5, 6, ⊤⟩, ⟨6, 12, ⊤⟩]

theorem exBridged_tree : SpanningTree 16 exBridged := by
  have he : ∀ e ∈ exBridged, Conn exBridged e.u e.v := fun e h => Conn.edge h
  have h0 : ∀ x, x < 16 → Conn exBridged x 6 := by
    have f : ∀ u v (w : WithTop ℚ), ⟨u, v, w⟩ ∈ exBridged → Conn exBridged u v := fun u v w h => he ⟨u, v, w⟩ h
    have c5 := f 5 6 ⊤ (by decide)
    have c4 := (f 4 5 ⊤ (by decide)).trans c5
    have c3 := (f 3 4 ⊤ (by decide)).trans c4
    have c2 := (f 2 3 ⊤ (by decide)).trans c3
    have c1 := (f 1 2 ⊤ (by decide)).trans c2
    have c0 := (f 0 1 ⊤ (by decide)).trans c1
    have c7 := (f 6 7 1 (by decide)).symm
    have c8 := (f 7 8 1 (by decide)).symm.trans c7
    have c9 := (f 8 9 3 (by decide)).symm.trans c8
    have c10 := (f 9 10 1 (by decide)).symm.trans c9
    have c11 := (f 10 11 1 (by decide)).symm.trans c10
    have c12 := (f 6 12 ⊤ (by decide)).symm
    have c13 := (f 12 13 1 (by decide)).symm.trans c12
    have c14 := (f 13 14 1 (by decide)).symm.trans c13
    have c15 := (f 14 15 1 (by decide)).symm.trans c14
    intro x hx
    interval_cases x <;> first | assumption | exact Conn.refl _ _
  have hconn : ∀ x y, x < 16 → y < 16 → Conn exBridged x y := fun x y hx hy => (h0 x hx).trans (h0 y hy).symm
  exact ⟨by decide, acyclic_of_connected (by decide) hconn (by decide), hconn⟩

/-- **C86** with infinite edges.  The isolated samples form a cluster that labels nobody: label 1 is unused in both layers, yet the tree lists it; and
the four samples are cluster 0 of both layers, but the one is not listed below the other. -/
theorem C86_infinite_edges : SpanningTree 16 exBridged ∧
    (plscanFit exExpInv exOrder exSortLayers plSort plLam plLam (9 / 10) 10 2 none 16 [1, 1] exBridged).map (fun r => r.layers.map fun l => l.labels) =
      some [[-1, -1, -1, -1, -1, -1, 3, 3, 3, 2, 2, 2, 0, 0, 0, 0], [-1, -1, -1, -1, -1, -1, 2, 2, 2, 2, 2, 2, 0, 0, 0, 0]] ∧
    (plscanFit exExpInv exOrder exSortLayers plSort plLam plLam (9 / 10) 10 2 none 16 [1, 1] exBridged).map PlscanFit.tree =
      some [((1, 2), [(0, 3), (0, 2)]), ((2, 0), [(1, 0), (1, 1), (1, 2), (0, 0), (0, 1)])] :=
  ⟨exBridged_tree, by decide +kernel, by decide +kernel⟩

/-- **C84** needs `base_min_cluster_size` at least 2, although 1 is accepted: two groups of three samples then get the labels below, four of the six
samples being noise and label 1 being unused. -/
theorem C84_size_one : checkPlscanArgs (K := ℚ) ⟨.int 5, .int 10, .int 1, .pyNone, "boruvka", false⟩ = .ok () ∧
    (plscanFit exExpInv exOrder exSortLayers plSort plLam plLam (1 / 2) 10 1 none 6 [1, 1]
      [⟨0, 1, 1⟩, ⟨1, 2, 2⟩, ⟨3, 4, 1⟩, ⟨4, 5, 2⟩, ⟨2, 3, 9⟩]).map PlscanFit.labels = some [-1, 2, -1, -1, 0, -1] :=
  ⟨rfl, by decide +kernel⟩

end Verif
