import Verif.Props.Plscan
import Verif.Props.RawFit

/-!
# C105: the layers of `PLSCAN` are sound clusterings of the rows
-/

namespace Verif
variable {W K α β : Type*}

section
variable [LinearOrder W]

/-- A component of the edges before some edge, in a sorted list of the edges of a minimum spanning tree with weights changed by a strictly increasing
function: it holds together at a length at which nothing outside is nearer. -/
theorem component_sandwich {n : ℕ} {g t es : List (Edge W)} (hf : MinSpanningForest g t) (ht : SpanningTree n t) {f : W → W} (hmono : StrictMono f)
    (hp : es.Perm (t.map (Edge.mapW f))) (hsort : es.Pairwise fun a b => a.w ≤ b.w) {P : ℕ → Prop} [DecidablePred P] (hP : ∀ x, P x → x < n)
    {j : ℕ} (hj : j < es.length) (hc : ∀ x y, P x → y < n → (P y ↔ Conn (es.take j) x y)) :
    ∃ τ : W, (∀ x y, P x → P y → Conn (t.filter fun e => decide ((P e.u ∧ P e.v) ∧ e.w ≤ τ)) x y) ∧
      ∀ x y, P x → y < n → Conn (below τ g) x y → P y := by
  have hmem : ∀ e ∈ es, ∃ e' ∈ t, e = Edge.mapW f e' := fun e he => by
    obtain ⟨e', h1, h2⟩ := List.mem_map.1 (hp.mem_iff.1 he)
    exact ⟨e', h1, h2.symm⟩
  have hsplit : es.take j ++ es[j] :: es.drop (j + 1) = es := by
    rw [List.getElem_cons_drop, List.take_append_drop]
  have hs2 := hsort
  rw [← hsplit, List.pairwise_append, List.pairwise_cons] at hs2
  obtain ⟨e0, he0, he0'⟩ := hmem es[j] (List.getElem_mem hj)
  have hw0 : es[j].w = f e0.w := by rw [he0']; rfl
  refine ⟨e0.w, fun x y hx hy => ?_, fun x y hx hy hxy => ?_⟩
  · have hin := Conn.inside (fun _ h => h) P ((hc x y hx (hP y hy)).1 hy) fun z hz => by
      have hzn : z < n := by
        rcases hz.inRange (n := n) (fun e he => by
          obtain ⟨e', h1, rfl⟩ := hmem e (List.mem_of_mem_take he)
          exact ht.inRange e' h1) with h | h
        · exact h ▸ hP x hx
        · exact h.2
      exact (hc x z hx hzn).2 hz
    refine (conn_mapW f _ x y).1 (hin.mono fun e he => ?_)
    obtain ⟨he1, he2⟩ := List.mem_filter.1 he
    obtain ⟨e', h1, rfl⟩ := hmem e (List.mem_of_mem_take he1)
    refine List.mem_map.2 ⟨e', List.mem_filter.2 ⟨h1, decide_eq_true ⟨of_decide_eq_true he2, hmono.le_iff_le.1 ?_⟩⟩, rfl⟩
    rw [← hw0]
    exact hs2.2.2 _ he1 _ List.mem_cons_self
  · rw [← hf.conn_below] at hxy
    refine (hc x y hx hy).2 (((conn_mapW f _ x y).2 hxy).mono fun e he => ?_)
    obtain ⟨e', he', rfl⟩ := List.mem_map.1 he
    obtain ⟨h6, h7⟩ := mem_below.1 he'
    have hin : Edge.mapW f e' ∈ es := hp.mem_iff.2 (List.mem_map.2 ⟨e', h6, rfl⟩)
    have hlt : (Edge.mapW f e').w < es[j].w := by rw [hw0]; exact hmono h7
    rw [← hsplit, List.mem_append, List.mem_cons] at hin
    rcases hin with h | h | h
    · exact h
    · exact absurd hlt (by rw [h]; exact lt_irrefl _)
    · exact absurd hlt (not_lt.2 (hs2.2.1.1 _ h))

/-- Labels of the rows whose groups hold together and keep apart, in terms of the graph of distances between rows, are a sound clustering. -/
theorem soundGroups_of_conn [AddCommMonoid K] [One K] [LE K] {reach : α → α → W} (hsym : ∀ x y, reach x y = reach y x) [OrderTop W] {X : List α}
    {t : List (Edge W)} (hmin : MinSpanningForest (completeGraph X.length (rowDist reach X)) t) {wt : ℕ → K} {mcs : K} {labels : List ℤ} {strengths : List K}
    (hlab : LabelledRows (fun _ => true) X labels strengths)
    (hsize : ∀ l ∈ labels, l ≠ -1 → 0 ≤ l ∧ mcs ≤ ∑ i ∈ (Finset.range X.length).filter fun i => labels[i]? = some l, wt i)
    (hcl : ∀ l ∈ labels, l ≠ -1 → ∃ τ : W,
      (∀ x y, labels[x]? = some l → labels[y]? = some l →
        Conn (t.filter fun e => decide ((labels[e.u]? = some l ∧ labels[e.v]? = some l) ∧ e.w ≤ τ)) x y) ∧
      ∀ x y, labels[x]? = some l → y < X.length → Conn (below τ (completeGraph X.length (rowDist reach X))) x y → labels[y]? = some l) :
    SoundGroups (fun _ => true) reach wt mcs X labels strengths := by
  refine ⟨hlab, hsize, fun l hl hl0 => ?_⟩
  obtain ⟨τ, h1, h2⟩ := hcl l hl hl0
  have hget : ∀ i, labels[i]? = some l → ∃ x, X[i]? = some x := fun i hi => by
    have := (List.getElem?_eq_some_iff.1 hi).1
    rw [hlab.length.1] at this
    exact ⟨_, List.getElem?_eq_getElem this⟩
  refine ⟨τ, fun a c ha hc => ?_, fun a c ha hac => ?_⟩
  · refine (h1 a c ha hc).lift id fun x y ⟨e, he, hends⟩ => ?_
    obtain ⟨het, hd⟩ := List.mem_filter.1 he
    obtain ⟨⟨hu, hv⟩, hw⟩ := of_decide_eq_true hd
    have hew := (mem_completeGraph.1 (hmin.forest.sub.subset het)).2.2.2
    obtain ⟨xu, hxu⟩ := hget _ hu
    obtain ⟨xv, hxv⟩ := hget _ hv
    rw [rowDist_eq hxu hxv] at hew
    rw [hew] at hw
    rcases hends with ⟨rfl, rfl⟩ | ⟨rfl, rfl⟩
    · exact ⟨hu, hv, xu, xv, hxu, hxv, rfl, rfl, hw⟩
    · exact ⟨hv, hu, xv, xu, hxv, hxu, rfl, rfl, by rw [hsym]; exact hw⟩
  · obtain ⟨x, y, hx, hy, -, -, hlt⟩ := hac
    have hcn := (List.getElem?_eq_some_iff.1 hy).1
    refine h2 a c ha hcn ?_
    by_cases he : a = c
    · subst he; exact Conn.refl _ _
    · refine Conn.edge (e := ⟨a, c, reach x y⟩) (mem_below.2 ⟨mem_completeGraph.2 ⟨(List.getElem?_eq_some_iff.1 hx).1, hcn, he, ?_⟩, hlt⟩)
      exact (rowDist_eq (dist := reach) hx hy).symm

end

section
variable [Field K] [LinearOrder K] [IsStrictOrderedRing K]

/-- Shifting and scaling keeps the order of lengths. -/
theorem normaliseEdges_strict (core : List (WithTop K)) (edges : List (Edge (WithTop K))) :
    ∃ f : WithTop K → WithTop K, StrictMono f ∧ (∀ w, f w = ⊤ ↔ w = ⊤) ∧ normaliseEdges core edges = edges.map (Edge.mapW f) := by
  have hid : edges = edges.map (Edge.mapW id) := by
    rw [show (Edge.mapW id : Edge (WithTop K) → Edge (WithTop K)) = id from rfl, List.map_id]
  unfold normaliseEdges
  split
  · exact ⟨id, strictMono_id, fun _ => Iff.rfl, hid⟩
  · next mn _ =>
    split
    · next hlt =>
      refine ⟨WithTop.map fun x => (x - mn) / (meanOf (finiteCore core) - mn), WithTop.strictMono_map_iff.2 fun a b hab => ?_,
        fun w => WithTop.map_eq_top_iff, rfl⟩
      exact div_lt_div_of_pos_right (sub_lt_sub_right hab _) (sub_pos.2 hlt)
    · exact ⟨id, strictMono_id, fun _ => Iff.rfl, hid⟩

variable [Inhabited K]

/-- The samples of a label of a layer are those of a cluster of the condensed tree. -/
theorem label_cluster {V : Type*} [LinearOrder V] [Inhabited V] {n k : ℕ} {linkage : List (LRow V K)} {lam : V → K} {m : ℕ}
    (hct : CondTree n k (searchTree lam linkage m)) (hlam : ∀ row ∈ searchTree lam linkage m, row.lam ≠ 0) {sel : List ℕ} (hn : n ∉ sel)
    {labels : List ℤ} (hl : LabelsMean n (searchTree lam linkage m) sel none labels) {l : ℤ} (hmem : l ∈ labels) (hl0 : l ≠ -1) :
    0 ≤ l ∧ ∃ c ∈ sel, ∀ z, labels[z]? = some l ↔ z < n ∧ CDesc (searchTree lam linkage m) c z := by
  obtain ⟨hlen, hrows⟩ := hl
  have hrowOf : ∀ x, x < n → ∃ row ∈ searchTree lam linkage m, row.child = x := fun x hx => by
    obtain ⟨row, hrow, he⟩ := List.mem_map.1 ((hct.children x).2 (.inl hx))
    exact ⟨row, hrow, he⟩
  obtain ⟨x, hx⟩ := List.mem_iff_getElem?.1 hmem
  have hxn : x < n := by rw [← hlen]; exact (List.getElem?_eq_some_iff.1 hx).1
  obtain ⟨row, hrow, rfl⟩ := hrowOf x hxn
  have h0 : 0 ≤ l := by have := (hrows row hrow hxn).2.2 l hx; omega
  obtain ⟨i, rfl⟩ := Int.eq_ofNat_of_zero_le h0
  obtain ⟨_, c, hc, _⟩ := ((hrows row hrow hxn).1 hn i).1 hx
  refine ⟨h0, c, (List.mem_insertionSort _).1 (List.mem_of_getElem? hc), fun z => ⟨fun hz => ?_, fun ⟨hzn, hz⟩ => ?_⟩⟩
  · have hzn : z < n := by rw [← hlen]; exact (List.getElem?_eq_some_iff.1 hz).1
    obtain ⟨row', hrow', rfl⟩ := hrowOf z hzn
    obtain ⟨_, c', hc', hd⟩ := ((hrows row' hrow' hzn).1 hn i).1 hz
    rw [hc, Option.some.injEq] at hc'
    exact ⟨hzn, hc' ▸ hd⟩
  · obtain ⟨row', hrow', rfl⟩ := hrowOf z hzn
    exact ((hrows row' hrow' hzn).1 hn i).2 ⟨hlam _ hrow', c, hc, hz⟩

/-- Labels that mark clusters of the condensed tree are a sound clustering of the rows. -/
theorem labels_sound {reach : α → α → WithTop K} (hsym : ∀ x y, reach x y = reach y x) {X : List α} (h2 : 2 ≤ X.length) {t es : List (Edge (WithTop K))}
    (hspan : SpanningTree X.length t) (hmin : MinSpanningForest (completeGraph X.length (rowDist reach X)) t) {f : WithTop K → WithTop K}
    (hmono : StrictMono f) (hp : es.Perm (t.map (Edge.mapW f))) (hsort : es.Pairwise fun a b => a.w ≤ b.w) {lam : WithTop K → K} {m : ℕ} (hm : 2 ≤ m)
    (hlam : ∀ row ∈ searchTree lam (mstToLinkage (fun _ => (1 : K)) es) m, row.lam ≠ 0) {sel : List ℕ} {k : ℕ}
    (hct : CondTree X.length k (searchTree lam (mstToLinkage (fun _ => (1 : K)) es) m)) (hsel : ∀ c ∈ sel, X.length < c ∧ c < X.length + k)
    {labels : List ℤ} (hl : LabelsMean X.length (searchTree lam (mstToLinkage (fun _ => (1 : K)) es) m) sel none labels) {strengths : ℕ → K}
    (hstr : ∀ x, x < X.length → 0 ≤ strengths x ∧ strengths x ≤ 1 ∧ (labels[x]? = some (-1) → strengths x = 0)) {s : ℕ}
    (hcard : ∀ c ∈ sel, ∀ Y : Finset ℕ, (∀ x, x ∈ Y ↔ x < X.length ∧ CDesc (searchTree lam (mstToLinkage (fun _ => (1 : K)) es) m) c x) → s ≤ Y.card) :
    SoundGroups (fun _ => true) reach (fun _ => (1 : K)) s X labels ((List.range X.length).map strengths) := by
  classical
  have hnsel : X.length ∉ sel := fun h => lt_irrefl _ (hsel _ h).1
  have hm' : (1 : K) < m := by exact_mod_cast (show 1 < m by omega)
  have hes : SpanningTree X.length es := ((spanningTree_mapW f t).2 hspan).perm hp
  refine soundGroups_of_conn hsym hmin ⟨⟨hl.1, by simp⟩, fun i x _ h => by simp at h, fun i v hv => ?_⟩ (fun l hmem hl0 => ?_) fun l hmem hl0 => ?_
  · have hi : i < X.length := by have := (List.getElem?_eq_some_iff.1 hv).1; simpa using this
    rw [List.getElem?_map, List.getElem?_range hi, Option.map_some, Option.some.injEq] at hv
    subst hv
    exact hstr i hi
  · obtain ⟨h0, c, hc, hz⟩ := label_cluster hct hlam hnsel hl hmem hl0
    refine ⟨h0, ?_⟩
    rw [Finset.sum_const, nsmul_eq_mul, mul_one, Nat.cast_le]
    refine hcard c hc _ fun x => ?_
    rw [Finset.mem_filter, Finset.mem_range, hz x]
    exact ⟨fun h => h.2, fun h => ⟨h.1, h⟩⟩
  · obtain ⟨h0, c, hc, hz⟩ := label_cluster hct hlam hnsel hl hmem hl0
    obtain ⟨row, hrow, rfl⟩ := List.mem_map.1 ((hct.children c).2 (.inr (hsel c hc)))
    obtain ⟨j, e, hj, _, hcomp⟩ := C17_cluster_is_component X.length h2 (fun _ => (1 : K)) es hes (m : K) (fun _ _ => zero_le_one) (fun _ _ => hm') none lam
      row hrow (hsel _ hc).1.le
    exact component_sandwich hmin hspan hmono hp hsort (P := fun z => labels[z]? = some l) (fun x hx => ((hz x).1 hx).1)
      (List.getElem?_eq_some_iff.1 hj).1 fun x y hx hy => by
        obtain ⟨h3, h4⟩ := (hz x).1 hx
        rw [hz y, ← hcomp x y h4 h3 hy]
        exact ⟨fun h => h.2, fun h => ⟨hy, h⟩⟩


omit [IsStrictOrderedRing K] [Inhabited K] in
/-- If the top cluster is the only one then everything is noise or cluster 0. -/
theorem top_labels {n k : ℕ} {rows : List (CRow K K)} (hct : CondTree n k rows) {sel : List ℕ} (hn : n ∈ sel) {labels : List ℤ}
    (hl : LabelsMean n rows sel none labels) : ∀ l ∈ labels, l = -1 ∨ l = 0 := by
  intro l hmem
  obtain ⟨x, hx⟩ := List.mem_iff_getElem?.1 hmem
  have hxn : x < n := by rw [← hl.1]; exact (List.getElem?_eq_some_iff.1 hx).1
  obtain ⟨row, hrow, rfl⟩ := List.mem_map.1 ((hct.children x).2 (.inl hxn))
  obtain ⟨_, h2, h3⟩ := hl.2 row hrow hxn
  have := h3 l hx
  by_cases h0 : l = -1
  · exact .inl h0
  · obtain ⟨i, rfl⟩ := Int.eq_ofNat_of_zero_le (show 0 ≤ l by omega)
    have := ((h2 hn i).1 hx).1
    right; omega

/-- **C105** for any base layer. -/
theorem shape_sound {reach : α → α → WithTop K} (hsym : ∀ x y, reach x y = reach y x) {X : List α} (h2 : 2 ≤ X.length) {core : List (WithTop K)}
    {edges : List (Edge (WithTop K))} (hspan : SpanningTree X.length edges) (hmin : MinSpanningForest (completeGraph X.length (rowDist reach X)) edges)
    (hfin : ∀ e ∈ edges, e.w ≠ ⊤)
    {sortE : List (Edge (WithTop K)) → List (Edge (WithTop K))} (hsortE : ∀ l, (sortE l).Perm l ∧ (sortE l).Pairwise fun a b => a.w ≤ b.w)
    {lamB lam : WithTop K → K} (hpos : ∀ d, 0 ≤ lam d) (hlamB : ∀ d, d ≠ ⊤ → lamB d ≠ 0) (hlam : ∀ d, d ≠ ⊤ → lam d ≠ 0) {mB m : ℕ} (hmB : 2 ≤ mB) (hle : mB ≤ m)
    {r : PlscanFit K} {base : Layer K} {leaves : List ℕ} {others : List (ℕ × List ℕ × Layer K)}
    (h : FitShape X.length (mstToLinkage (fun _ => (1 : K)) (sortE (normaliseEdges core edges))) lamB mB lam m r base leaves others) :
    (∃ layer ∈ r.layers, r.labels = layer.labels ∧ r.strengths = layer.strengths) ∧
      (1 < r.layers.length → SoundGroups (fun _ => true) reach (fun _ => (1 : K)) (m + 1 : ℕ) X r.labels ((List.range X.length).map r.strengths)) ∧
      (∀ o ∈ others, SoundGroups (fun _ => true) reach (fun _ => (1 : K)) (m + 1 : ℕ) X o.2.2.labels ((List.range X.length).map o.2.2.strengths)) ∧
      (SoundGroups (fun _ => true) reach (fun _ => (1 : K)) mB X base.labels ((List.range X.length).map base.strengths) ∨
        (others = [] ∧ LabelledRows (fun _ => true) X base.labels ((List.range X.length).map base.strengths) ∧ ∀ l ∈ base.labels, l = -1 ∨ l = 0)) := by
  classical
  have hm : 2 ≤ m := hmB.trans hle
  obtain ⟨f, hmono, hf1, hf2⟩ := normaliseEdges_strict core edges
  obtain ⟨hperm, hsorted⟩ := hsortE (normaliseEdges core edges)
  have hperm' : (sortE (normaliseEdges core edges)).Perm (edges.map (Edge.mapW f)) := by rw [← hf2]; exact hperm
  obtain ⟨hden, hr⟩ := fit_tree h2 core hspan hfin hsortE
  have hrows := hr lam hlam m hm
  have hrowsB := hr lamB hlamB mB hmB
  obtain ⟨k, hct, hcard⟩ := cluster_card h2 hden lam hm
  have hothers : ∀ o ∈ others, SoundGroups (fun _ => true) reach (fun _ => (1 : K)) (m + 1 : ℕ) X o.2.2.labels ((List.range X.length).map o.2.2.strengths) := by
    intro o ho
    have hl := h.others_layer o ho
    have hbig := layer_big h2 hden hpos hm hl
    have hselc : ∀ c ∈ o.2.1, X.length < c ∧ c < X.length + k := fun c hc => by
      refine ⟨hl.two.2 c hc, ?_⟩
      have h3 := hbig c hc ((Finset.range X.length).filter fun x => CDesc _ c x) fun x => by rw [Finset.mem_filter, Finset.mem_range]
      obtain ⟨x, hx⟩ := Finset.card_pos.1 (Nat.lt_of_le_of_lt (Nat.zero_le _) h3)
      obtain ⟨hxn, hx⟩ := Finset.mem_filter.1 hx
      rcases Relation.ReflTransGen.cases_head hx with h4 | ⟨d, ⟨row, hrow, hp, -⟩, -⟩
      · have := hl.two.2 c hc
        have := Finset.mem_range.1 hxn
        omega
      · rw [← hp]; exact (hct.parents row hrow).2
    have hms := hl.size.1
    refine labels_sound hsym h2 hspan hmin hmono hperm' hsorted hm hrows hct hselc hl.labels hl.strengths fun c hc Y hY => ?_
    have := hbig c hc Y hY
    omega
  refine ⟨h.best, fun hlen => ?_, hothers, ?_⟩
  · obtain ⟨o, ho, e1, e2⟩ := h.best_other (h.others_ne hlen)
    rw [e1, e2]
    exact hothers o ho
  obtain ⟨_, _, h3, ⟨kB, hctB, hleaf⟩, hstr⟩ := h.base_leaf
  by_cases htop : X.length ∈ leaves
  · right
    have hk1 := hctB.childless_root ((hleaf X.length).1 htop).2.2
    subst hk1
    refine ⟨by_contra fun hne => h.no_top h2 hden hmB hle hpos hne htop, ⟨⟨h3.1, by simp⟩, fun i x _ h => by simp at h, fun i v hv => ?_⟩, top_labels hctB htop h3⟩
    have hi : i < X.length := by have := (List.getElem?_eq_some_iff.1 hv).1; simpa using this
    rw [List.getElem?_map, List.getElem?_range hi, Option.map_some, Option.some.injEq] at hv
    subst hv
    exact hstr i hi
  · left
    obtain ⟨kB', hctB', hcardB⟩ := cluster_card h2 hden lamB hmB
    have hkk := CondTree.k_unique hctB hctB'
    subst hkk
    have hselc : ∀ c ∈ leaves, X.length < c ∧ c < X.length + kB := fun c hc => by
      obtain ⟨f1, f2, _⟩ := (hleaf c).1 hc
      exact ⟨lt_of_le_of_ne f1 fun e => htop (by rw [e]; exact hc), f2⟩
    exact labels_sound hsym h2 hspan hmin hmono hperm' hsorted hmB hrowsB hctB hselc h3 hstr fun c hc => hcardB c (hselc c hc).1 (hselc c hc).2

/-- **C105** (partial): for every data set of at least two rows, symmetric distances, any minimum spanning tree of them without infinite edges, any core distances,
`base_min_cluster_size` at least 2 and `max_layers` at least 1, fitting returns, and every layer is a sound clustering of the rows: each row has a label and a
strength between 0 and 1; each cluster has at least `base_min_cluster_size` rows, more in all layers but one; and each cluster holds together at some distance, at
which nothing outside is nearer.  The exception is a single layer that labels everything noise or cluster 0.  `labels_` and `membership_strengths_` are
those of one of the layers; if there is more than one layer their clusters have more than `base_min_cluster_size` rows.
Missing: infinite edges (`C86_infinite_edges`).  For `base_n_clusters` see `C105_by_count_partial`. -/
theorem C105_layers_partial {reach : α → α → WithTop K} (hsym : ∀ x y, reach x y = reach y x) (X : List α) (h2 : 2 ≤ X.length) (core : List (WithTop K))
    (edges : List (Edge (WithTop K))) (hspan : SpanningTree X.length edges) (hmin : MinSpanningForest (completeGraph X.length (rowDist reach X)) edges)
    (hfin : ∀ e ∈ edges, e.w ≠ ⊤)
    (sortE : List (Edge (WithTop K)) → List (Edge (WithTop K))) (hsortE : ∀ l, (sortE l).Perm l ∧ (sortE l).Pairwise fun a b => a.w ≤ b.w)
    (lamSearch lam : WithTop K → K) (hpos : ∀ d, 0 ≤ lam d) (hlam : ∀ d, d ≠ ⊤ → lam d ≠ 0)
    (expInv : K → K) (hexp : ∀ x, 0 < x → expInv x ≤ 1) (order : (ℕ → K) → List ℕ → List ℕ)
    (horder : ∀ x l, (order x l).Perm l ∧ (order x l).Pairwise fun a b => x b ≤ x a) (sortLayers : List (Layer K) → List (Layer K))
    (hsort : ∀ l, (sortLayers l).Perm l ∧ (sortLayers l).Pairwise fun a b => maxLabel b.labels ≤ maxLabel a.labels) (thr : ℚ) (maxLayers : ℕ)
    (hmax : 1 ≤ maxLayers) (m : ℕ) (hm : 2 ≤ m) :
    ∃ r : PlscanFit K, plscanFit expInv order sortLayers sortE lamSearch lam thr maxLayers m none X.length core edges = some r ∧
      (∃ layer ∈ r.layers, r.labels = layer.labels ∧ r.strengths = layer.strengths) ∧
      (1 < r.layers.length → SoundGroups (fun _ => true) reach (fun _ => (1 : K)) (m + 1 : ℕ) X r.labels ((List.range X.length).map r.strengths)) ∧
      ∃ base rest, r.layers.Perm (base :: rest) ∧
        (∀ layer ∈ rest, SoundGroups (fun _ => true) reach (fun _ => (1 : K)) (m + 1 : ℕ) X layer.labels ((List.range X.length).map layer.strengths)) ∧
        (SoundGroups (fun _ => true) reach (fun _ => (1 : K)) m X base.labels ((List.range X.length).map base.strengths) ∨
          (rest = [] ∧ LabelledRows (fun _ => true) X base.labels ((List.range X.length).map base.strengths) ∧ ∀ l ∈ base.labels, l = -1 ∨ l = 0)) := by
  obtain ⟨r, base, leaves, others, g1, h⟩ := fit_shape X.length h2 core edges hspan sortE hsortE lamSearch lam hpos expInv hexp order horder sortLayers hsort thr
    maxLayers hmax m hm
  obtain ⟨c1, c2, c3, c4⟩ := shape_sound hsym h2 hspan hmin hfin hsortE hpos hlam hlam hm le_rfl h
  refine ⟨r, g1, c1, c2, base, others.map fun o => o.2.2, h.perm, fun layer hlay => ?_, c4.imp_right fun ⟨e1, e2⟩ => ⟨by rw [e1]; rfl, e2⟩⟩
  obtain ⟨o, ho, rfl⟩ := List.mem_map.1 hlay
  exact c3 o ho

/-- **C105** (partial) with `algorithm='kruskal'`, without `knn_k` and constraints: for every data set of at least two rows with finite symmetric distances.
Missing: as in `C105_layers_partial`. -/
theorem C105_kruskal_partial {dist : α → α → WithTop K} (hsym : ∀ x y, dist x y = dist y x) (ms : ℕ) (X : List α) (h2 : 2 ≤ X.length)
    (hfin : ∀ x ∈ X, ∀ y ∈ X, rowReach dist X ms x y ≠ ⊤) (core : List (WithTop K))
    (sortE : List (Edge (WithTop K)) → List (Edge (WithTop K))) (hsortE : ∀ l, (sortE l).Perm l ∧ (sortE l).Pairwise fun a b => a.w ≤ b.w)
    (lamSearch lam : WithTop K → K) (hpos : ∀ d, 0 ≤ lam d) (hlam : ∀ d, d ≠ ⊤ → lam d ≠ 0)
    (expInv : K → K) (hexp : ∀ x, 0 < x → expInv x ≤ 1) (order : (ℕ → K) → List ℕ → List ℕ)
    (horder : ∀ x l, (order x l).Perm l ∧ (order x l).Pairwise fun a b => x b ≤ x a) (sortLayers : List (Layer K) → List (Layer K))
    (hsort : ∀ l, (sortLayers l).Perm l ∧ (sortLayers l).Pairwise fun a b => maxLabel b.labels ≤ maxLabel a.labels) (thr : ℚ) (maxLayers : ℕ)
    (hmax : 1 ≤ maxLayers) (m : ℕ) (hm : 2 ≤ m) :
    ∃ r : PlscanFit K, plscanFit expInv order sortLayers sortE lamSearch lam thr maxLayers m none X.length core (kruskalRows dist ms X (X.map fun _ => ())) = some r ∧
      (∃ layer ∈ r.layers, r.labels = layer.labels ∧ r.strengths = layer.strengths) ∧
      (1 < r.layers.length → SoundGroups (fun _ => true) (rowReach dist X ms) (fun _ => (1 : K)) (m + 1 : ℕ) X r.labels ((List.range X.length).map r.strengths)) ∧
      ∃ base rest, r.layers.Perm (base :: rest) ∧
        (∀ layer ∈ rest,
          SoundGroups (fun _ => true) (rowReach dist X ms) (fun _ => (1 : K)) (m + 1 : ℕ) X layer.labels ((List.range X.length).map layer.strengths)) ∧
        (SoundGroups (fun _ => true) (rowReach dist X ms) (fun _ => (1 : K)) m X base.labels ((List.range X.length).map base.strengths) ∨
          (rest = [] ∧ LabelledRows (fun _ => true) X base.labels ((List.range X.length).map base.strengths) ∧ ∀ l ∈ base.labels, l = -1 ∨ l = 0)) := by
  obtain ⟨h3, h4⟩ := kruskalRows_tree dist hsym ms X h2 (X.map fun _ => ())
  refine C105_layers_partial (rowReach_comm hsym X ms) X h2 core _ h3 h4 (fun e he => ?_) sortE hsortE lamSearch lam hpos hlam expInv hexp order horder sortLayers hsort thr
    maxLayers hmax m hm
  obtain ⟨hu, hv, _, hw⟩ := mem_completeGraph.1 (h4.forest.sub.subset he)
  rw [rowDist_eq (List.getElem?_eq_getElem hu) (List.getElem?_eq_getElem hv)] at hw
  rw [hw]
  exact hfin _ (List.getElem_mem hu) _ (List.getElem_mem hv)

end

/-- Eleven points in three groups. -/
def exPlRows : List (Option ℚ) := [some 0, some 0, some 0, some 1, some 1, some 1, some 101, some 101, some 101, some 101, some 101]

/-- The hypotheses hold. -/
example : ∃ r : PlscanFit ℚ, plscanFit exExpInv exOrder exSortLayers plSort plLam plLam (1 / 2) 10 2 none 11 [1, 1]
    (kruskalRows rowLine 1 exPlRows (exPlRows.map fun _ => ())) = some r ∧ ∃ layer ∈ r.layers, r.labels = layer.labels ∧ r.strengths = layer.strengths := by
  obtain ⟨r, h1, h2, _⟩ := C105_kruskal_partial rowLine_comm 1 exPlRows (by decide) (by decide +kernel) [1, 1] plSort plSort_sorts plLam plLam plLam_nonneg
    plLam_ne_zero exExpInv (fun x hx => by unfold exExpInv; rw [div_le_one (by linarith)]; linarith) exOrder exOrder_sorts exSortLayers exSortLayers_sorts
    (1 / 2) 10 (by decide) 2 (by decide)
  exact ⟨r, h1, h2⟩

end Verif
