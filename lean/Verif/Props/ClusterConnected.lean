import Verif.Props.InCluster
import Verif.Props.Total

/-!
# C74: the samples of a cluster are connected by tree edges inside the cluster
-/

namespace Verif
variable {W K : Type*}

/-- A connection whose vertices all satisfy `P` uses only edges between such vertices. -/
theorem Conn.inside {g t : List (Edge W)} (hsub : ∀ e ∈ g, e ∈ t) (P : ℕ → Prop) [DecidablePred P] {x y : ℕ} (h : Conn g x y)
    (hP : ∀ z, Conn g x z → P z) : Conn (t.filter fun e => decide (P e.u ∧ P e.v)) x y := by
  induction h with
  | refl => exact Conn.refl _ _
  | @tail b c hb hs ih =>
    refine ih.trans ?_
    have hbP := hP b hb
    have hcP := hP c (Relation.ReflTransGen.tail hb hs)
    obtain ⟨e, he, ⟨rfl, rfl⟩ | ⟨rfl, rfl⟩⟩ := hs
    · exact Conn.edge (List.mem_filter.2 ⟨hsub e he, decide_eq_true ⟨hbP, hcP⟩⟩)
    · exact (Conn.edge (List.mem_filter.2 ⟨hsub e he, decide_eq_true ⟨hcP, hbP⟩⟩)).symm

section
variable [Field K] [LinearOrder K] [IsStrictOrderedRing K] [LinearOrder W] [OrderTop W] [Inhabited W] [Inhabited K]

omit [OrderTop W] in
/-- Every lambda of the condensed tree is that of a tree edge. -/
theorem condense_lam_edge {n : ℕ} (hn : 2 ≤ n) {wt : ℕ → K} {t : List (Edge W)} (ht : SpanningTree n t) {mcs : K}
    (h0 : ∀ x, x < n → 0 ≤ wt x) (hl : ∀ x, x < n → wt x < mcs) (lam : W → K) :
    ∀ row ∈ condenseTree (Hier.ofRows (mstToLinkage wt t)) wt mcs none lam, ∃ e ∈ t, row.lam = lam e.w := by
  intro row hrow
  have hlen := ht.length (by omega)
  subst hlen
  have hfull := linkage_fold_inv wt ht.inRange ht.acyclic le_rfl
  have hlen : (mstToLinkage wt t).length = t.length := hfull.len
  have hden : Dendrogram (t.length + 1) wt (mstToLinkage wt t) := ⟨by rw [hlen], hfull.older, hfull.once, hfull.rowsize⟩
  have hm : 0 < (Hier.ofRows (mstToLinkage wt t)).m := by change 0 < (mstToLinkage wt t).length; omega
  have hh := hden.condHyp h0 hl
  have hHn := hden.hier_n
  have hRe := (Hier.ofRows (mstToLinkage wt t)).root_eq
  have hmm : (Hier.ofRows (mstToLinkage wt t)).m = t.length := hlen
  obtain ⟨k, relabel, top, hr⟩ := condense_res (mx := none) hh hm lam
  have key : ∃ v, t.length + 1 ≤ v ∧ v ≤ (Hier.ofRows (mstToLinkage wt t)).root ∧
      row.lam = lam ((Hier.ofRows (mstToLinkage wt t)).d (v - (t.length + 1))) := by
    by_cases hc : row.child < (Hier.ofRows (mstToLinkage wt t)).n
    · obtain ⟨v, h1, _, h3, _⟩ := hr.rows_pt row hrow hc
      exact ⟨v, by have := h1.1.1; omega, h1.1.2.1, by rw [h3, hHn]⟩
    · obtain ⟨_, _, v, h1, _, _, h3, _⟩ := hr.rows_cl row hrow (by omega)
      exact ⟨v, by have := h1.1; omega, h1.2.1, by rw [h3, hHn]⟩
  obtain ⟨v, h1, h2, h3⟩ := key
  have hvlt : v - (t.length + 1) < t.length := by omega
  refine ⟨t[v - (t.length + 1)], List.getElem_mem _, ?_⟩
  have hrow' : (mstToLinkage wt t)[v - (t.length + 1)]? = some (mstToLinkage wt t)[v - (t.length + 1)] :=
    List.getElem?_eq_getElem (by omega)
  rw [h3, Hier.ofRows_d hrow']
  have hd := congrArg (fun l => l[v - (t.length + 1)]?) hfull.dist
  simp only [List.getElem?_map] at hd
  rw [show (t.foldl (linkStep (2 * (t.length + 1) - 1)) (linkInit (t.length + 1) wt)).rows = mstToLinkage wt t from rfl, hrow',
    List.getElem?_eq_getElem hvlt] at hd
  simp only [Option.map_some, Option.some.injEq] at hd
  rw [hd]

omit [Field K] [LinearOrder K] [IsStrictOrderedRing K] [Inhabited K] [LinearOrder W] [OrderTop W] [Inhabited W] in
theorem CondTree.k_unique {L S : Type*} {n k k' : ℕ} {rows : List (CRow L S)} (h : CondTree n k rows) (h' : CondTree n k' rows) : k = k' := by
  have := congrArg List.length (h.asc.symm.trans h'.asc)
  rw [List.length_range', List.length_range'] at this
  have := h.pos
  have := h'.pos
  omega

/-- Without infinite edges and without the top cluster among the selected ones, label `j` marks exactly the samples of a cluster of the
condensed tree before simplification, one for each selected cluster, born at the same lambda. -/
theorem labels_are_selected (n : ℕ) (hn : 2 ≤ n) (wt : ℕ → K) (t : List (Edge W)) (ht : SpanningTree n t)
    (o : ClusterOpts K) (h1 : 1 < o.minClusterSize) (h0 : ∀ x, x < n → 0 ≤ wt x)
    (hl : ∀ x, x < n → wt x < o.minClusterSize) (lam : W → K) (hlam : Antitone lam)
    (hfin : ∀ e ∈ t, lam e.w ≠ 0) {r : ClusterResult W K} (hr : Clustered n lam wt o t r) (htop : n ∉ r.selected) :
    r.labels.length = n ∧ (∀ l ∈ r.labels, -1 ≤ l ∧ l < r.selected.length) ∧ ∀ j, j < r.selected.length →
      ∃ row ∈ condenseTree (Hier.ofRows (mstToLinkage wt (lexsortMst t))) wt o.minClusterSize none lam, n < row.child ∧
        (∀ z, z < n → (r.labels[z]? = some (j : ℤ) ↔
          CDesc (condenseTree (Hier.ofRows (mstToLinkage wt (lexsortMst t))) wt o.minClusterSize none lam) row.child z)) ∧
        ∃ srow ∈ r.condensed, srow.child ∈ r.selected ∧ srow.lam = row.lam := by
  have hlen := ht.length (by omega)
  have ht' := ht.perm (lexsortMst_perm t)
  have hper := hr.split
  obtain ⟨k, hct, _, _, g4, _, _, g6, _⟩ := hr.tree
  have hsimp := hr.simp
  have hedge := condense_lam_edge hn ht' h0 hl lam
  obtain ⟨k0, hct0, hbin0, hmono0, hkind0, hfull0, _⟩ :=
    C54_applies n hn wt _ ht' (lexsortMst_sorted t) o.minClusterSize h1 h0 hl lam hlam
  set T := condenseTree (Hier.ofRows (mstToLinkage wt (lexsortMst t))) wt o.minClusterSize none lam with hT
  have hfinT : ∀ row ∈ T, row.lam ≠ 0 := by
    intro row hrow
    obtain ⟨e, he, h⟩ := hedge row hrow
    rw [h]; exact hfin e ((lexsortMst_perm t).mem_iff.1 he)
  -- the clusters of the returned tree have the samples of clusters of `T`
  have hold : ∃ old : ℕ → ℕ, (∀ c, n < c → c < n + k → n < old c ∧ old c < n + k0 ∧ ∀ z, z < n → (CDesc r.condensed c z ↔ CDesc T (old c) z)) ∧
      (∀ row ∈ r.condensed, row.child < n → row.lam ≠ 0) ∧
      ∀ row ∈ r.condensed, n ≤ row.child → ∃ row' ∈ T, row'.child = old row.child ∧ row'.lam = row.lam := by
    unfold simplifyIf at hsimp
    by_cases hp : 0 < o.persistence ∧ 0 < T.length
    · rw [if_pos hp] at hsimp
      have hk0 : 1 < k0 := by
        obtain ⟨row, hrw, hc⟩ := hper.resolve_left (not_le.2 hp.1)
        have := (hct0.children row.child).1 (List.mem_map_of_mem hrw)
        omega
      obtain ⟨out, k', e1, c1, _, _, _, _, _, e8, old, o1, o2, o3, o4, _⟩ :=
        C54_simplify_partial o.persistence n k0 T hct0 hbin0 hmono0 hkind0 hfull0 hk0
      have : out = r.condensed := Option.some.inj (e1.symm.trans hsimp)
      subst this
      have hkk : k' = k := c1.k_unique hct
      subst hkk
      refine ⟨old, fun c hc hck => ?_, fun row hrow hcn => ?_, fun row hrow hcn => ?_⟩
      · have h3 := o3 n c le_rfl hc hck
        rw [o1] at h3
        obtain ⟨_, h4, h5⟩ := o2 c hc.le hck
        exact ⟨h3, h4, h5⟩
      · obtain ⟨q, hq, _, h | ⟨q', hq', _, h⟩⟩ := e8 row hrow hcn
        · rw [h]; exact hfinT q hq
        · rw [h]; exact hfinT q' hq'
      · obtain ⟨row', a1, a2, a3, -⟩ := o4 row hrow hcn
        exact ⟨row', a1, a2, a3⟩
    · rw [if_neg hp, Option.some.injEq] at hsimp
      rw [← hsimp] at hct ⊢
      have hkk : k0 = k := hct0.k_unique hct
      subst hkk
      exact ⟨id, fun c hc hck => ⟨hc, hck, fun _ _ => Iff.rfl⟩, fun row hrow _ => hfinT row hrow, fun row hrow _ => ⟨row, hrow, rfl, rfl⟩⟩
  obtain ⟨old, hold, hfinR, hbirth⟩ := hold
  obtain ⟨hlab, hmean⟩ := g6
  refine ⟨hlab, fun l hl => ?_, fun j hj => ?_⟩
  · obtain ⟨z, hz⟩ := List.mem_iff_getElem?.1 hl
    have hzn : z < n := by rw [← hlab]; exact (List.getElem?_eq_some_iff.1 hz).1
    obtain ⟨row, hrow, rfl⟩ := List.mem_map.1 ((hct.children z).2 (.inl hzn))
    have hge := (hmean row hrow hzn).2.2 l hz
    refine ⟨hge, ?_⟩
    by_cases h0' : 0 ≤ l
    · obtain ⟨j, rfl⟩ := Int.eq_ofNat_of_zero_le h0'
      obtain ⟨_, s, hs, _⟩ := ((hmean row hrow hzn).1 htop j).1 hz
      have := (List.getElem?_eq_some_iff.1 hs).1
      rw [List.length_insertionSort] at this
      omega
    · omega
  · have hj' : j < (r.selected.insertionSort (· ≤ ·)).length := by rwa [List.length_insertionSort]
    have hs : (r.selected.insertionSort (· ≤ ·))[j]? = some (r.selected.insertionSort (· ≤ ·))[j] := List.getElem?_eq_getElem hj'
    set s := (r.selected.insertionSort (· ≤ ·))[j] with hsdef
    have hsel : s ∈ r.selected := (List.perm_insertionSort _ _).mem_iff.1 (List.mem_of_getElem? hs)
    have hsn : n < s := lt_of_le_of_ne (g4 s hsel).1 fun h => htop (h ▸ hsel)
    obtain ⟨q1, q2, q3⟩ := hold s hsn (g4 s hsel).2
    obtain ⟨srow, hsrow, hsc⟩ := List.mem_map.1 ((hct.children s).2 (.inr ⟨hsn, (g4 s hsel).2⟩))
    obtain ⟨crow, hcrow, hrc, hlamc⟩ := hbirth srow hsrow (by omega)
    rw [hsc] at hrc
    refine ⟨crow, hcrow, by omega, fun z hz => ?_, srow, hsrow, by rwa [hsc], hlamc.symm⟩
    obtain ⟨row, hrow, rfl⟩ := List.mem_map.1 ((hct.children z).2 (.inl hz))
    rw [(hmean row hrow hz).1 htop j, and_iff_right (hfinR row hrow hz), hrc, ← q3 row.child hz]
    constructor
    · rintro ⟨s', hs', hd⟩
      rwa [Option.some.inj (hs'.symm.trans hs)] at hd
    · exact fun hd => ⟨s, hs, hd⟩

/-- The same without the lambdas. -/
theorem labels_are_clusters (n : ℕ) (hn : 2 ≤ n) (wt : ℕ → K) (t : List (Edge W)) (ht : SpanningTree n t)
    (o : ClusterOpts K) (h1 : 1 < o.minClusterSize) (h0 : ∀ x, x < n → 0 ≤ wt x)
    (hl : ∀ x, x < n → wt x < o.minClusterSize) (lam : W → K) (hlam : Antitone lam)
    (hfin : ∀ e ∈ t, lam e.w ≠ 0) {r : ClusterResult W K} (hr : Clustered n lam wt o t r) (htop : n ∉ r.selected) :
    r.labels.length = n ∧ (∀ l ∈ r.labels, -1 ≤ l ∧ l < r.selected.length) ∧ ∀ j, j < r.selected.length →
      ∃ row ∈ condenseTree (Hier.ofRows (mstToLinkage wt (lexsortMst t))) wt o.minClusterSize none lam, n < row.child ∧
        ∀ z, z < n → (r.labels[z]? = some (j : ℤ) ↔
          CDesc (condenseTree (Hier.ofRows (mstToLinkage wt (lexsortMst t))) wt o.minClusterSize none lam) row.child z) := by
  obtain ⟨a, b, c⟩ := labels_are_selected n hn wt t ht o h1 h0 hl lam hlam hfin hr htop
  refine ⟨a, b, fun j hj => ?_⟩
  obtain ⟨row, h2, h3, h4, -⟩ := c j hj
  exact ⟨row, h2, h3, h4⟩

/-- A sample that leaves at the lambda of an infinite distance is not joined by finite edges to one that leaves later. -/
theorem condense_infinite {n : ℕ} (hn : 2 ≤ n) {wt : ℕ → K} {t : List (Edge W)} (ht : SpanningTree n t) (hs : t.Pairwise fun a b => a.w ≤ b.w)
    {mcs : K} (h0 : ∀ x, x < n → 0 ≤ wt x) (hl : ∀ x, x < n → wt x < mcs) {lam : W → K} (hlam : ∀ d, lam d = lam ⊤ → d = ⊤) :
    let T := condenseTree (Hier.ofRows (mstToLinkage wt t)) wt mcs none lam
    ∀ rx ∈ T, ∀ rz ∈ T, rx.child < n → rz.child < n → rx.lam ≠ lam ⊤ → Conn (below ⊤ t) rx.child rz.child → rz.lam ≠ lam ⊤ := by
  intro T rx hrx rz hrz hxn hzn hx hconn hz
  have hlen := ht.length (by omega)
  subst hlen
  have hfull := linkage_fold_inv wt ht.inRange ht.acyclic le_rfl
  have hlen : (mstToLinkage wt t).length = t.length := hfull.len
  have hden : Dendrogram (t.length + 1) wt (mstToLinkage wt t) := ⟨by rw [hlen], hfull.older, hfull.once, hfull.rowsize⟩
  have hm : 0 < (Hier.ofRows (mstToLinkage wt t)).m := by change 0 < (mstToLinkage wt t).length; omega
  have hh := hden.condHyp h0 hl
  have hHn := hden.hier_n
  have hmm : (Hier.ofRows (mstToLinkage wt t)).m = t.length := hlen
  have hRe := (Hier.ofRows (mstToLinkage wt t)).root_eq
  obtain ⟨k, relabel, top, hr⟩ := condense_res (mx := none) hh hm lam
  obtain ⟨v, ⟨hva, a, hka, hna, hsa⟩, _, hlv, _⟩ := hr.rows_pt rz hrz (by omega)
  have hvn := hva.1
  have hvR := hva.2.1
  have hvlt : v - (t.length + 1) < t.length := by omega
  have hve : v = t.length + 1 + (v - (t.length + 1)) := by omega
  have hd : (Hier.ofRows (mstToLinkage wt t)).d (v - (t.length + 1)) = t[v - (t.length + 1)].w := by
    have hrow' : (mstToLinkage wt t)[v - (t.length + 1)]? = some (mstToLinkage wt t)[v - (t.length + 1)] :=
      List.getElem?_eq_getElem (by omega)
    rw [Hier.ofRows_d hrow']
    have hd := congrArg (fun l => l[v - (t.length + 1)]?) hfull.dist
    simp only [List.getElem?_map] at hd
    rw [show (t.foldl (linkStep (2 * (t.length + 1) - 1)) (linkInit (t.length + 1) wt)).rows =
      mstToLinkage wt t from rfl, hrow', List.getElem?_eq_getElem hvlt] at hd
    simpa using hd
  have hinf : t[v - (t.length + 1)].w = ⊤ := by
    refine hlam _ ?_
    rw [← hd, ← hHn, ← hlv]; exact hz
  have hpre : Conn (t.take (v - (t.length + 1))) rz.child rx.child := by
    refine hconn.symm.mono fun e he => ?_
    rw [mem_below] at he
    obtain ⟨i, hi, rfl⟩ := List.getElem_of_mem he.1
    rw [List.mem_take_iff_getElem]
    refine ⟨i, ?_, rfl⟩
    have : i < v - (t.length + 1) := by
      by_contra hge
      rcases (not_lt.1 hge).lt_or_eq with h | h
      · have := List.pairwise_iff_getElem.1 hs _ i hvlt hi h
        rw [hinf] at this
        exact absurd he.2 (not_lt.2 this)
      · simp only [← h] at he
        rw [hinf] at he
        exact lt_irrefl _ he.2
    omega
  have hka' := hka
  rw [hve] at hka'
  have hsx := (link_component wt ht.inRange ht.acyclic hka' ((below_iff_sub hHn).2 ⟨hzn, hsa⟩) hxn).1 hpre
  have hhome : (Hier.ofRows (mstToLinkage wt t)).Home wt mcs rx.child v := ⟨hva, a, hka, hna, ((below_iff_sub hHn).1 hsx).2⟩
  obtain ⟨v', hv', _, hlx, _⟩ := hr.rows_pt rx hrx (by omega)
  rw [Home.unique hh hv' hhome, hHn, hd, hinf] at hlx
  exact hx hlx

/-- A label in use marks exactly one component of the tree edges up to some length. -/
theorem Clustered.component {n : ℕ} (hn : 2 ≤ n) {wt : ℕ → K} {t : List (Edge W)} (ht : SpanningTree n t)
    {o : ClusterOpts K} (h1 : 1 < o.minClusterSize) (h0 : ∀ x, x < n → 0 ≤ wt x)
    (hl : ∀ x, x < n → wt x < o.minClusterSize) {lam : W → K} (hlam : Antitone lam)
    {r : ClusterResult W K} (hfin : (∀ e ∈ t, lam e.w ≠ 0) ∨ o.persistence ≤ 0 ∧ (∀ d, lam d = 0 ↔ d = ⊤) ∧
      ∀ (x y : ℕ) (i : ℤ), 0 ≤ i → r.labels[x]? = some i → r.labels[y]? = some i → Conn (below ⊤ t) x y)
    (hr : Clustered n lam wt o t r) (htop : n ∉ r.selected)
    {i : ℤ} (hi : i ∈ r.labels) (hi0 : i ≠ -1) :
    r.labels.length = n ∧ 0 ≤ i ∧ ∃ m < t.length, ∀ x y, r.labels[x]? = some i → y < n →
      (r.labels[y]? = some i ↔ Conn ((lexsortMst t).take m) x y) := by
  have ht' := ht.perm (lexsortMst_perm t)
  rcases hfin with hfin | ⟨hper0, hlt, hcon⟩
  · obtain ⟨hlab, hrange', hcl⟩ := labels_are_clusters n hn wt t ht o h1 h0 hl lam hlam hfin hr htop
    have hi' := hrange' i hi
    obtain ⟨j, rfl⟩ := Int.eq_ofNat_of_zero_le (show 0 ≤ i by omega)
    obtain ⟨row, hrow, hrn, hiff⟩ := hcl j (by omega)
    obtain ⟨m, e, he, _, hc⟩ := C17_cluster_is_component n hn wt _ ht' o.minClusterSize h0 hl none lam row hrow hrn.le
    refine ⟨hlab, by omega, m, ?_, fun x y hx hy => ?_⟩
    · rw [← (lexsortMst_perm t).length_eq]; exact (List.getElem?_eq_some_iff.1 he).1
    · have hxn : x < n := by rw [← hlab]; exact (List.getElem?_eq_some_iff.1 hx).1
      rw [hiff y hy, hc x y ((hiff x hxn).1 hx) hxn hy]
  · obtain ⟨k, hct, _, _, g4, _, _, ⟨hlab, hmean⟩, _⟩ := hr.tree
    have hcond : r.condensed = condenseTree (Hier.ofRows (mstToLinkage wt (lexsortMst t))) wt o.minClusterSize none lam := by
      have e1 := hr.simp
      unfold simplifyIf at e1
      rw [if_neg fun h => absurd h.1 (not_lt.2 hper0), Option.some.injEq] at e1
      exact e1.symm
    have hrowof : ∀ z, z < n → ∃ row ∈ r.condensed, row.child = z := fun z hz => by
      obtain ⟨row, hrow, h⟩ := List.mem_map.1 ((hct.children z).2 (.inl hz))
      exact ⟨row, hrow, h⟩
    have hltn : ∀ {z}, r.labels[z]? = some i → z < n := fun h => by rw [← hlab]; exact (List.getElem?_eq_some_iff.1 h).1
    -- the cluster of the label
    obtain ⟨x0, hx0⟩ := List.mem_iff_getElem?.1 hi
    obtain ⟨row0, hrow0, hc0⟩ := hrowof x0 (hltn hx0)
    have hi1 : 0 ≤ i := by
      have := (hmean row0 hrow0 (by rw [hc0]; exact hltn hx0)).2.2 i (by rw [hc0]; exact hx0)
      omega
    obtain ⟨j, rfl⟩ := Int.eq_ofNat_of_zero_le hi1
    obtain ⟨_, s, hs, _⟩ := ((hmean row0 hrow0 (by rw [hc0]; exact hltn hx0)).1 htop j).1 (by rw [hc0]; exact hx0)
    have hsel : s ∈ r.selected := (List.perm_insertionSort _ _).mem_iff.1 (List.mem_of_getElem? hs)
    have hsn : n < s := lt_of_le_of_ne (g4 s hsel).1 fun h => htop (h ▸ hsel)
    obtain ⟨srow, hsrow, hsc⟩ := List.mem_map.1 ((hct.children s).2 (.inr ⟨hsn, (g4 s hsel).2⟩))
    have hmean' : ∀ row ∈ r.condensed, row.child < n →
        (r.labels[row.child]? = some (j : ℤ) ↔ row.lam ≠ 0 ∧ CDesc r.condensed s row.child) := by
      intro row hrow hc
      rw [(hmean row hrow hc).1 htop j]
      refine and_congr_right fun _ => ⟨?_, fun h => ⟨s, hs, h⟩⟩
      rintro ⟨s', hs', hd⟩
      rwa [Option.some.inj (hs'.symm.trans hs)] at hd
    obtain ⟨m, e, he, _, hc⟩ := C17_cluster_is_component n hn wt _ ht' o.minClusterSize h0 hl none lam srow (hcond ▸ hsrow) (by omega)
    rw [hsc] at hc
    have hltop : lam ⊤ = 0 := (hlt ⊤).2 rfl
    have hinf := condense_infinite hn ht' (lexsortMst_sorted t) h0 hl (lam := lam) fun d hd => (hlt d).1 (hd.trans hltop)
    rw [← hcond] at hc
    simp only at hinf
    rw [← hcond, hltop] at hinf
    have hml : m < (lexsortMst t).length := (List.getElem?_eq_some_iff.1 he).1
    -- the finite edges come first
    obtain ⟨p, hpm, hp⟩ : ∃ p ≤ m, ∀ e, e ∈ (lexsortMst t).take p ↔ e ∈ (lexsortMst t).take m ∧ e.w < ⊤ := by
      have hsort := (lexsortMst_sorted t).sublist (List.take_sublist m (lexsortMst t))
      refine ⟨(((lexsortMst t).take m).filter fun e => decide (e.w < ⊤)).length, ?_, fun e => ?_⟩
      · exact (List.length_filter_le _ _).trans (by rw [List.length_take]; exact Nat.min_le_left _ _)
      · have hpre : ∀ l : List (Edge W), l.Pairwise (fun a b => a.w ≤ b.w) →
            l.take (l.filter fun e => decide (e.w < ⊤)).length = l.filter fun e => decide (e.w < ⊤) := by
          intro l hl
          induction l with
          | nil => rfl
          | cons a l ih =>
            rw [List.pairwise_cons] at hl
            by_cases ha : a.w < ⊤
            · rw [List.filter_cons_of_pos (by simpa using ha), List.length_cons, List.take_succ_cons, ih hl.2]
            · have : l.filter (fun e => decide (e.w < ⊤)) = [] := by
                rw [List.filter_eq_nil_iff]
                intro b hb hbt
                exact ha ((hl.1 b hb).trans_lt (of_decide_eq_true hbt))
              rw [List.filter_cons_of_neg (by simpa using ha), this]; rfl
        have h3 := hpre _ hsort
        have hle : (((lexsortMst t).take m).filter fun e => decide (e.w < ⊤)).length ≤ m :=
          (List.length_filter_le _ _).trans (by rw [List.length_take]; exact Nat.min_le_left _ _)
        rw [List.take_take, Nat.min_eq_left hle] at h3
        rw [h3, List.mem_filter, decide_eq_true_eq]
    have hsub : ∀ e ∈ (lexsortMst t).take p, e ∈ t := fun e he => (lexsortMst_perm t).mem_iff.1 (List.mem_of_mem_take he)
    refine ⟨hlab, hi1, p, by rw [← (lexsortMst_perm t).length_eq]; omega, fun x y hx hy => ?_⟩
    have hxn := hltn hx
    obtain ⟨rx, hrx, rfl⟩ := hrowof x hxn
    obtain ⟨ry, hry, rfl⟩ := hrowof y hy
    obtain ⟨hlx, hdx⟩ := (hmean' rx hrx hxn).1 hx
    constructor
    · intro hyi
      obtain ⟨hly, hdy⟩ := (hmean' ry hry hy).1 hyi
      have hc1 := (hc rx.child ry.child hdx hxn hy).1 hdy
      have hc2 : Conn (below ⊤ (lexsortMst t)) rx.child ry.child :=
        (hcon _ _ _ hi1 hx hyi).mono fun e he => by
          rw [mem_below] at he ⊢; exact ⟨(lexsortMst_perm t).mem_iff.2 he.1, he.2⟩
      by_cases hall : ∀ e ∈ (lexsortMst t).take m, e.w < ⊤
      · exact hc1.mono fun e he => (hp e).2 ⟨he, hall e he⟩
      · push Not at hall
        obtain ⟨e1, he1, he2⟩ := hall
        refine hc2.mono fun e he => (hp e).2 ?_
        rw [mem_below] at he
        refine ⟨?_, he.2⟩
        obtain ⟨i1, hi1', rfl⟩ := List.getElem_of_mem he.1
        obtain ⟨i2, hi2, rfl⟩ := List.mem_take_iff_getElem.1 he1
        rw [List.mem_take_iff_getElem]
        refine ⟨i1, ?_, rfl⟩
        by_contra hge
        have := List.pairwise_iff_getElem.1 (lexsortMst_sorted t) i2 i1 (by omega) hi1' (by omega)
        exact absurd he.2 (not_lt.2 (he2.trans this))
    · intro hconn
      refine (hmean' ry hry hy).2 ⟨?_, (hc rx.child ry.child hdx hxn hy).2 (hconn.mono fun e he => ((hp e).1 he).1)⟩
      refine hinf rx hrx ry hry hxn hy hlx (hconn.mono fun e he => ?_)
      obtain ⟨h3, h4⟩ := (hp e).1 he
      rw [mem_below]; exact ⟨List.mem_of_mem_take h3, h4⟩

/-- The same for clustering without labels given. -/
theorem label_component {n : ℕ} (hn : 2 ≤ n) {wt : ℕ → K} {t : List (Edge W)} (ht : SpanningTree n t)
    {o : ClusterOpts K} (h1 : 1 < o.minClusterSize) (h0 : ∀ x, x < n → 0 ≤ wt x)
    (hl : ∀ x, x < n → wt x < o.minClusterSize) {lam : W → K} (hlam : Antitone lam) (hpos : ∀ d, 0 ≤ lam d)
    (hfin : (∀ e ∈ t, lam e.w ≠ 0) ∨ o.persistence ≤ 0 ∧ ∀ d, lam d = 0 ↔ d = ⊤)
    {r : ClusterResult W K} (hr : clustersFromMst lam wt o t = some r) (htop : n ∉ r.selected)
    {i : ℤ} (hi : i ∈ r.labels) (hi0 : i ≠ -1) :
    r.labels.length = n ∧ 0 ≤ i ∧ ∃ m < t.length, ∀ x y, r.labels[x]? = some i → y < n →
      (r.labels[y]? = some i ↔ Conn ((lexsortMst t).take m) x y) :=
  Clustered.component hn ht h1 h0 hl hlam (hfin.imp_right fun h => ⟨h.1, h.2, fun _ _ _ hi hx hy =>
    same_label_connected hn ht h1 h0 hl hlam hpos h.2 h.1 hr (.inl htop) hi hx hy⟩) (clustered_of_mst hn ht h1 h0 hl hlam hpos hr) htop hi hi0

theorem Clustered.connected {n : ℕ} (hn : 2 ≤ n) {wt : ℕ → K} {t : List (Edge W)} (ht : SpanningTree n t)
    {o : ClusterOpts K} (h1 : 1 < o.minClusterSize) (h0 : ∀ x, x < n → 0 ≤ wt x)
    (hl : ∀ x, x < n → wt x < o.minClusterSize) {lam : W → K} (hlam : Antitone lam)
    {r : ClusterResult W K} (hfin : (∀ e ∈ t, lam e.w ≠ 0) ∨ o.persistence ≤ 0 ∧ (∀ d, lam d = 0 ↔ d = ⊤) ∧
      ∀ (x y : ℕ) (i : ℤ), 0 ≤ i → r.labels[x]? = some i → r.labels[y]? = some i → Conn (below ⊤ t) x y)
    (hr : Clustered n lam wt o t r) (htop : n ∉ r.selected)
    {x y : ℕ} {i : ℤ} (hi : 0 ≤ i) (hx : r.labels[x]? = some i) (hy : r.labels[y]? = some i) :
    Conn (t.filter fun e => decide (r.labels[e.u]? = some i ∧ r.labels[e.v]? = some i)) x y := by
  obtain ⟨hlab, _, m, _, hc⟩ := Clustered.component hn ht h1 h0 hl hlam hfin hr htop (List.mem_of_getElem? hx) (by omega)
  have hlt : ∀ {z}, r.labels[z]? = some i → z < n := fun h => by rw [← hlab]; exact (List.getElem?_eq_some_iff.1 h).1
  have hsub : ∀ e ∈ (lexsortMst t).take m, e ∈ t := fun e he => (lexsortMst_perm t).mem_iff.1 (List.mem_of_mem_take he)
  refine Conn.inside hsub (fun z => r.labels[z]? = some i) ((hc x y hx (hlt hy)).1 hy) fun z hz => ?_
  have hzn : z < n := by
    rcases hz.inRange (fun e he => ht.inRange e (hsub e he)) with h | h
    · exact h ▸ hlt hx
    · exact h.2
  exact (hc x z hx hzn).2 hz

/-- **C74** (partial).  Let a spanning tree be clustered, with any options, the top cluster not be selected, and either no edge be infinite or
there be no positive persistence.  Then any two samples of a cluster are joined by tree edges between samples of the cluster.
Missing: infinite edges together with a positive persistence; the top cluster selected alone, for which it fails (`C74_top_cluster_apart`). -/
theorem C74_clusters_connected_partial (n : ℕ) (hn : 2 ≤ n) (wt : ℕ → K) (t : List (Edge W)) (ht : SpanningTree n t)
    (o : ClusterOpts K) (h1 : 1 < o.minClusterSize) (h0 : ∀ x, x < n → 0 ≤ wt x)
    (hl : ∀ x, x < n → wt x < o.minClusterSize) (lam : W → K) (hlam : Antitone lam) (hpos : ∀ d, 0 ≤ lam d)
    (hfin : (∀ e ∈ t, lam e.w ≠ 0) ∨ o.persistence ≤ 0 ∧ ∀ d, lam d = 0 ↔ d = ⊤)
    {r : ClusterResult W K} (hr : clustersFromMst lam wt o t = some r) (htop : n ∉ r.selected)
    {x y : ℕ} {i : ℤ} (hi : 0 ≤ i) (hx : r.labels[x]? = some i) (hy : r.labels[y]? = some i) :
    Conn (t.filter fun e => decide (r.labels[e.u]? = some i ∧ r.labels[e.v]? = some i)) x y :=
  Clustered.connected hn ht h1 h0 hl hlam (hfin.imp_right fun h => ⟨h.1, h.2, fun _ _ _ hi hx hy =>
    same_label_connected hn ht h1 h0 hl hlam hpos h.2 h.1 hr (.inl htop) hi hx hy⟩) (clustered_of_mst hn ht h1 h0 hl hlam hpos hr) htop hi hx hy

/-- **C74** (consequence).  Then the tree handed to the clustering inside each cluster is a spanning tree of the cluster's samples. -/
theorem C74_tree_inside_partial (n : ℕ) (hn : 2 ≤ n) (wt : ℕ → K) (t : List (Edge W)) (ht : SpanningTree n t)
    (o : ClusterOpts K) (h1 : 1 < o.minClusterSize) (h0 : ∀ x, x < n → 0 ≤ wt x)
    (hl : ∀ x, x < n → wt x < o.minClusterSize) (lam : W → K) (hlam : Antitone lam) (hpos : ∀ d, 0 ≤ lam d)
    (hfin : (∀ e ∈ t, lam e.w ≠ 0) ∨ o.persistence ≤ 0 ∧ ∀ d, lam d = 0 ↔ d = ⊤)
    {r : ClusterResult W K} (hr : clustersFromMst lam wt o t = some r) (htop : n ∉ r.selected)
    (i : ℤ) (hi : 0 ≤ i) :
    SpanningTree (clusterPoints n (fun x => r.labels.getD x (-1)) i).length
      (inClusterMst (fun x => r.labels.getD x (-1)) i (clusterPoints n (fun x => r.labels.getD x (-1)) i) t) := by
  have hiff : ∀ x, r.labels.getD x (-1) = i ↔ r.labels[x]? = some i := by
    intro x
    rw [List.getD_eq_getElem?_getD]
    cases r.labels[x]? with
    | none => simp only [Option.getD_none, reduceCtorEq, iff_false]; omega
    | some v => simp
  refine C73_spanning ht.inRange ht.acyclic fun p q _ _ hp hq => ?_
  have := C74_clusters_connected_partial n hn wt t ht o h1 h0 hl lam hlam hpos hfin hr htop hi ((hiff p).1 hp) ((hiff q).1 hq)
  simpa only [hiff] using this

end

/-! ## Concrete cases and a counterexample -/

/-- The hypotheses hold for the five samples in two groups, and there are two clusters. -/
example : (∀ e ∈ exFive, lamq e.w ≠ 0) ∧
    (clustersFromMst lamq (fun _ => 1) (exOpts .eom 0) exFive).map ClusterResult.selected = some [6, 7] ∧
    (clustersFromMst lamq (fun _ => 1) (exOpts .eom 0) exFive).map ClusterResult.labels = some [1, 1, 1, 0, 0] :=
  ⟨by decide +kernel, by decide +kernel, by decide +kernel⟩

/-- Two groups and sample 5 between them, closer to both than the groups are to each other. -/
def exBetween : List (Edge (WithTop ℚ)) :=
  [⟨0, 1, ((1 / 2 : ℚ) : WithTop ℚ)⟩, ⟨1, 2, ((1 / 2 : ℚ) : WithTop ℚ)⟩, ⟨3, 4, ((1 / 2 : ℚ) : WithTop ℚ)⟩,
    ⟨2, 5, ((7 / 10 : ℚ) : WithTop ℚ)⟩, ⟨5, 3, ((3 / 4 : ℚ) : WithTop ℚ)⟩]

/-- Options for the counterexample: the top cluster may be selected, `cluster_selection_epsilon = 0.6`. -/
def exSingle : ClusterOpts ℚ := { exOpts .eom 0 with allowSingle := true, epsilon := 3 / 5 }

/-- **C74** fails when the top cluster is selected alone: the two groups are one cluster, but the only way between them is through sample 5,
which is noise. -/
theorem C74_top_cluster_apart : ∃ labels : List ℤ,
    (clustersFromMst lamq (fun _ => 1) exSingle exBetween).map ClusterResult.labels = some labels ∧ labels = [0, 0, 0, 0, 0, -1] ∧
      ¬ Conn (exBetween.filter fun e => decide (labels[e.u]? = some 0 ∧ labels[e.v]? = some 0)) 0 3 := by
  refine ⟨[0, 0, 0, 0, 0, -1], by decide +kernel, rfl, fun h => ?_⟩
  have := conn_invariant (fun x => decide (x < 3)) (by decide +kernel) h
  simp at this

end Verif
