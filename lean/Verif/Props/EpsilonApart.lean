import Verif.Props.EpsilonRaise
import Verif.Props.ClusterSize

/-!
# C114: clusters are at least `cluster_selection_epsilon` apart
-/

namespace Verif
variable {W K α β : Type*}

/-- The edges of `g` that are shorter than `ε`; the length of an edge is `1 / lam`. -/
def shorter [Field K] [LinearOrder K] (lam : W → K) (ε : K) (g : List (Edge W)) : List (Edge W) :=
  g.filter fun e => decide (0 < lam e.w ∧ 1 / lam e.w < ε)

section
variable [Field K] [LinearOrder K] [IsStrictOrderedRing K] [LinearOrder W]

omit [IsStrictOrderedRing K] [LinearOrder W] in
theorem mem_shorter {lam : W → K} {ε : K} {g : List (Edge W)} {e : Edge W} : e ∈ shorter lam ε g ↔ e ∈ g ∧ 0 < lam e.w ∧ 1 / lam e.w < ε := by
  unfold shorter
  rw [List.mem_filter, decide_eq_true_eq]

theorem conn_shorter {lam : W → K} (hlam : Antitone lam) {ε : K} {g t : List (Edge W)} (hf : MinSpanningForest g t) {x y : ℕ}
    (h : Conn (shorter lam ε g) x y) : Conn (shorter lam ε t) x y := by
  have key : ∀ e ∈ shorter lam ε g, Conn (shorter lam ε t) e.u e.v := by
    intro e he
    obtain ⟨h1, h2, h3⟩ := mem_shorter.1 he
    refine (hf.threshold e h1).mono fun e' he' => ?_
    rw [mem_upTo] at he'
    have hle := hlam he'.2
    exact mem_shorter.2 ⟨he'.1, h2.trans_le hle, (one_div_le_one_div_of_le h2 hle).trans_lt h3⟩
  induction h with
  | refl => exact Conn.refl _ _
  | tail _ hs ih =>
    obtain ⟨e, he, ⟨rfl, rfl⟩ | ⟨rfl, rfl⟩⟩ := hs
    · exact ih.trans (key e he)
    · exact ih.trans (key e he).symm

variable [Inhabited W] [Inhabited K]

/-- Samples joined by tree edges before the one at whose removal a sample leaves the condensed tree leave together with it. -/
theorem leave_together {n : ℕ} (hn : 2 ≤ n) {wt : ℕ → K} {t : List (Edge W)} (ht : SpanningTree n t) {mcs : K}
    (h0 : ∀ x, x < n → 0 ≤ wt x) (hl : ∀ x, x < n → wt x < mcs) (lam : W → K) :
    let T := condenseTree (Hier.ofRows (mstToLinkage wt t)) wt mcs none lam
    ∀ ry ∈ T, ry.child < n → ∃ j e, t[j]? = some e ∧ ry.lam = lam e.w ∧
      ∀ rx ∈ T, rx.child < n → Conn (t.take j) ry.child rx.child → rx.parent = ry.parent ∧ rx.lam = ry.lam := by
  intro T ry hry hyn
  have hlen := ht.length (by omega)
  subst hlen
  have hfull := linkage_fold_inv wt ht.inRange ht.acyclic le_rfl
  have hlen : (mstToLinkage wt t).length = t.length := hfull.len
  have hden : Dendrogram (t.length + 1) wt (mstToLinkage wt t) := ⟨by rw [hlen], hfull.older, hfull.once, hfull.rowsize⟩
  have hm : 0 < (Hier.ofRows (mstToLinkage wt t)).m := by change 0 < (mstToLinkage wt t).length; omega
  have hh := hden.condHyp h0 hl
  have hHn := hden.hier_n
  have hmm : (Hier.ofRows (mstToLinkage wt t)).m = t.length := hlen
  have hRe := (Hier.ofRows (mstToLinkage wt t)).root_eq
  obtain ⟨k, relabel, top, hr⟩ := condense_res (mx := none) hh hm lam
  obtain ⟨v, ⟨hva, a, hka, hna, hsa⟩, hpv, hlv, _⟩ := hr.rows_pt ry hry (by omega)
  have hvn := hva.1
  have hvR := hva.2.1
  have hvlt : v - (t.length + 1) < t.length := by omega
  have hve : v = t.length + 1 + (v - (t.length + 1)) := by omega
  have hd : (Hier.ofRows (mstToLinkage wt t)).d (v - (t.length + 1)) = t[v - (t.length + 1)].w := by
    have hrow' : (mstToLinkage wt t)[v - (t.length + 1)]? = some (mstToLinkage wt t)[v - (t.length + 1)] :=
      List.getElem?_eq_getElem (by omega)
    rw [Hier.ofRows_d hrow']
    have hd := congrArg (fun l => l[v - (t.length + 1)]?) hfull.dist
    simp only [List.getElem?_map] at hd
    rw [show (t.foldl (linkStep (2 * (t.length + 1) - 1)) (linkInit (t.length + 1) wt)).rows =
      mstToLinkage wt t from rfl, hrow', List.getElem?_eq_getElem hvlt] at hd
    simpa using hd
  refine ⟨_, _, List.getElem?_eq_getElem hvlt, by rw [hlv, hHn, hd], fun rx hrx hxn hcon => ?_⟩
  have hka' := hka
  rw [hve] at hka'
  have hsx := (link_component wt ht.inRange ht.acyclic hka' ((below_iff_sub hHn).2 ⟨hyn, hsa⟩) hxn).1 hcon
  have hhome : (Hier.ofRows (mstToLinkage wt t)).Home wt mcs rx.child v := ⟨hva, a, hka, hna, ((below_iff_sub hHn).1 hsx).2⟩
  obtain ⟨v', hv', hpx, hlx, _⟩ := hr.rows_pt rx hrx (by omega)
  rw [hlx, hlv, hpx, hpv, Home.unique hh hv' hhome]
  exact ⟨rfl, rfl⟩

omit [IsStrictOrderedRing K] [Inhabited W] [Inhabited K] in
/-- Tree edges shorter than one come before it. -/
theorem shorter_before {lam : W → K} (hlam : Antitone lam) {ε : K} {t : List (Edge W)} {m : ℕ} {e : Edge W} (he : (lexsortMst t)[m]? = some e)
    (hfar : ∀ e' ∈ shorter lam ε t, lam e.w < lam e'.w) {x y : ℕ} (h : Conn (shorter lam ε t) x y) : Conn ((lexsortMst t).take m) x y := by
  refine h.mono fun e' he' => ?_
  obtain ⟨h3, -⟩ := mem_shorter.1 he'
  have hf := hfar e' he'
  obtain ⟨m', hm', rfl⟩ := List.mem_iff_getElem.1 ((lexsortMst_perm t).mem_iff.2 h3)
  obtain ⟨hm, rfl⟩ := List.getElem?_eq_some_iff.1 he
  rw [List.mem_take_iff_getElem]
  refine ⟨m', ?_, rfl⟩
  by_contra hge
  have hmm : m ≤ m' := by omega
  have hw : (lexsortMst t)[m].w ≤ (lexsortMst t)[m'].w := by
    rcases hmm.lt_or_eq with h | rfl
    · exact List.pairwise_iff_getElem.1 (lexsortMst_sorted t) m m' hm hm' h
    · exact le_rfl
  exact absurd (hlam hw) (not_le.2 hf)

variable [OrderTop W]

/-- **C114** (partial).  Let a minimum spanning tree `t` of the graph `g` be clustered; and let there be no positive persistence, or no infinite edges and two labels used.
Then every cluster contains with a sample all samples that can be reached from it by edges of `g` shorter than `cluster_selection_epsilon`; so two clusters, and a cluster and a noise
sample, are at least epsilon apart.
Missing: persistence with a single cluster or with infinite edges, for which it fails (`C114_persistence`, `C114_persistence_infinite`). -/
theorem C114_apart_partial (n : ℕ) (hn : 2 ≤ n) (wt : ℕ → K) (g t : List (Edge W)) (hf : MinSpanningForest g t) (ht : SpanningTree n t)
    (o : ClusterOpts K) (h1 : 1 < o.minClusterSize) (h0 : ∀ x, x < n → 0 ≤ wt x)
    (hl : ∀ x, x < n → wt x < o.minClusterSize) (lam : W → K) (hlam : Antitone lam) (hpos : ∀ d, 0 ≤ lam d)
    {r : ClusterResult W K} (hr : clustersFromMst lam wt o t = some r)
    (hcase : o.persistence ≤ 0 ∨ (∀ e ∈ t, lam e.w ≠ 0) ∧ ∃ a ∈ r.labels, ∃ b ∈ r.labels, 0 ≤ a ∧ 0 ≤ b ∧ a ≠ b)
    (x y : ℕ) (i : ℤ) (hi : 0 ≤ i) (hx : r.labels[x]? = some i) (hxy : Conn (shorter lam o.epsilon g) x y) : r.labels[y]? = some i := by
  have hlen := ht.length (by omega)
  have ht' := ht.perm (lexsortMst_perm t)
  have hxy := conn_shorter hlam hf hxy
  by_cases hε : 0 < o.epsilon
  swap
  · have : x = y := by
      rcases Relation.ReflTransGen.cases_head hxy with h | ⟨z, ⟨e, he, -⟩, -⟩
      · exact h
      · obtain ⟨-, h3, h4⟩ := mem_shorter.1 he
        exact absurd ((one_div_pos.2 h3).trans h4) hε
    exact this ▸ hx
  have hcl := clustered_of_mst hn ht h1 h0 hl hlam hpos hr
  obtain ⟨k, hct, hnd, hnn, hrg, htop1, hempty, hmean, -⟩ := hcl.tree
  have hlt : ∀ {x : ℕ} {i : ℤ}, r.labels[x]? = some i → x < n := fun {x i} h => hmean.1 ▸ (List.getElem?_eq_some_iff.1 h).1
  have hyn : y < n := by
    rcases hxy.inRange (fun e he => ht.inRange e (mem_shorter.1 he).1) with h | h
    · exact h ▸ hlt hx
    · exact h.2
  -- without persistence, a sample leaves together with those near it, unless late
  have hnear : o.persistence ≤ 0 → ∀ ry ∈ r.condensed, ry.child = y → ∀ rx ∈ r.condensed, rx.child = x → rx.lam ≠ 0 → ry.lam ≠ 0 ∧
      (ry.lam < 1 / o.epsilon → rx.parent = ry.parent ∧ rx.lam = ry.lam) := by
    intro hper ry hry hcy rx hrx hcx hx0
    have hcond : r.condensed = condenseTree (Hier.ofRows (mstToLinkage wt (lexsortMst t))) wt o.minClusterSize none lam := by
      have e1 := hcl.simp
      unfold simplifyIf at e1
      rw [if_neg fun h => absurd h.1 (not_lt.2 hper), Option.some.injEq] at e1
      exact e1.symm
    obtain ⟨m, e, he, hle, hc⟩ := leave_together hn ht' h0 hl lam ry (hcond ▸ hry) (hcy ▸ hyn)
    have hlow : ry.lam < 1 / o.epsilon → rx.parent = ry.parent ∧ rx.lam = ry.lam := by
      refine fun hlow => hc rx (hcond ▸ hrx) (hcx ▸ hlt hx) ?_
      rw [hcx, hcy]
      refine (shorter_before hlam he (fun e' he' => ?_) hxy).symm
      obtain ⟨-, h4, h5⟩ := mem_shorter.1 he'
      rw [← hle]
      exact hlow.trans ((one_div_lt hε h4).2 h5)
    exact ⟨fun h => hx0 ((hlow (h ▸ one_div_pos.2 hε)).2.trans h), hlow⟩
  have hepsl : epsLam o.epsilon = some (1 / o.epsilon) := if_pos hε
  by_cases htop : n ∈ r.selected
  · -- the whole data set
    have hper : o.persistence ≤ 0 := by
      rcases hcase with h | ⟨-, a, ha, b, hb, ha0, hb0, hab⟩
      · exact h
      · have hz : ∀ a ∈ r.labels, 0 ≤ a → a = 0 := by
          intro a ha ha0
          obtain ⟨z, hz⟩ := List.mem_iff_getElem?.1 ha
          obtain ⟨a, rfl⟩ := Int.eq_ofNat_of_zero_le ha0
          obtain ⟨row, hrow, rfl⟩ := List.mem_map.1 ((hct.children z).2 (.inl (hlt hz)))
          have := (((hmean.2 row hrow (hlt hz)).2.1 htop a).1 hz).1
          omega
        exact absurd ((hz a ha ha0).trans (hz b hb hb0).symm) hab
    obtain ⟨i, rfl⟩ := Int.eq_ofNat_of_zero_le hi
    obtain ⟨rx, hrx, rfl⟩ := List.mem_map.1 ((hct.children x).2 (.inl (hlt hx)))
    obtain ⟨ry, hry, rfl⟩ := List.mem_map.1 ((hct.children y).2 (.inl hyn))
    obtain ⟨rfl, hx0, hdx⟩ := ((hmean.2 rx hrx (hlt hx)).2.1 htop i).1 hx
    obtain ⟨hne, hlow⟩ := hnear hper ry hry rfl rx hrx rfl hx0
    refine ((hmean.2 ry hry hyn).2.1 htop 0).2 ⟨rfl, hne, ?_⟩
    simp only [hepsl, DenseEnough] at hdx ⊢
    by_contra hno
    rw [not_le] at hno
    refine absurd hdx (not_le.2 ?_)
    rw [(hlow hno).2]
    exact hno
  -- the cluster is not born closer than epsilon
  have hrange : ∀ l ∈ r.labels, 0 ≤ l → l < r.selected.length := by
    intro l hm hl0
    obtain ⟨z, hz⟩ := List.mem_iff_getElem?.1 hm
    obtain ⟨l, rfl⟩ := Int.eq_ofNat_of_zero_le hl0
    obtain ⟨row, hrow, rfl⟩ := List.mem_map.1 ((hct.children z).2 (.inl (hlt hz)))
    obtain ⟨-, s, hs, -⟩ := ((hmean.2 row hrow (hlt hz)).1 htop l).1 hz
    have := (List.getElem?_eq_some_iff.1 hs).1
    rw [List.length_insertionSort] at this
    exact_mod_cast this
  obtain ⟨rows, k2, e0, hct2, hbin, hmono, hkind, -, hnemp⟩ := simplified_tree hn ht h1 h0 hl hlam hpos hcl.split
  obtain rfl : rows = r.condensed := Option.some.inj (e0.symm.trans hcl.simp)
  obtain rfl := hct2.k_unique hct
  obtain ⟨sel0, s1, s2, s3⟩ := selection_stages hr
  rw [hlen] at s2
  by_cases h2 : 1 < r.selected.length
  swap
  · -- a single cluster, and no error
    have hper : o.persistence ≤ 0 := by
      rcases hcase with h | ⟨-, a, ha, b, hb, ha0, hb0, hab⟩
      · exact h
      · have := hrange a ha ha0
        have := hrange b hb hb0
        omega
    have hlen1 : r.selected.length = 1 := by
      have := hrange i (List.mem_of_getElem? hx) hi
      omega
    obtain ⟨c, hc⟩ := List.length_eq_one_iff.1 hlen1
    have hcn : n < c := lt_of_le_of_ne (hrg c (by rw [hc]; simp)).1 fun h => htop (by rw [hc, h]; simp)
    have hnf := (C63_fails_iff n hn wt t ht o h1 h0 hl lam hlam hpos).not.1 (by rw [hr]; simp)
    push Not at hnf
    obtain ⟨i, rfl⟩ := Int.eq_ofNat_of_zero_le hi
    obtain ⟨rx, hrx, hcx⟩ := List.mem_map.1 ((hct.children x).2 (.inl (hlt hx)))
    obtain ⟨ry, hry, hcy⟩ := List.mem_map.1 ((hct.children y).2 (.inl hyn))
    have hmx := (hmean.2 rx hrx (hcx ▸ hlt hx)).1 htop i
    have hmy := (hmean.2 ry hry (hcy ▸ hyn)).1 htop i
    rw [hcx] at hmx
    rw [hcy] at hmy
    obtain ⟨hx0, s, hs, hsx⟩ := hmx.1 hx
    obtain rfl : s = c := by
      have := (List.mem_insertionSort _).1 (List.mem_of_getElem? hs)
      rw [hc] at this
      exact List.mem_singleton.1 this
    obtain ⟨hne, hlow⟩ := hnear hper ry hry hcy rx hrx hcx hx0
    refine hmy.2 ⟨hne, s, hs, ?_⟩
    by_contra hno
    have hnd := hnf.2 _ sel0 s ry hcl.simp s2 (by rw [s3, hc]) hcn hry (hcy ▸ hyn) hne (by rw [hcy]; exact hno)
    simp only [hepsl, DenseEnough, not_le] at hnd
    have hpar := (hlow hnd).1
    rcases Relation.ReflTransGen.cases_tail hsx with h | ⟨b, h, q, hq, hqp, hqc⟩
    · have := hlt hx
      omega
    · have hqr := List.inj_on_of_nodup_map hct.nodup hq hrx (hqc.trans hcx.symm)
      subst hqr
      exact hno (Relation.ReflTransGen.tail h ⟨ry, hry, by omega, hcy⟩)
  obtain ⟨j, rfl⟩ := Int.eq_ofNat_of_zero_le hi
  obtain ⟨row, hrow, hrn, hdx, hdy, srow, hsrow, hss, hsl⟩ : ∃ row ∈ condenseTree (Hier.ofRows (mstToLinkage wt (lexsortMst t))) wt o.minClusterSize none lam,
      n < row.child ∧ CDesc (condenseTree (Hier.ofRows (mstToLinkage wt (lexsortMst t))) wt o.minClusterSize none lam) row.child x ∧
      (CDesc (condenseTree (Hier.ofRows (mstToLinkage wt (lexsortMst t))) wt o.minClusterSize none lam) row.child y → r.labels[y]? = some (j : ℤ)) ∧
      ∃ srow ∈ r.condensed, srow.child ∈ r.selected ∧ srow.lam = row.lam := by
    rcases hcase with hper | ⟨hfin, -⟩
    · have hcond : r.condensed = condenseTree (Hier.ofRows (mstToLinkage wt (lexsortMst t))) wt o.minClusterSize none lam := by
        have e1 := hcl.simp
        unfold simplifyIf at e1
        rw [if_neg fun h => absurd h.1 (not_lt.2 hper), Option.some.injEq] at e1
        exact e1.symm
      obtain ⟨rx, hrx, hcx⟩ := List.mem_map.1 ((hct.children x).2 (.inl (hlt hx)))
      obtain ⟨ry, hry, hcy⟩ := List.mem_map.1 ((hct.children y).2 (.inl hyn))
      have hmx := (hmean.2 rx hrx (hcx ▸ hlt hx)).1 htop j
      have hmy := (hmean.2 ry hry (hcy ▸ hyn)).1 htop j
      rw [hcx] at hmx
      rw [hcy] at hmy
      obtain ⟨hx0, s, hs, hsx⟩ := hmx.1 hx
      have hss := (List.mem_insertionSort _).1 (List.mem_of_getElem? hs)
      have hsn : n < s := lt_of_le_of_ne (hrg s hss).1 fun h => htop (h ▸ hss)
      obtain ⟨row, hrow, hrs⟩ := List.mem_map.1 ((hct.children s).2 (.inr ⟨hsn, (hrg s hss).2⟩))
      rw [← hcond]
      exact ⟨row, hrow, hrs ▸ hsn, hrs ▸ hsx, fun h => hmy.2 ⟨(hnear hper ry hry hcy rx hrx hcx hx0).1, s, hs, hrs ▸ h⟩, row, hrow, hrs ▸ hss, rfl⟩
    · obtain ⟨-, -, hsel⟩ := labels_are_selected n hn wt t ht o h1 h0 hl lam hlam hfin hcl htop
      obtain ⟨row, a1, a2, a3, a4⟩ := hsel j (by have := hrange _ (List.mem_of_getElem? hx) hi; omega)
      exact ⟨row, a1, a2, (a3 x (hlt hx)).1 hx, (a3 y hyn).2, a4⟩
  obtain ⟨sel1, sel2, f1, f2, f3, f4, f5, f6, f7⟩ := hct.selection_any hnemp hkind hbin hmono { o with epsilon := 0 }
  obtain rfl : sel0 = sel1 := Option.some.inj (s2.symm.trans f1)
  have f2 : sel0 = sel2 := by
    unfold epsilonIf at f2
    rw [if_neg fun h => absurd h.2 (lt_irrefl _)] at f2
    exact Option.some.inj f2
  subst f2
  have hmany : 1 < sel0.length := by
    by_contra h
    unfold epsilonIf at s3
    rw [if_neg fun h' => h h'.1, Option.some.injEq] at s3
    rw [s3] at h
    exact h h2
  have hfar := (hct.epsilon_facts hkind hbin hmono o.epsilon f3 f4 f5 f7 f6 s3).2.2 ⟨hmany, hε⟩ _ hss srow hsrow rfl
  simp only [epsClose, decide_eq_false_iff_not, hsl] at hfar
  obtain ⟨m, e, he, hle, hc⟩ := C17_cluster_is_component n hn wt _ ht' o.minClusterSize h0 hl none lam row hrow hrn.le
  rw [hle] at hfar
  refine hdy ((hc x y hdx (hlt hx) hyn).2 ?_)
  refine shorter_before hlam he (fun e' he' => ?_) hxy
  obtain ⟨-, h4, h5⟩ := mem_shorter.1 he'
  by_contra hge
  rw [not_lt] at hge
  exact hfar ⟨h4.trans_le hge, (one_div_le_one_div_of_le h4 hge).trans_lt h5⟩

/-- **C114** (partial), `fit`, for rows with missing values and any minimum spanning tree of distances `reach` between the finite rows; options or labels as
in `C114_apart_partial`.  Then a row in a cluster and a finite row outside it are at least `cluster_selection_epsilon` apart
(at infinity if lambda is zero).
Missing: as in `C114_apart_partial`. -/
theorem C114_fit_partial (lam : W → K) (hlam : Antitone lam) (hpos : ∀ d, 0 ≤ lam d)
    (finite : α → Bool) (reach : α → α → W) (X : List α) (side : List β) (hside : side.length = X.length)
    (h2 : 2 ≤ (X.filter finite).length) (wt : β → K) (o : ClusterOpts K) (h1 : 1 < o.minClusterSize)
    (hw0 : ∀ b ∈ side, 0 ≤ wt b ∧ wt b < o.minClusterSize) (mst : List α → List β → List (Edge W)) (t : List (Edge W))
    (hmst : mst (X.filter finite) (((X.zip side).filter fun p => finite p.1).map Prod.snd) = t) (hspan : SpanningTree (X.filter finite).length t)
    (hmin : MinSpanningForest (completeGraph (X.filter finite).length (rowDist reach (X.filter finite))) t)
    (outliers : List ℕ) (hout : outliers.Perm ((List.range X.length).filter fun i => !(X[i]?.map finite).getD false))
    (r : FitResult W K) (hr : fitModel finite (fastHdbscan lam mst wt o) outliers X side = .ok r)
    (hcase : o.persistence ≤ 0 ∨ (∀ e ∈ t, lam e.w ≠ 0) ∧ ∃ a ∈ r.labels, ∃ b ∈ r.labels, 0 ≤ a ∧ 0 ≤ b ∧ a ≠ b)
    (j k : ℕ) (x y : α) (i : ℤ) (hi : 0 ≤ i) (hx : X[j]? = some x) (hy : X[k]? = some y)
    (hj : r.labels[j]? = some i) (hk : r.labels[k]? ≠ some i) (hfy : finite y = true) : lam (reach x y) = 0 ∨ o.epsilon ≤ 1 / lam (reach x y) := by
  obtain ⟨wt', r1, r1', hwt, h3, -, hlen, -, hrows⟩ := fit_two_runs hlam hpos hside h2 (o' := o) h1 rfl hw0 (hmst ▸ hspan) hout hr hr
  rw [hmst] at h3
  by_contra hno
  push Not at hno
  have hfx : finite x = true := by
    by_contra hf
    rw [Bool.not_eq_true] at hf
    have := ((hrows j x hx).1 hf).1.symm.trans hj
    simp only [Option.some.injEq] at this
    omega
  have hxr := ((hrows j x hx).2 hfx).1
  have hyr := ((hrows k y hy).2 hfy).1
  have hpx := finite_pos hx hfx
  have hpy := finite_pos hy hfy
  rw [hxr] at hj
  rw [hyr] at hk
  refine hk (C114_apart_partial _ h2 wt' _ t hmin hspan o h1 (fun x _ => (hwt x).1) (fun x _ => (hwt x).2) lam hlam hpos h3 ?_ _ _ i hi hj ?_)
  · refine hcase.imp_right fun htwo => ⟨htwo.1, ?_⟩
    obtain ⟨-, a, ha, b, hb, ha0, hb0, hab⟩ := htwo
    have hmem : ∀ a ∈ r.labels, 0 ≤ a → a ∈ r1.labels := by
      intro a ha ha0
      obtain ⟨z, hz⟩ := List.mem_iff_getElem?.1 ha
      have hzn : z < X.length := by rw [← hlen]; exact (List.getElem?_eq_some_iff.1 hz).1
      have hg := List.getElem?_eq_getElem hzn
      cases hf : finite X[z] with
      | false =>
        have := ((hrows z _ hg).1 hf).1.symm.trans hz
        simp only [Option.some.injEq] at this
        omega
      | true => exact List.mem_of_getElem? (((hrows z _ hg).2 hf).1.symm.trans hz)
    exact ⟨a, hmem a ha ha0, b, hmem b hb hb0, ha0, hb0, hab⟩
  · by_cases he : (X.take j).countP finite = (X.take k).countP finite
    · rw [he]; exact Conn.refl _ _
    · refine Conn.edge (e := ⟨(X.take j).countP finite, (X.take k).countP finite, reach x y⟩) (mem_shorter.2 ⟨mem_completeGraph.2
        ⟨(List.getElem?_eq_some_iff.1 hpx).1, (List.getElem?_eq_some_iff.1 hpy).1, he, ?_⟩, lt_of_le_of_ne (hpos _) (Ne.symm hno.1), hno.2⟩)
      simp only [rowDist, hpx, hpy]

/-- **C114** (partial), `algorithm='kruskal'`: clusters are at least `cluster_selection_epsilon` apart in the mutual reachability distance.
Missing: as in `C114_apart_partial`; sample weights. -/
theorem C114_fit_kruskal_partial [Zero W] (lam : W → K) (hlam : Antitone lam) (hpos : ∀ d, 0 ≤ lam d)
    (finite : α → Bool) (dist : α → α → W) (hsym : ∀ x y, dist x y = dist y x) (ms : ℕ) (X : List α) (h2 : 2 ≤ (X.filter finite).length)
    (o : ClusterOpts K) (h1 : 1 < o.minClusterSize)
    (outliers : List ℕ) (hout : outliers.Perm ((List.range X.length).filter fun i => !(X[i]?.map finite).getD false))
    (r : FitResult W K) (hr : fitModel finite (fastHdbscan lam (kruskalRows dist ms) (fun _ => 1) o) outliers X (X.map fun _ => ()) = .ok r)
    (hcase : o.persistence ≤ 0 ∨ (∀ x ∈ X, ∀ y ∈ X, lam (rowReach dist (X.filter finite) ms x y) ≠ 0) ∧ ∃ a ∈ r.labels, ∃ b ∈ r.labels, 0 ≤ a ∧ 0 ≤ b ∧ a ≠ b)
    (j k : ℕ) (x y : α) (i : ℤ) (hi : 0 ≤ i) (hx : X[j]? = some x) (hy : X[k]? = some y)
    (hj : r.labels[j]? = some i) (hk : r.labels[k]? ≠ some i) (hfy : finite y = true) :
    lam (rowReach dist (X.filter finite) ms x y) = 0 ∨ o.epsilon ≤ 1 / lam (rowReach dist (X.filter finite) ms x y) := by
  obtain ⟨h3, h4⟩ := kruskalRows_tree dist hsym ms (X.filter finite) h2 (((X.zip (X.map fun _ => ())).filter fun p => finite p.1).map Prod.snd)
  refine C114_fit_partial lam hlam hpos finite (rowReach dist (X.filter finite) ms) X (X.map fun _ => ()) (by simp) h2 (fun _ => 1) o h1
    (fun _ _ => ⟨zero_le_one, h1⟩) (kruskalRows dist ms) _ rfl h3 h4 outliers hout r hr (hcase.imp_right fun h => ⟨fun e he => ?_, h.2⟩) j k x y i hi hx hy hj hk hfy
  obtain ⟨e1, e2, -, e4⟩ := mem_completeGraph.1 (h4.forest.sub.subset he)
  rw [e4]
  simp only [rowDist, List.getElem?_eq_getElem e1, List.getElem?_eq_getElem e2]
  exact h.1 _ (List.mem_filter.1 (List.getElem_mem e1)).1 _ (List.mem_filter.1 (List.getElem_mem e2)).1

end
end Verif
