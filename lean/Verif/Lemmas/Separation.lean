import Verif.Lemmas.LinkHier
import Verif.Props.Linkage

/-!
# Lemmas: clusters and the `+inf` edges of the spanning tree
-/

namespace Verif
variable {W S L : Type*}

section
variable {H : Hier W S} {wt : ℕ → S} {mcs : S} {lam : W → L} {rows : List (CRow L S)} {k : ℕ} {relabel top : ℕ → ℕ}
  [One S] [LinearOrder S]

/-- A cluster's split is the last thing that happens to it. -/
theorem CondRes.split_last [Preorder W] [Preorder L] (hh : CondHyp H wt mcs) (hlam : Antitone lam)
    (hd : ∀ i j, i ≤ j → j < H.m → H.d i ≤ H.d j) (h : CondRes H wt mcs none lam rows k relabel top) :
    ∀ row ∈ rows, ∀ row' ∈ rows, row.parent = row'.parent → H.n ≤ row'.child → row.lam ≤ row'.lam := by
  intro row hrow row' hrow' he hc'
  obtain ⟨_, _, v', h1, h2, h3, h4, _, _, hs'⟩ := h.rows_cl row' hrow' hc'
  have hR := H.root_eq
  have key : ∀ v, H.Alive wt mcs v → row.parent = relabel v → row.lam = lam (H.d (v - H.n)) → row.lam ≤ row'.lam := by
    intro v g1 g2 g3
    have hl : relabel v' = relabel v := by rw [← h3, ← g2, he]
    have hsub : H.Sub v v' := by
      rcases h.label_chain hh h1 g1 hl with g | g
      · rw [h.split_bottom hh h1 g1 hs' hl g]; exact Hier.Sub.refl _
      · exact g
    rw [g3, h4]
    exact hlam (hsub.height hh.valid hd h1.1 g1.2.1)
  by_cases hc : row.child < H.n
  · obtain ⟨v, g1, g2, g3, _⟩ := h.rows_pt row hrow hc
    exact key v g1.1 g2 g3
  · obtain ⟨_, _, v, g1, _, g2, g3, _⟩ := h.rows_cl row hrow (by omega)
    exact key v g1 g2 g3

/-- Two samples of a cluster below which nothing splits at height `⊤` meet at a node of height below `⊤`. -/
theorem CondRes.meet [Preorder W] [OrderTop W] (hh : CondHyp H wt mcs)
    (h : CondRes H wt mcs none lam rows k relabel top) {c : ℕ} (hc : H.n ≤ c) (hck : c < H.n + k)
    (hfin : ∀ row ∈ rows, H.n ≤ row.child → CDesc rows c row.parent → row.lam ≠ lam ⊤)
    {rx ry : CRow L S} (hx : rx ∈ rows) (hy : ry ∈ rows) (hxn : rx.child < H.n) (hyn : ry.child < H.n)
    (hxc : CDesc rows c rx.child) (hyc : CDesc rows c ry.child) (hxl : rx.lam ≠ lam ⊤) (hyl : ry.lam ≠ lam ⊤) :
    ∃ v, H.n ≤ v ∧ v ≤ H.root ∧ H.Sub v rx.child ∧ H.Sub v ry.child ∧ H.d (v - H.n) ≠ ⊤ := by
  have hv := hh.valid
  obtain ⟨vx, hvx, hpx, hlx, _⟩ := h.rows_pt rx hx hxn
  obtain ⟨vy, hvy, hpy, hly, _⟩ := h.rows_pt ry hy hyn
  have hdx : H.d (vx - H.n) ≠ ⊤ := fun e => hxl (by rw [hlx, e])
  have hdy : H.d (vy - H.n) ≠ ⊤ := fun e => hyl (by rw [hly, e])
  obtain ⟨ht, htc⟩ := h.tops c hc hck
  have hsx : H.Sub (top c) vx := by
    obtain ⟨w, hw, hsw⟩ := exists_home hh ht hxn ((h.below_iff hh hc hck hxn).1 hxc)
    rwa [Home.unique hh hvx hw]
  have hsy : H.Sub (top c) vy := by
    obtain ⟨w, hw, hsw⟩ := exists_home hh ht hyn ((h.below_iff hh hc hck hyn).1 hyc)
    rwa [Home.unique hh hvy hw]
  have main : ∀ u, H.Alive wt mcs u → CDesc rows c (relabel u) → H.Sub u vx → H.Sub u vy →
      ∃ v, H.n ≤ v ∧ v ≤ H.root ∧ H.Sub v rx.child ∧ H.Sub v ry.child ∧ H.d (v - H.n) ≠ ⊤ := by
    intro u
    induction u using Nat.strong_induction_on with
    | _ u ih =>
      intro hu hcu h1 h2
      rcases h1.cases_head with h3 | ⟨a, ha, hax⟩
      · subst h3; exact ⟨u, hu.1, hu.2.1, h1.trans (Home.sub hvx), h2.trans (Home.sub hvy), hdx⟩
      rcases h2.cases_head with h3 | ⟨b, hb, hby⟩
      · subst h3; exact ⟨u, hu.1, hu.2.1, h1.trans (Home.sub hvx), h2.trans (Home.sub hvy), hdy⟩
      have haR := ha.lt hv
      have hbR := hb.lt hv
      have huR := hu.2.1
      have haa : H.Alive wt mcs a := alive_up hh hvx.1 hax (by omega)
      have hba : H.Alive wt mcs b := alive_up hh hvy.1 hby (by omega)
      by_cases hab : a = b
      · subst hab
        exact ih a haR haa (hcu.trans (h.desc_of_sub hh huR (Hier.Sub.kid ha) haa)) hax hby
      · have hs : H.Split wt mcs none u := by
          have hca := (alive_kid_iff hh ha).1 haa
          have hcb := (alive_kid_iff hh hb).1 hba
          rcases ha.2.2 with rfl | rfl <;> rcases hb.2.2 with rfl | rfl
          · exact absurd rfl hab
          · exact split_of_none hca hcb
          · exact split_of_none hcb hca
          · exact absurd rfl hab
        rcases h.kid_label hh hu ha haa with ⟨h3, _⟩ | ⟨_, _, row, h3, h4, h5, h6, _⟩
        · exact absurd hs h3
        · refine ⟨u, hu.1, huR, h1.trans (Home.sub hvx), h2.trans (Home.sub hvy), fun e => ?_⟩
          refine hfin row h3 ?_ (by rw [h4]; exact hcu) (by rw [h6, e])
          rw [h5]; exact (h.lab a haa).1
  exact main (top c) ht (by rw [htc]; exact .refl) hsx hsy

end

/-- The samples below a node of height below `⊤` are connected by finite tree edges. -/
theorem conn_of_meet [LinearOrder W] [OrderTop W] [AddCommMonoid S] [Inhabited W] [Inhabited S] {n : ℕ} (hn : 0 < n)
    (wt : ℕ → S) {t : List (Edge W)} (ht : SpanningTree n t) (hs : t.Pairwise fun a b => a.w ≤ b.w) {v x y : ℕ}
    (hx : x < n) (hy : y < n) (hvn : n ≤ v) (hvR : v ≤ (Hier.ofRows (mstToLinkage wt t)).root)
    (h1 : (Hier.ofRows (mstToLinkage wt t)).Sub v x) (h2 : (Hier.ofRows (mstToLinkage wt t)).Sub v y)
    (hd : (Hier.ofRows (mstToLinkage wt t)).d (v - n) ≠ ⊤) : Conn (below ⊤ t) x y := by
  have hlen := ht.length hn
  subst hlen
  have hfull := linkage_fold_inv wt ht.inRange ht.acyclic le_rfl
  have hlen : (mstToLinkage wt t).length = t.length := hfull.len
  have hHn : (Hier.ofRows (mstToLinkage wt t)).n = t.length + 1 := by
    change (mstToLinkage wt t).length + 1 = _; omega
  have hRe := (Hier.ofRows (mstToLinkage wt t)).root_eq
  have hm : (Hier.ofRows (mstToLinkage wt t)).m = t.length := hlen
  have hvlt : v - (t.length + 1) < t.length := by omega
  have hve : v = t.length + 1 + (v - (t.length + 1)) := by omega
  have hrow' : (mstToLinkage wt t)[v - (t.length + 1)]? = some (mstToLinkage wt t)[v - (t.length + 1)] :=
    List.getElem?_eq_getElem (by omega)
  have he : t[v - (t.length + 1)]? = some t[v - (t.length + 1)] := List.getElem?_eq_getElem hvlt
  rw [Hier.ofRows_d hrow'] at hd
  have hdw : (mstToLinkage wt t)[v - (t.length + 1)].d = t[v - (t.length + 1)].w := by
    have hd := congrArg (fun l => l[v - (t.length + 1)]?) hfull.dist
    simp only [List.getElem?_map] at hd
    rw [show (t.foldl (linkStep (2 * (t.length + 1) - 1)) (linkInit (t.length + 1) wt)).rows =
      mstToLinkage wt t from rfl, hrow', he] at hd
    simpa using hd
  rw [hdw] at hd
  have hbx := (below_iff_sub hHn).2 ⟨hx, h1⟩
  have hby := (below_iff_sub hHn).2 ⟨hy, h2⟩
  rw [hve] at hbx hby
  refine (C12_below_connected _ hn wt t ht _ _ he x y hbx hby).mono fun e hme => ?_
  rw [List.mem_take_iff_getElem] at hme
  obtain ⟨i, hi, rfl⟩ := hme
  have hle : t[i].w ≤ t[v - (t.length + 1)].w := by
    rcases Nat.lt_or_ge i (v - (t.length + 1)) with hlt | hge
    · exact List.pairwise_iff_getElem.1 hs i _ (by omega) hvlt hlt
    · have : i = v - (t.length + 1) := by omega
      subst this; exact le_rfl
  exact List.mem_filter.2 ⟨List.getElem_mem _, decide_eq_true (hle.trans_lt (lt_top_iff_ne_top.2 hd))⟩

end Verif
