import Verif.Lemmas.BruteMst
import Verif.Lemmas.CondFacts
import Verif.Lemmas.LinkHier
import Verif.Props.Linkage

/-!
# Samples at the smallest distance, brute force Kruskal
-/

namespace Verif
variable {W S L : Type*}

/-! ### In the condensed tree -/

/-- Two samples below a node under which everything has the same height and every merge attaches a single sample leave the same cluster at the same lambda. -/
theorem CondRes.twins [LinearOrder S] [One S] {H : Hier W S} {wt : ℕ → S} {mcs : S} {mx : Option S} {lam : W → L} {rows : List (CRow L S)} {k : ℕ}
    {relabel top : ℕ → ℕ} (hh : CondHyp H wt mcs) (hr : CondRes H wt mcs mx lam rows k relabel top) {j x y : ℕ} (hj : j ≤ H.root)
    (hx : H.Sub j x) (hy : H.Sub j y) (hxn : x < H.n) (hyn : y < H.n) {δ : W}
    (hflat : ∀ v, H.Sub j v → H.n ≤ v → H.d (v - H.n) = δ ∧ ∃ a, H.IsKid v a ∧ a < H.n)
    {rx ry : CRow L S} (hrx : rx ∈ rows) (hry : ry ∈ rows) (hcx : rx.child = x) (hcy : ry.child = y) :
    rx.parent = ry.parent ∧ rx.lam = ry.lam := by
  have hv := hh.valid
  obtain ⟨v, hv1, hv2, hv3, _⟩ := hr.rows_pt rx hrx (by omega)
  obtain ⟨w, hw1, hw2, hw3, _⟩ := hr.rows_pt ry hry (by omega)
  rw [hcx] at hv1
  rw [hcy] at hw1
  by_cases hal : H.Alive wt mcs j
  · have hdown : ∀ {z v}, H.Sub j z → H.Home wt mcs z v → H.Sub j v := by
      intro z v hz hhome
      rcases (Home.sub hhome).comparable hv hz with h | h
      · rcases h.cases_head with rfl | ⟨b, hb1, hb2⟩
        · exact Hier.Sub.refl _
        · obtain ⟨_, a, ha1, ha2, ha3⟩ := hhome
          have hab := Hier.kids_disjoint hv ha1 hb1 ha3 (hb2.trans hz)
          subst hab
          refine absurd (alive_up hh hal hb2 ?_) ha2
          have := ha1.lt hv; have := ha1.2.1; have := H.root_eq; omega
      · exact h
    have hrel : ∀ {v}, H.Sub j v → H.Alive wt mcs v → relabel v = relabel j := by
      intro v hs
      induction hs with
      | refl => intro _; rfl
      | @tail w v hjw hwv ih =>
        intro hva
        have hwr : w ≤ H.root := (Hier.Sub.le hv hjw).trans hj
        have hwa := alive_up hh hva (Hier.Sub.kid hwv) hwr
        obtain ⟨a, ha1, ha2⟩ := (hflat w hjw hwa.1).2
        have hne : v ≠ a := by have := hva.1; omega
        rw [hr.one w hwa v a hwv ha1 hne hva (fun h => by have := h.1; omega)]
        exact ih hwa
    have h1 := hdown hx hv1
    have h2 := hdown hy hw1
    rw [hv2, hw2, hv3, hw3, hrel h1 hv1.1, hrel h2 hw1.1, (hflat v h1 hv1.1.1).1, (hflat w h2 hw1.1.1).1]
    exact ⟨rfl, rfl⟩
  · have : H.Home wt mcs y v := by
      obtain ⟨hva, a, ha1, ha2, ha3⟩ := hv1
      rcases ((Hier.Sub.kid ha1).trans ha3).comparable hv hx with h | h
      · rcases h.cases_head with rfl | ⟨b, hb1, hb2⟩
        · exact absurd hva hal
        · have hab := Hier.kids_disjoint hv ha1 hb1 ha3 (hb2.trans hx)
          subst hab
          exact ⟨hva, a, ha1, ha2, hb2.trans hy⟩
      · exact absurd (alive_up hh hva h hj) hal
    have := Home.unique hh this hw1
    subst this
    exact ⟨hv2.trans hw2.symm, hv3.trans hw3.symm⟩

/-! ### In the linkage table -/

/-- A merge whose edge has an endpoint that no earlier edge touches attaches a single sample. -/
theorem link_single [LinearOrder W] [AddCommMonoid S] [Inhabited W] [Inhabited S] {n : ℕ} (hn : 0 < n) (wt : ℕ → S) {es : List (Edge W)} (ht : SpanningTree n es)
    (hs : es.Pairwise fun a b => a.w ≤ b.w) {i : ℕ} {e : Edge W} (hi : es[i]? = some e) (hfree : ∀ f ∈ es.take i, f.u ≠ e.v ∧ f.v ≠ e.v) :
    (Hier.ofRows (mstToLinkage wt es)).IsKid (n + i) e.v := by
  obtain ⟨hden, hd, -, hnode⟩ := C12_linkage_is_dendrogram n hn wt es ht hs
  have hHn := hden.hier_n
  have hv := hden.valid
  have hl := ht.length hn
  have hil := (List.getElem?_eq_some_iff.1 hi).1
  have hrl : (mstToLinkage wt es).length = es.length := by
    have := congrArg List.length hd; simpa using this
  have hevn : e.v < n := (ht.inRange e (List.mem_of_getElem? hi)).2
  have hbel : Below n (mstToLinkage wt es) (n + i) e.v := by
    refine (hnode i e hi e.v hevn).2 (Conn.edge (e := e) ?_).symm
    rw [List.mem_iff_getElem?]
    exact ⟨i, by rw [List.getElem?_take, if_pos (by omega)]; exact hi⟩
  -- the kid above `e.v`
  obtain ⟨_, hsub⟩ := (below_iff_sub hHn).1 hbel
  rcases hsub.cases_head with h | ⟨a, ha1, ha2⟩
  · omega
  rcases ha2.cases_tail with h | ⟨p, hp1, hp2⟩
  · rw [h]; exact ha1
  -- another sample below `p`
  exfalso
  have hpn := hp2.1
  have hpa : p ≤ a := hp1.le hv
  have hai : a < n + i := ha1.lt hv
  rw [hHn] at hpn
  obtain ⟨j, rfl⟩ := Nat.exists_eq_add_of_le hpn
  have hji : j < i := by omega
  obtain ⟨f, hf⟩ : ∃ f, es[j]? = some f := ⟨_, List.getElem?_eq_getElem (by omega)⟩
  have hc : Conn (es.take (j + 1)) e.v f.u := (hnode j f hf e.v hevn).1 ((below_iff_sub hHn).2 ⟨hevn, Hier.Sub.kid hp2⟩)
  have hstuck : ∀ {z}, Conn (es.take (j + 1)) e.v z → z = e.v := by
    intro z hz
    induction hz with
    | refl => rfl
    | @tail b c _ hbc ih =>
      obtain ⟨g, hg, hg2⟩ := hbc
      have hgi : g ∈ es.take i := by
        obtain ⟨m, hm⟩ := List.mem_iff_getElem?.1 hg
        have hm1 : m < j + 1 := by
          have := (List.getElem?_eq_some_iff.1 hm).1; rw [List.length_take] at this; omega
        rw [List.getElem?_take, if_pos hm1] at hm
        exact List.mem_iff_getElem?.2 ⟨m, by rw [List.getElem?_take, if_pos (by omega)]; exact hm⟩
      have := hfree g hgi
      rcases hg2 with ⟨rfl, rfl⟩ | ⟨rfl, rfl⟩
      · exact absurd ih this.1
      · exact absurd ih this.2
  have hfu := hstuck hc
  refine (hfree f ?_).1 hfu
  exact List.mem_iff_getElem?.2 ⟨j, by rw [List.getElem?_take, if_pos (by omega)]; exact hf⟩

/-- The node at which two samples meet, when the first `m` edges connect them. -/
theorem link_join [LinearOrder W] [AddCommMonoid S] [Inhabited W] [Inhabited S] {n : ℕ} (hn : 0 < n) (wt : ℕ → S) {es : List (Edge W)} (ht : SpanningTree n es)
    (hs : es.Pairwise fun a b => a.w ≤ b.w) {m x y : ℕ} (hx : x < n) (hy : y < n) (hxy : x ≠ y) (hc : Conn (es.take m) x y) :
    ∃ i, i < m ∧ i < es.length ∧ (Hier.ofRows (mstToLinkage wt es)).Sub (n + i) x ∧ (Hier.ofRows (mstToLinkage wt es)).Sub (n + i) y := by
  obtain ⟨hden, -, -, hnode⟩ := C12_linkage_is_dendrogram n hn wt es ht hs
  have hHn := hden.hier_n
  induction m with
  | zero =>
    rw [List.take_zero] at hc
    exact absurd (Conn.nil.1 hc) hxy
  | succ m ih =>
    by_cases hm : m < es.length
    · have hem := List.getElem?_eq_getElem hm
      have hsnoc : es.take (m + 1) = es.take m ++ [es[m]] := by rw [List.take_add_one, hem]; rfl
      by_cases hc' : Conn (es.take m) x y
      · obtain ⟨i, h1, h2⟩ := ih hc'
        exact ⟨i, by omega, h2⟩
      · have hux : Conn (es.take (m + 1)) x es[m].u := by
          have hedge : Conn (es.take (m + 1)) es[m].u es[m].v := Conn.edge (by
            rw [hsnoc]; exact List.mem_append_right _ (List.mem_singleton_self _))
          have hup : ∀ {a b}, Conn (es.take m) a b → Conn (es.take (m + 1)) a b := fun h => by rw [hsnoc]; exact h.append_left
          rw [hsnoc, Conn.snoc_iff] at hc
          rcases hc with h | h | h
          · exact absurd h hc'
          · exact hup h.1
          · exact (hup h.1).trans hedge.symm
        exact ⟨m, by omega, hm, ((below_iff_sub hHn).1 ((hnode m _ hem x hx).2 hux)).2,
          ((below_iff_sub hHn).1 ((hnode m _ hem y hy).2 (hc.symm.trans hux))).2⟩
    · rw [List.take_of_length_le (by omega)] at hc
      obtain ⟨i, h1, h2⟩ := ih (by rw [List.take_of_length_le (by omega)]; exact hc)
      exact ⟨i, by omega, h2⟩

/-- Two samples joined by edges of weight zero leave the same cluster at the same lambda, if the edges of weight zero form stars around their first endpoints. -/
theorem tree_same {K : Type*} [Field K] [LinearOrder K] [IsStrictOrderedRing K] [Inhabited K] [LinearOrder W] [Inhabited W] [Zero W] {n : ℕ} (hn : 2 ≤ n)
    (wt : ℕ → K) {es : List (Edge W)} (ht' : SpanningTree n es) (hsort : es.Pairwise fun a b => a.w ≤ b.w) (hwt : ∀ e ∈ es, 0 ≤ e.w)
    (hstar : ∀ e ∈ es, ∀ f ∈ es, e.w = 0 → f.w = 0 → f ≠ e → f.u ≠ e.v ∧ f.v ≠ e.v) {x y : ℕ} (hx : x < n) (hy : y < n) (hne : x ≠ y)
    (hconn : Conn (upTo 0 es) x y) {mcs : K} (h0 : ∀ x, x < n → 0 ≤ wt x) (hl : ∀ x, x < n → wt x < mcs) (lam : W → L) :
    ∀ rx ∈ condenseTree (Hier.ofRows (mstToLinkage wt es)) wt mcs none lam, ∀ ry ∈ condenseTree (Hier.ofRows (mstToLinkage wt es)) wt mcs none lam,
      rx.child = x → ry.child = y → rx.parent = ry.parent ∧ rx.lam = ry.lam := by
  have hn0 : 0 < n := by omega
  have hm : ∃ m, m ≤ es.length ∧ ∀ i e, es[i]? = some e → (i < m ↔ e.w = 0) := by
    refine ⟨(upTo (0 : W) es).length, List.length_filter_le _ _, ?_⟩
    have key : ∀ (l : List (Edge W)), (∀ e ∈ l, 0 ≤ e.w) → l.Pairwise (fun a b => a.w ≤ b.w) → ∀ i e, l[i]? = some e →
        (i < (upTo (0 : W) l).length ↔ e.w = 0) := by
      intro l
      induction l with
      | nil => intro _ _ i e he; simp at he
      | cons a l ih =>
        intro hpos hs i e he
        obtain ⟨hs1, hs2⟩ := List.pairwise_cons.1 hs
        by_cases ha : a.w ≤ 0
        · have hcons : upTo (0 : W) (a :: l) = a :: upTo 0 l := by unfold upTo; rw [List.filter_cons, if_pos (decide_eq_true ha)]
          rw [hcons, List.length_cons]
          cases i with
          | zero =>
            simp only [List.getElem?_cons_zero, Option.some.injEq] at he
            subst he
            exact ⟨fun _ => le_antisymm ha (hpos a (by simp)), fun _ => by omega⟩
          | succ i =>
            rw [List.getElem?_cons_succ] at he
            rw [← ih (fun e he => hpos e (by simp [he])) hs2 i e he]
            omega
        · have hall : ∀ b ∈ a :: l, 0 < b.w := by
            intro b hb
            rcases List.mem_cons.1 hb with rfl | hb
            · exact not_le.1 ha
            · exact (not_le.1 ha).trans_le (hs1 b hb)
          have hnil : upTo (0 : W) (a :: l) = [] := by
            unfold upTo
            rw [List.filter_eq_nil_iff]
            intro b hb
            simp only [decide_eq_true_eq, not_le]
            exact hall b hb
          rw [hnil]
          simp only [List.length_nil, Nat.not_lt_zero, false_iff]
          exact (hall e (List.mem_of_getElem? he)).ne'
    exact key es hwt hsort
  obtain ⟨m, hml, hm⟩ := hm
  have hct : Conn (es.take m) x y := by
    refine hconn.mono fun e he => ?_
    obtain ⟨h3, h4⟩ := mem_upTo.1 he
    obtain ⟨i, hi⟩ := List.mem_iff_getElem?.1 h3
    have him := (hm i e hi).2 (le_antisymm h4 (hwt e h3))
    exact List.mem_iff_getElem?.2 ⟨i, by rw [List.getElem?_take, if_pos him]; exact hi⟩
  obtain ⟨i, him, hil, hsx, hsy⟩ := link_join hn0 wt ht' hsort hx hy hne hct
  obtain ⟨hden, hdist, -, -⟩ := C12_linkage_is_dendrogram n hn0 wt es ht' hsort
  have hHn := hden.hier_n
  have hh := hden.condHyp h0 hl
  have hrl : (mstToLinkage wt es).length = es.length := by
    have := congrArg List.length hdist; simpa using this
  have hmpos : 0 < (Hier.ofRows (mstToLinkage wt es)).m := by
    change 0 < (mstToLinkage wt es).length; omega
  obtain ⟨k, relabel, top, hres⟩ := condense_res (mx := none) hh hmpos lam
  intro rx hrx ry hry hcx hcy
  refine hres.twins (δ := 0) hh (j := n + i) ?_ hsx hsy (by rw [hHn]; exact hx) (by rw [hHn]; exact hy) (fun v hv hvn => ?_) hrx hry hcx hcy
  · have h3 := (Hier.ofRows (mstToLinkage wt es)).root_eq
    have h4 : (Hier.ofRows (mstToLinkage wt es)).m = es.length := hrl
    rw [hHn, h4] at h3; omega
  · rw [hHn] at hvn ⊢
    obtain ⟨j, rfl⟩ := Nat.exists_eq_add_of_le hvn
    have hji : j ≤ i := by have := Hier.Sub.le hh.valid hv; omega
    have hej := List.getElem?_eq_getElem (show j < es.length by omega)
    have hwj := (hm j _ hej).1 (by omega)
    have hdj : (Hier.ofRows (mstToLinkage wt es)).d j = es[j].w := by
      have h3 : (mstToLinkage wt es)[j]? = some (mstToLinkage wt es)[j] := List.getElem?_eq_getElem (by omega)
      rw [Hier.ofRows_d h3]
      have h4 := congrArg (fun l => l[j]?) hdist
      simp only [List.getElem?_map, h3, hej, Option.map_some, Option.some.injEq] at h4
      exact h4
    refine ⟨by rw [Nat.add_sub_cancel_left, hdj, hwj], es[j].v, ?_, (ht'.inRange _ (List.mem_of_getElem? hej)).2⟩
    refine link_single hn0 wt ht' hsort hej fun f hf => ?_
    obtain ⟨l, hfl⟩ := List.mem_iff_getElem?.1 hf
    have hlj : l < j := by have := (List.getElem?_eq_some_iff.1 hfl).1; rw [List.length_take] at this; omega
    rw [List.getElem?_take, if_pos hlj] at hfl
    have hnd : es.Nodup := ht'.acyclic.nodup
    refine hstar _ (List.mem_of_getElem? hej) _ (List.mem_of_getElem? hfl) hwj ((hm l f hfl).1 (by omega)) fun he => ?_
    subst he
    have := (List.getElem?_inj (show l < es.length by omega) hnd).1 (hfl.trans hej.symm)
    omega

/-! ### Kruskal, brute force -/

/-- An edge is taken greedily only if the edges before it leave its endpoints apart. -/
theorem Greedy.before {es acc : List (Edge W)} (h : Greedy (fun _ _ => False) es acc) {e : Edge W} (he : e ∈ acc) :
    ∃ pre post, es = pre ++ e :: post ∧ ¬ Conn pre e.u e.v := by
  induction h with
  | nil => simp at he
  | @take es acc f hg hp ih =>
    rcases List.mem_append.1 he with he | he
    · obtain ⟨pre, post, rfl, h2⟩ := ih he
      exact ⟨pre, post ++ [f], by simp, h2⟩
    · simp only [List.mem_singleton] at he
      subst he
      exact ⟨es, [], rfl, fun hc => hp.1 ((hg.conn_iff _ _).2 hc)⟩
  | @skip es acc f _ _ ih =>
    obtain ⟨pre, post, rfl, h2⟩ := ih he
    exact ⟨pre, post ++ [f], by simp, h2⟩

/-- Insertion sort is stable. -/
theorem insertionSort_stable {α : Type*} [LinearOrder W] (w : α → W) {R : α → α → Prop} {l : List α} (h : l.Pairwise R) :
    (l.insertionSort fun a b => w a ≤ w b).Pairwise fun a b => w a < w b ∨ w a = w b ∧ R a b := by
  induction l with
  | nil => simp
  | cons a l ih =>
    obtain ⟨h1, h2⟩ := List.pairwise_cons.1 h
    have h3 := ih h2
    have hmem : ∀ b ∈ l.insertionSort fun a b => w a ≤ w b, R a b := fun b hb => h1 b ((List.perm_insertionSort _ l).mem_iff.1 hb)
    rw [List.insertionSort_cons]
    generalize l.insertionSort (fun a b => w a ≤ w b) = m at h3 hmem
    induction m with
    | nil => simp
    | cons b m ihm =>
      obtain ⟨h4, h5⟩ := List.pairwise_cons.1 h3
      unfold List.orderedInsert
      split
      · rename_i hab
        refine List.pairwise_cons.2 ⟨fun c hc => ?_, h3⟩
        have hbc : w b ≤ w c := by
          rcases List.mem_cons.1 hc with rfl | hc
          · exact le_rfl
          · rcases h4 c hc with h6 | h6
            · exact h6.le
            · exact h6.1.le
        rcases (hab.trans hbc).lt_or_eq with h6 | h6
        · exact .inl h6
        · exact .inr ⟨h6, hmem c hc⟩
      · rename_i hab
        refine List.pairwise_cons.2 ⟨fun c hc => ?_, ihm h5 fun c hc => hmem c (List.mem_cons_of_mem _ hc)⟩
        rcases List.mem_cons.1 ((List.perm_orderedInsert _ a m).mem_iff.1 hc) with rfl | hc
        · exact .inl (not_le.1 hab)
        · exact h4 c hc

theorem triuEdges_order [LinearOrder W] (n : ℕ) (D : ℕ → ℕ → W) (cd : ℕ → W) :
    (triuEdges n D cd).Pairwise fun a b => a.u < b.u ∨ a.u = b.u ∧ a.v < b.v := by
  unfold triuEdges
  rw [List.pairwise_flatMap]
  refine ⟨fun i _ => ?_, ?_⟩
  · rw [List.pairwise_map]
    refine (List.pairwise_lt_range.filter _).imp fun h => .inr ⟨rfl, h⟩
  · refine List.pairwise_lt_range.imp fun {i i'} h a ha b hb => .inl ?_
    obtain ⟨_, _, rfl⟩ := List.mem_map.1 ha
    obtain ⟨_, _, rfl⟩ := List.mem_map.1 hb
    exact h

/-- Two edges of the smallest weight that brute force takes never share the larger endpoint of one of them, when the smallest weight is transitive. -/
theorem kruskalBrute_star [LinearOrder W] [OrderTop W] [Zero W] {n : ℕ} {D : ℕ → ℕ → W} {w : ℕ → ℕ → W} {ms : ℕ}
    (hw : ∀ i j, w i j = max (max (bruteCore n ms D i) (bruteCore n ms D j)) (D i j)) (hsym : ∀ i j, w i j = w j i) {δ : W}
    (htr : ∀ i j l, i < n → j < n → l < n → w i j = δ → w j l = δ → w i l = δ) {e f : Edge W} (he : e ∈ kruskalBrute n ms D CLParams.none)
    (hf : f ∈ kruskalBrute n ms D CLParams.none) (hew : e.w = δ) (hfw : f.w = δ) (hne : f ≠ e) : f.u ≠ e.v ∧ f.v ≠ e.v := by
  obtain ⟨heq, -⟩ := kruskalBrute_core n ms D
  set g := triuEdges n D (bruteCore n ms D) with hg
  have hr : InRange n g := fun e he => by
    obtain ⟨h1, h2, _⟩ := mem_triuEdges.1 he
    omega
  have hgr := (kruskalCore_inv (sortEdges_inRange hr)).greedy
  rw [heq] at he hf
  have hord : (sortEdges g).Pairwise fun a b => a.w < b.w ∨ a.w = b.w ∧ (a.u < b.u ∨ a.u = b.u ∧ a.v < b.v) :=
    insertionSort_stable Edge.w (triuEdges_order n D _)
  have hmem : ∀ {e}, e ∈ sortEdges g ↔ e.u < e.v ∧ e.v < n ∧ e.w = w e.u e.v := by
    intro e
    rw [(sortEdges_perm g).mem_iff, hg, mem_triuEdges, hw]
  -- an edge taken is not preceded by a detour
  have key : ∀ {e : Edge W} {i : ℕ}, e ∈ (kruskalCore n (sortEdges g)).mst → e.w = δ → i < e.u → w i e.u = δ → False := by
    intro e i he hew hi hiu
    obtain ⟨pre, post, hsplit, hno⟩ := hgr.before he
    obtain ⟨h1, h2, h3⟩ := hmem.1 (hgr.sublist.subset he)
    have hiv : w i e.v = δ := htr i e.u e.v (by omega) (by omega) h2 hiu (by rw [← h3]; exact hew)
    have hin : ∀ j, i < j → j < n → w i j = δ → (⟨i, j, δ⟩ : Edge W) ∈ pre := by
      intro j hij hjn hwj
      have hm : (⟨i, j, δ⟩ : Edge W) ∈ sortEdges g := hmem.2 ⟨hij, hjn, hwj.symm⟩
      rw [hsplit] at hm hord
      rw [List.pairwise_append, List.pairwise_cons] at hord
      rcases List.mem_append.1 hm with h | h
      · exact h
      · rcases List.mem_cons.1 h with h | h
        · rw [← h] at hi; exact absurd hi (lt_irrefl _)
        · rcases hord.2.1.1 _ h with h4 | ⟨_, h4⟩
          · rw [hew] at h4; exact absurd h4 (lt_irrefl _)
          · simp only at h4; omega
    have c1 : Conn pre i e.u := Conn.edge (hin e.u hi (by omega) hiu)
    have c2 : Conn pre i e.v := Conn.edge (hin e.v (by omega) h2 hiv)
    exact hno (c1.symm.trans c2)
  obtain ⟨e1, e2, e3⟩ := hmem.1 (hgr.sublist.subset he)
  obtain ⟨f1, f2, f3⟩ := hmem.1 (hgr.sublist.subset hf)
  rw [hew] at e3
  rw [hfw] at f3
  refine ⟨fun h => ?_, fun h => ?_⟩
  · exact key hf hfw (i := e.u) (by omega) (by rw [h]; exact e3.symm)
  · rcases Nat.lt_trichotomy e.u f.u with h4 | h4 | h4
    · refine key hf hfw h4 (htr e.u e.v f.u (by omega) e2 (by omega) e3.symm ?_)
      rw [hsym, ← h]; exact f3.symm
    · refine hne ?_
      cases e; cases f; simp_all
    · refine key he hew h4 (htr f.u f.v e.u (by omega) f2 (by omega) f3.symm ?_)
      rw [hsym, h]; exact e3.symm

end Verif
