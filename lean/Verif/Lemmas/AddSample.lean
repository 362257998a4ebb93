import Verif.Lemmas.LinkSame
import Verif.Lemmas.LinkHier
import Verif.Lemmas.CondRen

/-!
# One more sample, joined by the last merge: the single linkage tree and the condensed tree
-/

namespace Verif
variable {W S L : Type*}

/-- Number of a node when one sample is added: samples keep theirs. -/
def up (n x : ℕ) : ℕ := if x < n then x else x + 1

theorem up_lt {n x : ℕ} (h : x < n) : up n x = x := if_pos h
theorem up_ge {n x : ℕ} (h : n ≤ x) : up n x = x + 1 := if_neg (by omega)

theorem up_inj {n x y : ℕ} : up n x = up n y ↔ x = y := by
  unfold up; split_ifs <;> omega

theorem up_le {n x y : ℕ} : up n x ≤ up n y ↔ x ≤ y := by
  unfold up; split_ifs <;> omega

theorem up_lt_succ {n x : ℕ} : up n x < n + 1 ↔ x < n := by
  unfold up; split_ifs <;> omega

theorem up_ne {n x : ℕ} : up n x ≠ n := by
  unfold up; split_ifs <;> omega

theorem up_max (n x y : ℕ) : up n (max x y) = max (up n x) (up n y) := by
  rcases le_total x y with h | h
  · rw [max_eq_right h, max_eq_right (up_le.2 h)]
  · rw [max_eq_left h, max_eq_left (up_le.2 h)]

theorem up_min (n x y : ℕ) : up n (min x y) = min (up n x) (up n y) := by
  rcases le_total x y with h | h
  · rw [min_eq_left h, min_eq_left (up_le.2 h)]
  · rw [min_eq_right h, min_eq_right (up_le.2 h)]

/-! ### Linkage -/

/-- A merge with the new numbers. -/
def upLRow (n : ℕ) (row : LRow W S) : LRow W S := ⟨up n row.l, up n row.r, row.d, row.s⟩

/-- The linkage loop with and without the new sample. -/
structure LinkUp (n : ℕ) (st st' : LinkState W S) : Prop where
  next : st'.next = st.next + 1
  rows : st'.rows = st.rows.map (upLRow n)
  top : ∀ x, x < n → root st'.next (optParent st'.parent) x = up n (root st.next (optParent st.parent) x)
  new : root st'.next (optParent st'.parent) n = n
  size : ∀ v, v < st.next → st'.size (up n v) = st.size v

theorem LinkUp.step [AddCommMonoid S] {n m m' : ℕ} {wt : ℕ → S} {es : List (Edge W)} {st st' : LinkState W S} {e : Edge W} (sim : LinkUp n st st')
    (h : LinkInv n wt es st) (h' : LinkInv (n + 1) wt es st') (hu : e.u < n) (hv : e.v < n) (hne : ¬ Conn es e.u e.v) (hm : st.next < m) (hm' : st'.next < m') :
    LinkUp n (linkStep m st e) (linkStep m' st' e) := by
  have hn : n ≤ st.next := by rw [h.next]; omega
  obtain ⟨a1, a2, a3, a4, a5, a6, a7⟩ := linkStep_root h hu hv hne hm
  obtain ⟨b1, b2, b3, b4, b5, b6, b7⟩ := linkStep_root h' (by omega) (by omega) hne hm'
  rw [sim.top _ hu, sim.top _ hv] at b1 b2 b7
  rw [sim.size _ a4, sim.size _ a5] at b1 b2
  refine ⟨by rw [a3, b3, sim.next], ?_, fun x hx => ?_, ?_, fun v hv' => ?_⟩
  · rw [a1, b1, sim.rows, List.map_append]
    simp only [List.map_cons, List.map_nil, upLRow, up_max, up_min]
  · rw [a3, b3, a7, b7, sim.top x hx, sim.next]
    simp only [up_inj]
    split_ifs with hq
    · rw [up_ge hn]
    · rfl
  · rw [b3, b7, sim.new]
    rw [if_neg]
    rintro (h | h) <;> exact up_ne h.symm
  · rw [a3] at hv'
    rw [a2, b2, sim.next]
    by_cases hvn : v = st.next
    · subst hvn
      rw [up_ge hn, Function.update_self, Function.update_self]
    · rw [Function.update_of_ne hvn, Function.update_of_ne (by rw [← up_ge hn]; exact fun h => hvn (up_inj.1 h)), sim.size v (by omega)]

theorem linkage_up [AddCommMonoid S] {n : ℕ} (wt : ℕ → S) {es : List (Edge W)} (hr : InRange n es) (ha : Acyclic es) (hl : es.length + 1 ≤ n) :
    LinkUp n (es.foldl (linkStep (2 * n - 1)) (linkInit n wt)) (es.foldl (linkStep (2 * (n + 1) - 1)) (linkInit (n + 1) wt)) := by
  induction es using List.reverseRecOn with
  | nil =>
    have hid : optParent (fun _ => none) = fun x : ℕ => x := by funext x; rfl
    refine ⟨rfl, rfl, fun x hx => ?_, ?_, fun v hv => ?_⟩
    · simp only [List.foldl_nil, linkInit, hid]
      rw [(PForest.id _).root_of_fixed rfl, (PForest.id _).root_of_fixed rfl, up_lt hx]
    · simp only [List.foldl_nil, linkInit, hid]
      rw [(PForest.id _).root_of_fixed rfl]
    · have hv : v < n := hv
      simp only [List.foldl_nil, linkInit]
      rw [up_lt hv, if_pos hv, if_pos (by omega)]
  | append_singleton es e ih =>
    rw [Acyclic.snoc_iff] at ha
    simp only [List.length_append, List.length_cons, List.length_nil] at hl
    have r1 : InRange n es := fun x hx => hr x (by simp [hx])
    have s := ih r1 ha.1 (by omega)
    have i1 := linkage_fold_inv wt r1 ha.1 (n := n) (by omega)
    have i2 := linkage_fold_inv wt (fun x hx => ⟨by have := (r1 x hx).1; omega, by have := (r1 x hx).2; omega⟩) ha.1 (n := n + 1) (by omega)
    rw [List.foldl_append, List.foldl_append]
    exact s.step i1 i2 (hr e (by simp)).1 (hr e (by simp)).2 ha.2 (by rw [i1.next]; omega) (by rw [i2.next]; omega)

/-- The linkage table of a spanning tree and one more edge, to a new sample: the same merges, and one of the whole with the sample. -/
theorem mstToLinkage_add [AddCommMonoid S] {n : ℕ} (hn : 2 ≤ n) (wt : ℕ → S) {es : List (Edge W)} (ht : SpanningTree n es) {e : Edge W}
    (he : (e.u < n ∧ e.v = n) ∨ (e.u = n ∧ e.v < n)) :
    ∃ s, mstToLinkage wt (es ++ [e]) = (mstToLinkage wt es).map (upLRow n) ++ [⟨n + es.length, n, e.w, s⟩] := by
  have hlen := ht.length (by omega)
  have hsim := linkage_up wt ht.inRange ht.acyclic (by omega)
  have i1 := linkage_fold_inv wt ht.inRange ht.acyclic (n := n) (by omega)
  have i2 := linkage_fold_inv wt (fun x hx => ⟨by have := (ht.inRange x hx).1; omega, by have := (ht.inRange x hx).2; omega⟩) ht.acyclic (n := n + 1) (by omega)
  unfold mstToLinkage
  simp only [List.length_append, List.length_cons, List.length_nil, List.foldl_append, List.foldl_cons, List.foldl_nil]
  rw [show es.length + (0 + 1) + 1 = n + 1 by omega, show es.length + 1 = n by omega]
  set st := es.foldl (linkStep (2 * n - 1)) (linkInit n wt)
  set st' := es.foldl (linkStep (2 * (n + 1) - 1)) (linkInit (n + 1) wt)
  have htop : ∀ x, x < n → root st'.next (optParent st'.parent) x = n + es.length := by
    intro x hx
    rw [hsim.top x hx]
    have hroots : ∀ y, y < n → root st.next (optParent st.parent) x = root st.next (optParent st.parent) y := fun y hy => (i1.conn x y hx hy).2 (ht.conn x y hx hy)
    have hlast : ∃ y, y < n ∧ root st.next (optParent st.parent) y + 1 = n + es.length := by
      rcases List.eq_nil_or_concat es with h0 | ⟨es0, f, h0⟩
      · rw [h0] at hlen; simp only [List.length_nil] at hlen; omega
      rw [List.concat_eq_append] at h0
      have hac := ht.acyclic
      have hr0 := ht.inRange
      rw [h0] at hac hr0
      rw [Acyclic.snoc_iff] at hac
      have hl0 : es.length = es0.length + 1 := by rw [h0]; simp
      have i0 := linkage_fold_inv wt (fun x hx => hr0 x (by simp [hx])) hac.1 (n := n) (by omega)
      have hf := hr0 f (by simp)
      have hst : st = linkStep (2 * n - 1) (es0.foldl (linkStep (2 * n - 1)) (linkInit n wt)) f := by
        change es.foldl _ _ = _
        rw [h0, List.foldl_append]; rfl
      obtain ⟨-, -, a3, -, -, -, a7⟩ := linkStep_root i0 hf.1 hf.2 hac.2 (m := 2 * n - 1) (by rw [i0.next]; omega)
      refine ⟨f.u, hf.1, ?_⟩
      rw [hst, a3, a7, if_pos (.inl rfl), i0.next, hl0]
      omega
    obtain ⟨y, hy, hy'⟩ := hlast
    rw [hroots y hy, up_ge (by omega), hy']
  have hnew := hsim.new
  have hnc : ¬ Conn es e.u e.v := by
    rcases he with ⟨h1, h2⟩ | ⟨h1, h2⟩
    · rw [← i2.conn e.u e.v (by omega) (by omega), h2, htop _ h1, hnew]; omega
    · rw [← i2.conn e.u e.v (by omega) (by omega), h1, htop _ h2, hnew]; omega
  obtain ⟨b1, -⟩ := linkStep_root i2 (e := e) (m := 2 * (n + 1) - 1) (by omega) (by omega) hnc (by rw [i2.next]; omega)
  rw [b1, hsim.rows]
  refine ⟨st'.size (root st'.next (optParent st'.parent) e.u) + st'.size (root st'.next (optParent st'.parent) e.v), ?_⟩
  rcases he with ⟨h1, h2⟩ | ⟨h1, h2⟩
  · rw [h2, htop _ h1, hnew, max_eq_left (by omega), min_eq_right (by omega)]
  · rw [h1, htop _ h2, hnew, max_eq_right (by omega), min_eq_left (by omega)]

/-! ### Condensing -/

/-- `H'` is `H` with one more sample, joined at the top. -/
structure HierAdd (H H' : Hier W S) (w : W) : Prop where
  m : H'.m = H.m + 1
  l : ∀ i, i < H.m → H'.l i = up H.n (H.l i)
  r : ∀ i, i < H.m → H'.r i = up H.n (H.r i)
  d : ∀ i, i < H.m → H'.d i = H.d i
  s : ∀ i, i < H.m → H'.s i = H.s i
  ltop : H'.l H.m = H.root + 1
  rtop : H'.r H.m = H.n
  dtop : H'.d H.m = w

theorem HierAdd.ofRows [Inhabited W] [Inhabited S] {rows : List (LRow W S)} {n : ℕ} (hn : rows.length + 1 = n) (w : W) (s : S) :
    HierAdd (Hier.ofRows rows) (Hier.ofRows (rows.map (upLRow n) ++ [⟨n + rows.length, n, w, s⟩])) w := by
  have hn' : (Hier.ofRows rows).n = n := hn
  have hget : ∀ i, i < rows.length → (rows.map (upLRow n) ++ [(⟨n + rows.length, n, w, s⟩ : LRow W S)])[i]? = (rows[i]?).map (upLRow n) := by
    intro i hi
    rw [List.getElem?_append_left (by simpa using hi), List.getElem?_map]
  have hlast : (rows.map (upLRow n) ++ [(⟨n + rows.length, n, w, s⟩ : LRow W S)])[rows.length]? = some ⟨n + rows.length, n, w, s⟩ := by
    rw [List.getElem?_append_right (by simp)]; simp
  have hm : (Hier.ofRows rows).m = rows.length := rfl
  refine ⟨by simp [Hier.ofRows], ?_, ?_, ?_, ?_, ?_, ?_, ?_⟩
  · intro i hi; rw [hn']; simp only [Hier.ofRows]; rw [hget i hi, List.getElem?_eq_getElem hi]; rfl
  · intro i hi; rw [hn']; simp only [Hier.ofRows]; rw [hget i hi, List.getElem?_eq_getElem hi]; rfl
  · intro i hi; simp only [Hier.ofRows]; rw [hget i hi, List.getElem?_eq_getElem hi]; rfl
  · intro i hi; simp only [Hier.ofRows]; rw [hget i hi, List.getElem?_eq_getElem hi]; rfl
  · rw [hm]; simp only [Hier.ofRows, hlast, Hier.root]; simp; omega
  · rw [hm, hn']; simp only [Hier.ofRows, hlast]; rfl
  · rw [hm]; simp only [Hier.ofRows, hlast]; rfl

section
variable {H H' : Hier W S} {w : W}

theorem Hier.bfsAux_fuel (hv : H.Valid) : ∀ (f f' : ℕ) (l : List ℕ), (∀ v ∈ l, v < f ∧ v < f' ∧ v ≤ H.root) → H.bfsAux f l = H.bfsAux f' l
  | 0, 0, _, _ => rfl
  | 0, f' + 1, [], _ => rfl
  | 0, f' + 1, a :: l, h => absurd (h a (by simp)).1 (by omega)
  | f + 1, 0, [], _ => rfl
  | f + 1, 0, a :: l, h => absurd (h a (by simp)).2.1 (by omega)
  | f + 1, f' + 1, [], _ => rfl
  | f + 1, f' + 1, a :: l, h => by
    unfold Hier.bfsAux
    rw [bfsAux_fuel hv f f']
    intro c hc
    obtain ⟨v, hv', hcv⟩ := List.mem_flatMap.1 hc
    obtain ⟨h1, h2, h3⟩ := h v hv'
    have := ((Hier.mem_kids h3).1 hcv).lt hv
    omega

namespace HierAdd

theorem n (h : HierAdd H H' w) : H'.n = H.n + 1 := by unfold Hier.n; rw [h.m]
theorem root (h : HierAdd H H' w) : H'.root = H.root + 2 := by unfold Hier.root; rw [h.m]; omega

theorem kids (h : HierAdd H H' w) {v : ℕ} (hv : v ≤ H.root) : H'.kids (up H.n v) = (H.kids v).map (up H.n) := by
  have hre := H.root_eq
  unfold Hier.kids
  rw [h.n]
  by_cases hn : H.n ≤ v
  · rw [if_pos hn, up_ge hn, if_pos (by omega), show v + 1 - (H.n + 1) = v - H.n by omega, h.l _ (by omega), h.r _ (by omega)]
    rfl
  · rw [if_neg hn, if_neg (by rw [up_lt (by omega)]; omega)]; rfl

theorem bfsAux (h : HierAdd H H' w) (hv : H.Valid) : ∀ (f : ℕ) (l : List ℕ), (∀ v ∈ l, v ≤ H.root) → H'.bfsAux f (l.map (up H.n)) = (H.bfsAux f l).map (up H.n)
  | 0, _, _ => rfl
  | f + 1, [], _ => rfl
  | f + 1, a :: l, hl => by
    have hkid : ∀ l : List ℕ, (∀ v ∈ l, v ≤ H.root) → (l.map (up H.n)).flatMap H'.kids = (l.flatMap H.kids).map (up H.n) := by
      intro l hl
      induction l with
      | nil => rfl
      | cons b l ih =>
        rw [List.map_cons, List.flatMap_cons, List.flatMap_cons, List.map_append, ih fun v hv => hl v (by simp [hv]), h.kids (hl b (by simp))]
    have h2 := hkid (a :: l) hl
    rw [List.map_cons] at h2 ⊢
    unfold Hier.bfsAux
    rw [h2, List.map_append, bfsAux h hv f]
    · rfl
    · intro c hc
      obtain ⟨v, hv', hcv⟩ := List.mem_flatMap.1 hc
      have := ((Hier.mem_kids (hl v hv')).1 hcv).lt hv
      have := hl v hv'
      omega

theorem bfs (h : HierAdd H H' w) (hv : H.Valid) {v : ℕ} (hr : v ≤ H.root) : H'.bfs (up H.n v) = (H.bfs v).map (up H.n) := by
  unfold Hier.bfs
  rw [Hier.bfsAux_fuel hv (v + 1) (up H.n v + 1) [v] (by intro x hx; rw [List.mem_singleton] at hx; subst hx; refine ⟨by omega, ?_, hr⟩; unfold up; split_ifs <;> omega)]
  exact h.bfsAux hv _ [v] (by simpa using hr)

end HierAdd

end

/-- A row of the condensed tree with the new numbers. -/
def upCRow (n : ℕ) (row : CRow L S) : CRow L S := ⟨up n row.parent, up n row.child, row.lam, row.size⟩

/-- The condensing loop with and without the new sample. -/
structure CondUp (H : Hier W S) (pre : List (CRow L S)) (st st' : CondState L S) : Prop where
  relabel : ∀ v, v ≤ H.root → st'.relabel (up H.n v) = up H.n (st.relabel v)
  ignore : ∀ v, v ≤ H.root → st'.ignore (up H.n v) = st.ignore v
  rows : st'.rows = pre ++ st.rows.map (upCRow H.n)
  next : st'.next = st.next + 1
  ge : H.n ≤ st.next

section
variable [One S] {H H' : Hier W S} {w : W} {pre : List (CRow L S)}

theorem CondUp.elim (h : HierAdd H H' w) {st st' : CondState L S} (hs : CondUp H pre st st') (p : ℕ) (lv : L) (l : List ℕ) :
    CondUp H pre (l.foldl (elimStep H.n p lv) st) ((l.map (up H.n)).foldl (elimStep H'.n (up H.n p) lv) st') := by
  induction l generalizing st st' with
  | nil => exact hs
  | cons u l ih =>
    refine ih ?_
    unfold elimStep
    rw [h.n]
    by_cases hu : u < H.n
    · rw [if_pos hu, if_pos (up_lt_succ.2 hu)]
      exact ⟨hs.relabel, hs.ignore, by simp [hs.rows, upCRow], hs.next, hs.ge⟩
    · rw [if_neg hu, if_neg (by rw [up_lt_succ]; exact hu)]
      refine ⟨hs.relabel, fun v hv => ?_, hs.rows, hs.next, hs.ge⟩
      simp only [Function.update_apply, up_inj, hs.ignore v hv]

theorem CondUp.eliminate (h : HierAdd H H' w) (hv : H.Valid) {st st' : CondState L S} (hs : CondUp H pre st st') (p : ℕ) (lv : L) {v : ℕ} (hr : v ≤ H.root) :
    CondUp H pre (eliminateBranch H p lv st v) (eliminateBranch H' (up H.n p) lv st' (up H.n v)) := by
  unfold eliminateBranch
  by_cases hu : v < H.n
  · rw [if_pos hu, if_pos (by rw [h.n]; exact up_lt_succ.2 hu)]
    exact ⟨hs.relabel, hs.ignore, by simp [hs.rows, upCRow], hs.next, hs.ge⟩
  · rw [if_neg hu, if_neg (by rw [h.n, up_lt_succ]; exact hu), h.bfs hv hr]
    exact hs.elim h p lv _

theorem CondUp.update {st st' : CondState L S} (hs : CondUp H pre st st') (b p : ℕ) :
    CondUp H pre { st with relabel := Function.update st.relabel b p } { st' with relabel := Function.update st'.relabel (up H.n b) (up H.n p) } :=
  ⟨fun v hv => by simp only [Function.update_apply, up_inj]; split_ifs; · rfl
                  · exact hs.relabel v hv, hs.ignore, hs.rows, hs.next, hs.ge⟩

theorem HierAdd.count (h : HierAdd H H' w) (wt : ℕ → S) {v : ℕ} (hr : v ≤ H.root) : H'.count wt (up H.n v) = H.count wt v := by
  have hre := H.root_eq
  unfold Hier.count
  rw [h.n]
  by_cases hn : H.n ≤ v
  · rw [if_pos hn, up_ge hn, if_pos (by omega), show v + 1 - (H.n + 1) = v - H.n by omega, h.s _ (by omega)]
  · rw [if_neg hn, up_lt (by omega), if_neg (by omega)]

theorem CondUp.step [LinearOrder S] (h : HierAdd H H' w) (hv : H.Valid) (wt : ℕ → S) (mcs : S) (mx : Option S) (lam : W → L) {st st' : CondState L S} (hs : CondUp H pre st st')
    {v : ℕ} (hr : v ≤ H.root) : CondUp H pre (condenseStep H wt mcs mx lam st v) (condenseStep H' wt mcs mx lam st' (up H.n v)) := by
  have hre := H.root_eq
  unfold condenseStep
  by_cases h0 : st.ignore v = true ∨ v < H.n
  · rw [if_pos h0, if_pos (by rw [hs.ignore v hr, h.n, up_lt_succ]; exact h0)]
    exact hs
  · have h0' : ¬ (st'.ignore (up H.n v) = true ∨ up H.n v < H'.n) := by rw [hs.ignore v hr, h.n, up_lt_succ]; exact h0
    simp only [if_neg h0, if_neg h0']
    push Not at h0
    have hm : v - H.n < H.m := by omega
    have hlt := hv.lt _ hm
    have e0 : up H.n v - (H.n + 1) = v - H.n := by rw [up_ge h0.2]; omega
    simp only [e0, hs.relabel v hr, h.l _ hm, h.r _ hm, h.d _ hm, h.count wt (show H.l (v - H.n) ≤ H.root by omega), h.count wt (show H.r (v - H.n) ≤ H.root by omega), h.n, up_lt_succ]
    split_ifs
    · have := hs.update (H.r (v - H.n)) (st.relabel v)
      exact ⟨this.relabel, hs.ignore, by simp [hs.rows, upCRow], hs.next, hs.ge⟩
    · exact (hs.update _ _).eliminate h hv _ _ (by omega)
    · exact (hs.update _ _).eliminate h hv _ _ (by omega)
    · exact (hs.eliminate h hv _ _ (by omega)).eliminate h hv _ _ (by omega)
    · exact (hs.update _ _).update _ _
    · have := (hs.update (H.l (v - H.n)) st.next).update (H.r (v - H.n)) (st.next + 1)
      have hge := hs.ge
      refine ⟨?_, hs.ignore, ?_, by simp [hs.next], Nat.le_add_right_of_le hge⟩
      · intro x hx
        have := this.relabel x hx
        have e1 : up H.n st.next = st'.next := by rw [hs.next, up_ge hge]
        have e2 : up H.n (st.next + 1) = st'.next + 1 := by rw [hs.next, up_ge (by omega)]
        rw [e1, e2] at this
        exact this
      · simp [hs.rows, hs.next, upCRow, up_ge hge, up_ge (show H.n ≤ st.next + 1 by omega)]

/-- The condensed tree with one more sample at the top: the same rows under new numbers, after a row for the sample. -/
theorem condense_add [LinearOrder S] (h : HierAdd H H' w) (hv : H.Valid) (hm : 0 < H.m) (wt : ℕ → S) (mcs : S) (mx : Option S) (lam : W → L)
    (hbig : mcs ≤ H.count wt H.root) (hsmall : wt H.n < mcs) :
    condenseTree H' wt mcs mx lam = ⟨H.n + 1, H.n, lam w, 1⟩ :: (condenseTree H wt mcs mx lam).map (upCRow H.n) := by
  have hre := H.root_eq
  have hroot : H.root = 2 * H.m := rfl
  have hn : H.n = H.m + 1 := rfl
  have hkn : H'.kids H.n = [] := by unfold Hier.kids; rw [if_neg (by rw [h.n]; omega)]
  have hkt : H'.kids (H.root + 2) = [H.root + 1, H.n] := by
    unfold Hier.kids
    rw [h.n, if_pos (by omega), show H.root + 2 - (H.n + 1) = H.m by omega, h.ltop, h.rtop]
  have hur : up H.n H.root = H.root + 1 := up_ge (by omega)
  have hkr : H'.kids (H.root + 1) = (H.kids H.root).map (up H.n) := by rw [← hur]; exact h.kids le_rfl
  have hcons : ∀ f a l, H'.bfsAux (f + 1) (a :: l) = (a :: l) ++ H'.bfsAux f ((a :: l).flatMap H'.kids) := fun _ _ _ => rfl
  have hb' : H'.bfs H'.root = (H.root + 2) :: (H.root + 1) :: H.n :: (H.bfsAux H.root (H.kids H.root)).map (up H.n) := by
    unfold Hier.bfs
    rw [h.root, hcons, show H.root + 2 = (H.root + 1) + 1 from rfl]
    simp only [List.flatMap_cons, List.flatMap_nil, List.append_nil, hkt]
    rw [hcons]
    simp only [List.flatMap_cons, List.flatMap_nil, List.append_nil, hkn, hkr]
    rw [h.bfsAux hv _ _ fun c hc => by have := ((Hier.mem_kids le_rfl).1 hc).lt hv; omega,
      Hier.bfsAux_fuel hv (H.root + 1) H.root _ fun c hc => by have := ((Hier.mem_kids le_rfl).1 hc).lt hv; omega]
    rfl
  have hb : H.bfs H.root = H.root :: H.bfsAux H.root (H.kids H.root) := by
    unfold Hier.bfs
    rw [show H.bfsAux (H.root + 1) [H.root] = [H.root] ++ H.bfsAux H.root ([H.root].flatMap H.kids) from rfl]
    simp
  have hfold : ∀ l : List ℕ, (∀ v ∈ l, v ≤ H.root) → ∀ st st' : CondState L S, CondUp H [⟨H.n + 1, H.n, lam w, 1⟩] st st' →
      CondUp H [⟨H.n + 1, H.n, lam w, 1⟩] (l.foldl (condenseStep H wt mcs mx lam) st) ((l.map (up H.n)).foldl (condenseStep H' wt mcs mx lam) st') := by
    intro l
    induction l with
    | nil => exact fun _ _ _ hs => hs
    | cons v l ih =>
      intro hl st st' hs
      exact ih (fun v hv => hl v (by simp [hv])) _ _ (hs.step h hv wt mcs mx lam (hl v (by simp)))
  have hskip : ∀ st : CondState L S, condenseStep H' wt mcs mx lam st H.n = st := by
    intro st; unfold condenseStep; rw [if_pos (.inr (by rw [h.n]; omega))]
  have hfirst : CondUp H [⟨H.n + 1, H.n, lam w, 1⟩] (condenseInit H : CondState L S) (condenseStep H' wt mcs mx lam (condenseInit H') (H.root + 2)) := by
    have hca : H'.count wt (H.root + 1) = H.count wt H.root := by rw [← hur]; exact h.count wt le_rfl
    have hcb : H'.count wt H.n = wt H.n := by unfold Hier.count; rw [if_neg (by rw [h.n]; omega)]
    unfold condenseStep
    rw [if_neg (by simp [condenseInit, h.n]; omega)]
    simp only [h.n, show H.root + 2 - (H.n + 1) = H.m by omega, h.ltop, h.rtop, h.dtop, hca, hcb]
    rw [if_neg (by omega), if_neg (fun h => absurd hbig h.1.not_ge), if_pos ⟨hbig, hsmall⟩]
    unfold eliminateBranch
    rw [if_pos (by rw [h.n]; omega)]
    refine ⟨fun v hv' => ?_, fun v _ => rfl, ?_, ?_, ?_⟩
    · simp only [condenseInit, h.root, h.n, Function.update_apply, ← hur, up_inj]
      have h2 : up H.n v ≠ H.root + 2 := by unfold up; split_ifs <;> omega
      split_ifs with h1
      · simp [up]
      · rw [up_lt (by omega)]
    · simp [condenseInit, h.root, h.n]
    · simp [condenseInit, h.n]
    · simp [condenseInit]
  unfold condenseTree
  rw [hb', List.foldl_cons, List.foldl_cons, List.foldl_cons, hskip, ← hur]
  have := (hfold (H.bfs H.root) (fun v hv' => ((Hier.mem_bfs hv le_rfl).1 hv').le hv) _ _ hfirst).rows
  rw [hb, List.map_cons, List.foldl_cons] at this
  rw [this, hb]
  rfl

end

end Verif
