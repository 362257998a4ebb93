import Verif.Model.Cut
import Verif.Lemmas.Linkage
import Verif.Lemmas.DisjointSet

namespace Verif
variable {W S : Type*}

/-- The unions performed by the first loop of the cut. -/
def cutEdges [LT W] [DecidableLT W] (n : ℕ) (rows : List (LRow W S)) (cut : W) : List (Edge Unit) :=
  rows.zipIdx.flatMap fun p =>
    if p.1.d < cut then [⟨p.1.l, n + p.2, ()⟩, ⟨p.1.r, n + p.2, ()⟩] else []

theorem mem_cutEdges [LT W] [DecidableLT W] {n : ℕ} {rows : List (LRow W S)} {cut : W} {e : Edge Unit} :
    e ∈ cutEdges n rows cut ↔ ∃ i row, rows[i]? = some row ∧ row.d < cut ∧
      (e = ⟨row.l, n + i, ()⟩ ∨ e = ⟨row.r, n + i, ()⟩) := by
  unfold cutEdges
  simp only [List.mem_flatMap, Prod.exists, List.mem_zipIdx_iff_getElem?]
  constructor
  · rintro ⟨row, i, h, he⟩
    split at he
    · rename_i hlt
      exact ⟨i, row, h, hlt, by simpa using he⟩
    · simp at he
  · rintro ⟨i, row, h, hlt, he⟩
    refine ⟨row, i, h, ?_⟩
    rw [if_pos hlt]; simpa using he

theorem cutDS_aux [LT W] [DecidableLT W] {m n : ℕ} {cut : W} {L : List (LRow W S × ℕ)}
    (hL : ∀ p ∈ L, p.1.l < m ∧ p.1.r < m ∧ n + p.2 < m) :
    RankInv m (L.flatMap fun p =>
      if p.1.d < cut then [⟨p.1.l, n + p.2, ()⟩, ⟨p.1.r, n + p.2, ()⟩] else [])
      (L.foldl (fun d p =>
        if p.1.d < cut then dsUnionByRank m (dsUnionByRank m d p.1.l (n + p.2)) p.1.r (n + p.2) else d)
        dsRankCreate) := by
  induction L using List.reverseRecOn with
  | nil => exact RankInv.init m
  | append_singleton L p ih =>
    have h := ih fun q hq => hL q (by simp [hq])
    have hp := hL p (by simp)
    rw [List.foldl_append, List.flatMap_append]
    simp only [List.foldl_cons, List.foldl_nil, List.flatMap_cons, List.flatMap_nil, List.append_nil]
    split
    · have h1 := dsUnionByRank_inv (dsUnionByRank_inv h hp.1 hp.2.2) hp.2.1 hp.2.2
      rw [List.append_assoc] at h1
      exact h1
    · rw [List.append_nil]; exact h

/-- All children are nodes that exist when they are merged, in either order. -/
def RowsBelow (n : ℕ) (rows : List (LRow W S)) : Prop :=
  ∀ i row, rows[i]? = some row → row.l < n + i ∧ row.r < n + i

theorem RowsOlder.toBelow {n : ℕ} {rows : List (LRow W S)} (h : RowsOlder n rows) : RowsBelow n rows :=
  fun i row hi => by have := h i row hi; omega

theorem cutDS_inv [LT W] [DecidableLT W] {rows : List (LRow W S)} (hr : RowsBelow (rows.length + 1) rows)
    (cut : W) :
    RankInv (2 * rows.length + 1) (cutEdges (rows.length + 1) rows cut) (cutDS rows cut) := by
  apply cutDS_aux
  intro p hp
  obtain ⟨row, i⟩ := p
  rw [List.mem_zipIdx_iff_getElem?] at hp
  simp only at hp ⊢
  have h1 := hr i row hp
  have h2 : i < rows.length := by
    by_contra hc
    rw [List.getElem?_eq_none (by omega)] at hp; cases hp
  omega

theorem cutRoots_eq (m : ℕ) (p : ℕ → ℕ) (k : ℕ) : cutRoots m p k = (p, (List.range k).map (root m p)) := by
  induction k with
  | zero => rfl
  | succ k ih =>
    simp only [cutRoots, ih, dsFind_eq, List.range_succ, List.map_append, List.map_cons, List.map_nil]

/-! ### The relabelling dictionary -/

structure LabelInv (size : ℕ → ℕ) (mcs : ℕ) (l : List ℕ) (st : (ℕ → ℤ) × ℕ) : Prop where
  small : ∀ c ∈ l, size c < mcs → st.1 c = -1
  big : ∀ c ∈ l, ¬ size c < mcs → ∃ k : ℕ, k < st.2 ∧ st.1 c = k
  inj : ∀ c ∈ l, ∀ c' ∈ l, ¬ size c < mcs → ¬ size c' < mcs → st.1 c = st.1 c' → c = c'
  onto : ∀ k < st.2, ∃ c ∈ l, ¬ size c < mcs ∧ st.1 c = k

theorem cutLabel_inv (size : ℕ → ℕ) (mcs : ℕ) {l : List ℕ} (hl : l.Nodup) (f : ℕ → ℤ) :
    LabelInv size mcs l (l.foldl (cutLabelStep size mcs) (f, 0)) := by
  induction l using List.reverseRecOn with
  | nil => constructor <;> simp
  | append_singleton l c ih =>
    rw [List.nodup_append] at hl
    have hc : c ∉ l := fun h => hl.2.2 c h c (by simp) rfl
    have hne : ∀ d ∈ l, d ≠ c := fun d hd h => hc (h ▸ hd)
    obtain ⟨h1, h2, h3, h4⟩ := ih hl.1
    rw [List.foldl_append]
    simp only [List.foldl_cons, List.foldl_nil]
    generalize l.foldl (cutLabelStep size mcs) (f, 0) = st at *
    unfold cutLabelStep
    split
    · rename_i hs
      constructor
      · intro d hd hds
        rw [List.mem_append, List.mem_singleton] at hd
        rcases hd with hd | rfl
        · simp only [Function.update_of_ne (hne d hd)]; exact h1 d hd hds
        · simp
      · intro d hd hds
        rw [List.mem_append, List.mem_singleton] at hd
        rcases hd with hd | rfl
        · simp only [Function.update_of_ne (hne d hd)]; exact h2 d hd hds
        · exact absurd hs hds
      · intro d hd d' hd' hds hds' heq
        rw [List.mem_append, List.mem_singleton] at hd hd'
        rcases hd with hd | rfl
        · rcases hd' with hd' | rfl
          · simp only [Function.update_of_ne (hne d hd), Function.update_of_ne (hne d' hd')] at heq
            exact h3 d hd d' hd' hds hds' heq
          · exact absurd hs hds'
        · exact absurd hs hds
      · intro k hk
        obtain ⟨d, hd, h5, h6⟩ := h4 k hk
        refine ⟨d, by simp [hd], h5, ?_⟩
        simp only [Function.update_of_ne (hne d hd)]; exact h6
    · rename_i hs
      constructor
      · intro d hd hds
        rw [List.mem_append, List.mem_singleton] at hd
        rcases hd with hd | rfl
        · simp only [Function.update_of_ne (hne d hd)]; exact h1 d hd hds
        · exact absurd hds hs
      · intro d hd hds
        rw [List.mem_append, List.mem_singleton] at hd
        rcases hd with hd | rfl
        · simp only [Function.update_of_ne (hne d hd)]
          obtain ⟨k, hk, h⟩ := h2 d hd hds
          exact ⟨k, by omega, h⟩
        · exact ⟨st.2, by simp, by simp⟩
      · intro d hd d' hd' hds hds' heq
        rw [List.mem_append, List.mem_singleton] at hd hd'
        rcases hd with hd | rfl
        · rcases hd' with hd' | rfl
          · simp only [Function.update_of_ne (hne d hd), Function.update_of_ne (hne d' hd')] at heq
            exact h3 d hd d' hd' hds hds' heq
          · obtain ⟨k, hk, h⟩ := h2 d hd hds
            simp only [Function.update_of_ne (hne d hd), Function.update_self, h] at heq
            omega
        · rcases hd' with hd' | rfl
          · obtain ⟨k, hk, h⟩ := h2 d' hd' hds'
            simp only [Function.update_of_ne (hne d' hd'), Function.update_self, h] at heq
            omega
          · rfl
      · intro k hk
        simp only at hk
        by_cases hk' : k < st.2
        · obtain ⟨d, hd, h5, h6⟩ := h4 k hk'
          refine ⟨d, by simp [hd], h5, ?_⟩
          simp only [Function.update_of_ne (hne d hd)]; exact h6
        · refine ⟨c, by simp, hs, ?_⟩
          simp only [Function.update_self]
          omega

/-- What the cut returns, in terms of connectivity of the performed unions. -/
theorem cutLabels_spec [LT W] [DecidableLT W] {rows : List (LRow W S)}
    (hr : RowsBelow (rows.length + 1) rows) (cut : W) (mcs : ℕ) :
    (cutLabels rows cut mcs).length = rows.length + 1 ∧
    ∃ (lab : ℕ → ℤ) (k : ℕ),
      (∀ i, i < rows.length + 1 → (cutLabels rows cut mcs)[i]? = some (lab i)) ∧
      (∀ i, i < rows.length + 1 → lab i = -1 ∨ ∃ c < k, lab i = (c : ℕ)) ∧
      (∀ c < k, ∃ i < rows.length + 1, lab i = (c : ℕ)) ∧
      (∀ i j, i < rows.length + 1 → j < rows.length + 1 → lab i ≠ -1 →
        (lab i = lab j ↔ Conn (cutEdges (rows.length + 1) rows cut) i j)) ∧
      open Classical in ∀ i, i < rows.length + 1 → (lab i = -1 ↔
        ((Finset.range (rows.length + 1)).filter fun j =>
          Conn (cutEdges (rows.length + 1) rows cut) i j).card < mcs) := by
  classical
  have hinv := (cutDS_inv hr cut).rep
  set m := 2 * rows.length + 1 with hm
  set n := rows.length + 1 with hn
  set p := (cutDS rows cut).parent with hp
  set reps := (List.range n).map (root m p) with hreps
  set l := reps.dedup.insertionSort (· ≤ ·) with hl
  have hlnd : l.Nodup := ((List.perm_insertionSort _ _).nodup_iff).2 (List.nodup_dedup _)
  have hmem : ∀ i, i < n → root m p i ∈ l := by
    intro i hi
    rw [hl, (List.perm_insertionSort _ _).mem_iff, List.mem_dedup, hreps, List.mem_map]
    exact ⟨i, by simpa using hi, rfl⟩
  have hmem' : ∀ c ∈ l, ∃ i < n, root m p i = c := by
    intro c hc
    rw [hl, (List.perm_insertionSort _ _).mem_iff, List.mem_dedup, hreps, List.mem_map] at hc
    obtain ⟨i, hi, h⟩ := hc
    exact ⟨i, by simpa using hi, h⟩
  have hcount : ∀ i, i < n → reps.count (root m p i) =
      ((Finset.range n).filter fun j => Conn (cutEdges n rows cut) i j).card := by
    intro i _
    rw [hreps, List.count, List.countP_map, List.countP_eq_length_filter]
    have e1 : ((Finset.range n).filter fun j => Conn (cutEdges n rows cut) i j) =
        ((List.range n).filter fun j => root m p j == root m p i).toFinset := by
      ext j
      simp only [Finset.mem_filter, Finset.mem_range, List.mem_toFinset, List.mem_filter,
        List.mem_range, beq_iff_eq, ← hinv.conn]
      constructor
      · rintro ⟨h1, h2⟩; exact ⟨h1, h2.symm⟩
      · rintro ⟨h1, h2⟩; exact ⟨h1, h2.symm⟩
    rw [e1, List.toFinset_card_of_nodup (List.Nodup.filter _ List.nodup_range)]
    rfl
  have hlab := cutLabel_inv (fun c => reps.count c) mcs hlnd (fun _ => -1)
  set st := l.foldl (cutLabelStep (fun c => reps.count c) mcs) (fun _ => -1, 0) with hst
  have heq : cutLabels rows cut mcs = reps.map st.1 := by
    unfold cutLabels
    simp only [cutRoots_eq, ← hm, ← hn, ← hp, ← hreps, ← hl, ← hst]
  refine ⟨by rw [heq, List.length_map, hreps, List.length_map, List.length_range], fun i => st.1 (root m p i),
    st.2, ?_, ?_, ?_, ?_, ?_⟩
  · intro i hi
    rw [heq, hreps, List.map_map, List.getElem?_map, List.getElem?_range hi]; rfl
  · intro i hi
    by_cases hs : reps.count (root m p i) < mcs
    · exact Or.inl (hlab.small _ (hmem i hi) hs)
    · obtain ⟨k, hk, h⟩ := hlab.big _ (hmem i hi) hs
      exact Or.inr ⟨k, hk, h⟩
  · intro c hc
    obtain ⟨d, hd, _, h⟩ := hlab.onto c hc
    obtain ⟨i, hi, rfl⟩ := hmem' d hd
    exact ⟨i, hi, h⟩
  · intro i j hi hj hi'
    rw [← hinv.conn]
    constructor
    · intro h
      by_cases hsi : reps.count (root m p i) < mcs
      · exact absurd (hlab.small _ (hmem i hi) hsi) hi'
      · by_cases hsj : reps.count (root m p j) < mcs
        · exact absurd (h.trans (hlab.small _ (hmem j hj) hsj)) hi'
        · exact hlab.inj _ (hmem i hi) _ (hmem j hj) hsi hsj h
    · intro h; simp only [h]
  · intro i hi
    rw [← hcount i hi]
    constructor
    · intro h
      by_contra hs
      obtain ⟨k, hk, h'⟩ := hlab.big _ (hmem i hi) hs
      have h : st.1 (root m p i) = -1 := h
      rw [h'] at h; omega
    · intro h; exact hlab.small _ (hmem i hi) h

/-! ### Linkage trees of sorted spanning trees -/

theorem linkStep_rows [Add S] (m : ℕ) (st : LinkState W S) (e : Edge W) :
    ∃ row, (linkStep m st e).rows = st.rows ++ [row] := ⟨_, rfl⟩

theorem link_fold_rows [Add S] (m : ℕ) (st : LinkState W S) (es : List (Edge W)) :
    ∃ rest, (es.foldl (linkStep m) st).rows = st.rows ++ rest := by
  induction es generalizing st with
  | nil => exact ⟨[], by simp⟩
  | cons e es ih =>
    obtain ⟨rest, h⟩ := ih (linkStep m st e)
    obtain ⟨row, h'⟩ := linkStep_rows m st e
    exact ⟨row :: rest, by rw [List.foldl_cons, h, h']; simp⟩

theorem sorted_split [LinearOrder W] (cut : W) {es : List (Edge W)}
    (hs : es.Pairwise fun a b => a.w ≤ b.w) :
    ∃ l₁ l₂, es = l₁ ++ l₂ ∧ (∀ e ∈ l₁, e.w < cut) ∧ ∀ e ∈ l₂, ¬ e.w < cut := by
  induction es with
  | nil => exact ⟨[], [], rfl, by simp, by simp⟩
  | cons a es ih =>
    rw [List.pairwise_cons] at hs
    by_cases ha : a.w < cut
    · obtain ⟨l₁, l₂, h1, h2, h3⟩ := ih hs.2
      refine ⟨a :: l₁, l₂, by rw [h1]; rfl, ?_, h3⟩
      intro e he
      rcases List.mem_cons.1 he with rfl | he
      · exact ha
      · exact h2 e he
    · refine ⟨[], a :: es, rfl, by simp, ?_⟩
      intro e he
      rcases List.mem_cons.1 he with rfl | he
      · exact ha
      · exact fun h => ha ((hs.1 e he).trans_lt h)

theorem below_conn_cut [LT W] [DecidableLT W] {n : ℕ} {rows : List (LRow W S)} (hr : RowsOlder n rows) {cut : W}
    {v x : ℕ} (h : Below n rows v x) (hd : ∀ j row, rows[j]? = some row → n + j ≤ v → row.d < cut) :
    Conn (cutEdges n rows cut) v x := by
  induction h with
  | leaf h => exact Conn.refl _ _
  | @left i x row hi hb ih =>
    have h1 : Conn (cutEdges n rows cut) row.l (n + i) :=
      Conn.edge (e := ⟨row.l, n + i, ()⟩) (mem_cutEdges.2 ⟨i, row, hi, hd i row hi le_rfl, Or.inl rfl⟩)
    refine h1.symm.trans (ih fun j r hj hle => hd j r hj ?_)
    have := hr i row hi; omega
  | @right i x row hi hb ih =>
    have h1 : Conn (cutEdges n rows cut) row.r (n + i) :=
      Conn.edge (e := ⟨row.r, n + i, ()⟩) (mem_cutEdges.2 ⟨i, row, hi, hd i row hi le_rfl, Or.inr rfl⟩)
    refine h1.symm.trans (ih fun j r hj hle => hd j r hj ?_)
    have := hr i row hi; omega

theorem linkage_cut_conn [LinearOrder W] [AddCommMonoid S] (wt : ℕ → S) {es : List (Edge W)}
    (hr : InRange (es.length + 1) es) (ha : Acyclic es) (hs : es.Pairwise fun a b => a.w ≤ b.w) (cut : W)
    {x y : ℕ} (hx : x < es.length + 1) (hy : y < es.length + 1) :
    Conn (cutEdges (es.length + 1) (mstToLinkage wt es) cut) x y ↔ Conn (below cut es) x y := by
  have hfull := linkage_fold_inv wt hr ha le_rfl
  set n := es.length + 1 with hn
  have hrows : mstToLinkage wt es = (es.foldl (linkStep (2 * n - 1)) (linkInit n wt)).rows := rfl
  rw [hrows]
  set stF := es.foldl (linkStep (2 * n - 1)) (linkInit n wt) with hstF
  have hdist : ∀ i : ℕ, stF.rows[i]?.map LRow.d = es[i]?.map Edge.w := by
    intro i
    rw [← List.getElem?_map, ← List.getElem?_map, hfull.dist]
  constructor
  · obtain ⟨l₁, l₂, h1, h2, h3⟩ := sorted_split cut hs
    have hbel : below cut es = l₁ := by
      unfold Verif.below
      rw [h1, List.filter_append, List.filter_eq_self.2 (by simpa using h2),
        List.filter_eq_nil_iff.2 (by simpa using h3), List.append_nil]
    rw [hbel]
    have hr1 : InRange n l₁ := fun e he => hr e (by rw [h1]; simp [he])
    have ha1 : Acyclic l₁ := ha.of_subperm (by rw [h1]; exact (List.sublist_append_left _ _).subperm)
    have hlen1 : l₁.length + 1 ≤ n := by rw [hn, h1, List.length_append]; omega
    have hpre := linkage_fold_inv wt hr1 ha1 hlen1
    set stP := l₁.foldl (linkStep (2 * n - 1)) (linkInit n wt) with hstP
    have hext : ∃ rest, stF.rows = stP.rows ++ rest := by
      rw [hstF, h1, List.foldl_append]
      exact link_fold_rows _ _ _
    obtain ⟨rest, hext⟩ := hext
    intro hc
    rw [← hpre.conn x y hx hy]
    clear hy
    induction hc with
    | refl => rfl
    | tail _ hadj ih =>
      rename_i b c _
      have hkey : ∀ e ∈ cutEdges n stF.rows cut,
          root stP.next (optParent stP.parent) e.u = root stP.next (optParent stP.parent) e.v := by
        intro e he
        obtain ⟨i, row, hi, hd, hor⟩ := mem_cutEdges.1 he
        have h4 := hdist i
        rw [hi] at h4
        have hil : i < l₁.length := by
          by_contra hc
          rw [h1, List.getElem?_append_right (by omega)] at h4
          cases h5 : l₂[i - l₁.length]? with
          | none => rw [h5] at h4; cases h4
          | some e' =>
            rw [h5] at h4
            simp only [Option.map_some, Option.some.injEq] at h4
            exact h3 e' (List.mem_of_getElem? h5) (h4 ▸ hd)
        have h6 : stP.rows[i]? = some row := by
          rw [hext, List.getElem?_append_left (by rw [hpre.len]; exact hil)] at hi
          exact hi
        obtain ⟨h7, h8⟩ := hpre.child i row h6
        rcases hor with rfl | rfl
        · exact h7
        · exact h8
      obtain ⟨e, he, ⟨rfl, rfl⟩ | ⟨rfl, rfl⟩⟩ := hadj
      · exact ih.trans (hkey e he)
      · exact ih.trans (hkey e he).symm
  · apply Conn.of_forall
    intro e he
    rw [mem_below] at he
    obtain ⟨i, hi, hie⟩ := List.getElem_of_mem he.1
    have hi' : es[i]? = some e := by rw [← hie]; exact List.getElem?_eq_getElem hi
    have hen := hr e he.1
    have hb : ∀ z, Below n stF.rows (n + i) z → Conn (cutEdges n stF.rows cut) (n + i) z := by
      intro z hz
      refine below_conn_cut hfull.older hz fun j row hj hle => ?_
      have h4 := hdist j
      rw [hj] at h4
      cases h5 : es[j]? with
      | none => rw [h5] at h4; cases h4
      | some e' =>
        rw [h5] at h4
        simp only [Option.map_some, Option.some.injEq] at h4
        rw [h4]
        rcases Nat.lt_or_ge j i with hji | hji
        · obtain ⟨hjl, hje⟩ := List.getElem?_eq_some_iff.1 h5
          have := List.pairwise_iff_getElem.1 hs j i hjl hi hji
          rw [hje, hie] at this
          exact this.trans_lt he.2
        · have : j = i := by omega
          subst this
          rw [hi'] at h5; cases h5
          exact he.2
    have hmem : e ∈ es.take (i + 1) := by
      rw [← hie]; exact List.mem_take_iff_getElem.2 ⟨i, by omega, rfl⟩
    have hu := hb e.u ((hfull.node i e hi' e.u hen.1).2 (Conn.refl _ _))
    have hv := hb e.v ((hfull.node i e hi' e.v hen.2).2 (Conn.edge hmem).symm)
    exact hu.symm.trans hv

end Verif
