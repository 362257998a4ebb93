import Verif.Lemmas.Cut
import Verif.Lemmas.Msf
import Verif.Props.Bridge
import Mathlib.Tactic.IntervalCases

/-!
# Properties C12–C15: single linkage tree and horizontal cuts
-/

namespace Verif
variable {W S : Type*}

/-! ## C12 -/

theorem lexLe_total [LinearOrder W] (a b : Edge W) : lexLe a b ∨ lexLe b a := by
  unfold lexLe
  rcases lt_trichotomy a.w b.w with h | h | h
  · exact Or.inl (Or.inl h)
  · rcases Nat.lt_trichotomy a.u b.u with h' | h' | h'
    · exact Or.inl (Or.inr ⟨h, Or.inl h'⟩)
    · rcases Nat.le_total a.v b.v with h'' | h''
      · exact Or.inl (Or.inr ⟨h, Or.inr ⟨h', h''⟩⟩)
      · exact Or.inr (Or.inr ⟨h.symm, Or.inr ⟨h'.symm, h''⟩⟩)
    · exact Or.inr (Or.inr ⟨h.symm, Or.inl h'⟩)
  · exact Or.inr (Or.inl h)

theorem lexLe_trans [LinearOrder W] {a b c : Edge W} (h : lexLe a b) (h' : lexLe b c) : lexLe a c := by
  unfold lexLe at *
  rcases h with h | ⟨h, h2⟩
  · rcases h' with h' | ⟨h', _⟩
    · exact Or.inl (h.trans h')
    · exact Or.inl (h' ▸ h)
  · rcases h' with h' | ⟨h', h3⟩
    · exact Or.inl (h ▸ h')
    · refine Or.inr ⟨h.trans h', ?_⟩
      omega

theorem lexLe_antisymm [LinearOrder W] {a b : Edge W} (h : lexLe a b) (h' : lexLe b a) : a = b := by
  unfold lexLe at *
  rcases h with h | ⟨h, h2⟩
  · rcases h' with h' | ⟨h', _⟩
    · exact absurd h h'.not_gt
    · rw [h'] at h; exact absurd h (lt_irrefl _)
  · rcases h' with h' | ⟨h', h3⟩
    · rw [h] at h'; exact absurd h' (lt_irrefl _)
    · cases a; cases b
      simp only at *
      have e1 : ∀ {p q r s : ℕ}, (p < q ∨ p = q ∧ r ≤ s) → (q < p ∨ q = p ∧ s ≤ r) → p = q ∧ r = s := by
        intros; omega
      obtain ⟨rfl, rfl⟩ := e1 h2 h3
      subst h; rfl

theorem lexsortMst_perm [LinearOrder W] (es : List (Edge W)) : (lexsortMst es).Perm es :=
  List.perm_insertionSort _ _

theorem lexsortMst_lex [LinearOrder W] (es : List (Edge W)) : (lexsortMst es).Pairwise lexLe := by
  have : Std.Total (lexLe (W := W)) := ⟨lexLe_total⟩
  have : IsTrans (Edge W) lexLe := ⟨fun _ _ _ => lexLe_trans⟩
  exact List.pairwise_insertionSort _ _

theorem lexsortMst_sorted [LinearOrder W] (es : List (Edge W)) :
    (lexsortMst es).Pairwise fun a b => a.w ≤ b.w :=
  (lexsortMst_lex es).imp fun h => by
    rcases h with h | ⟨h, _⟩
    · exact h.le
    · exact h.le

theorem SpanningTree.perm {n : ℕ} {es fs : List (Edge W)} (h : SpanningTree n es) (hp : fs.Perm es) :
    SpanningTree n fs :=
  ⟨h.inRange.perm hp, h.acyclic.of_perm hp.symm, fun a b ha hb => (Conn.perm hp).2 (h.conn a b ha hb)⟩

/-- **C12.** The single linkage tree of a weight-sorted spanning tree (any sample weights) is a complete dendrogram;
its heights are the tree weights in order, hence never decrease; and the samples below node `n + i` are those
connected to an endpoint of tree edge `i` by the first `i + 1` tree edges. -/
theorem C12_linkage_is_dendrogram [LinearOrder W] [AddCommMonoid S] (n : ℕ) (hn : 0 < n) (wt : ℕ → S)
    (mst : List (Edge W)) (ht : SpanningTree n mst) (hs : mst.Pairwise fun a b => a.w ≤ b.w) :
    let rows := mstToLinkage wt mst
    Dendrogram n wt rows ∧ rows.map LRow.d = mst.map Edge.w ∧ (rows.map LRow.d).Pairwise (· ≤ ·) ∧
      ∀ i e, mst[i]? = some e → ∀ x, x < n →
        (Below n rows (n + i) x ↔ Conn (mst.take (i + 1)) x e.u) := by
  intro rows
  have hl := ht.length hn
  subst hl
  have h := linkage_fold_inv wt ht.inRange ht.acyclic le_rfl
  refine ⟨⟨by rw [show rows.length = mst.length from h.len], h.older, h.once, h.rowsize⟩, h.dist, ?_,
    h.node⟩
  rw [show rows.map LRow.d = mst.map Edge.w from h.dist, List.pairwise_map]
  exact hs

/-- Two samples share their lowest common node at the height where the tree connects them. -/
theorem C12_below_connected [LinearOrder W] [AddCommMonoid S] (n : ℕ) (hn : 0 < n) (wt : ℕ → S)
    (mst : List (Edge W)) (ht : SpanningTree n mst) (i : ℕ) (e : Edge W) (hi : mst[i]? = some e) (x y : ℕ)
    (hx : Below n (mstToLinkage wt mst) (n + i) x) (hy : Below n (mstToLinkage wt mst) (n + i) y) :
    Conn (mst.take (i + 1)) x y := by
  have hl := ht.length hn
  subst hl
  have h := linkage_fold_inv wt ht.inRange ht.acyclic le_rfl
  exact ((h.node i e hi x hx.lt_n).1 hx).trans ((h.node i e hi y hy.lt_n).1 hy).symm

/-- A star-like tree on five vertices with a tie. -/
def exTree : List (Edge ℕ) := [⟨3, 0, 1⟩, ⟨1, 2, 2⟩, ⟨0, 1, 2⟩, ⟨4, 0, 7⟩]

theorem exTree_spanning : SpanningTree 5 exTree := by
  have hconn : ∀ a b, a < 5 → b < 5 → Conn exTree a b := by
    have h0 : ∀ a, a < 5 → Conn exTree a 0 := by
      have e30 : Conn exTree 3 0 := Conn.edge (e := ⟨3, 0, 1⟩) (by decide)
      have e12 : Conn exTree 1 2 := Conn.edge (e := ⟨1, 2, 2⟩) (by decide)
      have e01 : Conn exTree 0 1 := Conn.edge (e := ⟨0, 1, 2⟩) (by decide)
      have e40 : Conn exTree 4 0 := Conn.edge (e := ⟨4, 0, 7⟩) (by decide)
      intro a ha
      interval_cases a
      · exact Conn.refl _ _
      · exact e01.symm
      · exact e12.symm.trans e01.symm
      · exact e30
      · exact e40
    exact fun a b ha hb => (h0 a ha).trans (h0 b hb).symm
  have hr : InRange 5 exTree := by decide
  exact ⟨hr, acyclic_of_connected hr hconn (by decide), hconn⟩

example : SpanningTree 5 exTree ∧ exTree.Pairwise fun a b => a.w ≤ b.w :=
  ⟨exTree_spanning, by decide⟩
example : mstToLinkage (fun _ => (1 : ℕ)) exTree =
    [⟨3, 0, 1, 2⟩, ⟨2, 1, 2, 2⟩, ⟨6, 5, 2, 4⟩, ⟨7, 4, 7, 5⟩] := by decide

/-! ## C13 -/

/-- **C13**, sorting: `clusters_from_spanning_tree` uses the rows of the spanning tree only through the lexicographic sort,
and the sorted tree does not depend on the order of the rows. -/
theorem C13_sorted_tree_order_independent [LinearOrder W] (t t' : List (Edge W)) (hp : t.Perm t') :
    lexsortMst t = lexsortMst t' := by
  have h : (lexsortMst t).Perm (lexsortMst t') :=
    ((lexsortMst_perm t).trans hp).trans (lexsortMst_perm t').symm
  exact h.eq_of_pairwise (le := lexLe) (fun a b _ _ h1 h2 => lexLe_antisymm h1 h2) (lexsortMst_lex t)
    (lexsortMst_lex t')

example : lexsortMst exTree = [⟨3, 0, 1⟩, ⟨0, 1, 2⟩, ⟨1, 2, 2⟩, ⟨4, 0, 7⟩] ∧ lexsortMst exTree.reverse =
    lexsortMst exTree := by decide

/-! ## C14 -/

open Classical in
/-- Specification of DBSCAN\* on a weighted graph: `lab` gives equal labels to two samples that are not noise exactly
when edges below `eps` connect them, and noise (`-1`) exactly to the samples with fewer than `mcs` samples
reachable (including the sample itself). -/
def IsDbscanStar [LinearOrder W] (n : ℕ) (g : List (Edge W)) (eps : W) (mcs : ℕ) (lab : ℕ → ℤ) : Prop :=
  (∀ i j, i < n → j < n → lab i ≠ -1 → (lab i = lab j ↔ Conn (below eps g) i j)) ∧
  ∀ i, i < n → (lab i = -1 ↔ ((Finset.range n).filter fun j => Conn (below eps g) i j).card < mcs)

/-- **C14.** Take any weighted graph `g` on the samples (the mutual reachability graph), a minimum spanning forest `f` of it,
completed by `+inf` edges `b` to a spanning tree `t`.  The labels `get_cluster_labelling_at_cut` computes from the
single linkage tree of `t` are DBSCAN\* of `g`. -/
theorem C14_cut_is_dbscan_star [LinearOrder W] [OrderTop W] [AddCommMonoid S] (n : ℕ) (hn : 0 < n) (wt : ℕ → S)
    (g f b t : List (Edge W)) (hf : MinSpanningForest g f) (hb : ∀ e ∈ b, e.w = ⊤) (ht : SpanningTree n t)
    (hp : t.Perm (f ++ b)) (eps : W) (mcs : ℕ) :
    ∃ lab : ℕ → ℤ, cutLabels (mstToLinkage wt (lexsortMst t)) eps mcs = (List.range n).map lab ∧
      IsDbscanStar n g eps mcs lab := by
  have ht' := ht.perm (lexsortMst_perm t)
  have hsort := lexsortMst_sorted t
  have hl := ht'.length hn
  have hperm := (lexsortMst_perm t).trans hp
  set es := lexsortMst t with hes
  subst hl
  have h := linkage_fold_inv wt ht'.inRange ht'.acyclic le_rfl
  have hlen : (mstToLinkage wt es).length = es.length := h.len
  have holder : RowsOlder ((mstToLinkage wt es).length + 1) (mstToLinkage wt es) := by
    rw [hlen]; exact h.older
  obtain ⟨h0, lab, k, h1, _, _, h4, h5⟩ := cutLabels_spec holder.toBelow eps mcs
  rw [hlen] at h0 h1 h4 h5
  have hconn : ∀ x y, x < es.length + 1 → y < es.length + 1 →
      (Conn (cutEdges (es.length + 1) (mstToLinkage wt es) eps) x y ↔ Conn (below eps g) x y) := by
    intro x y hx hy
    rw [linkage_cut_conn wt ht'.inRange ht'.acyclic hsort eps hx hy, ← hf.conn_below]
    apply Conn.congr
    intro e
    rw [mem_below, mem_below, hperm.mem_iff, List.mem_append]
    constructor
    · rintro ⟨h6 | h6, h7⟩
      · exact ⟨h6, h7⟩
      · rw [hb e h6] at h7; exact absurd h7 (not_top_lt)
    · rintro ⟨h6, h7⟩; exact ⟨Or.inl h6, h7⟩
  refine ⟨lab, ?_, fun i j hi hj hne => ?_, fun i hi => ?_⟩
  · apply List.ext_getElem?
    intro i
    by_cases hi : i < es.length + 1
    · rw [h1 i hi, List.getElem?_map, List.getElem?_range hi]; rfl
    · rw [List.getElem?_eq_none (by omega), List.getElem?_eq_none (by simp; omega)]
  · rw [h4 i j hi hj hne, hconn i j hi hj]
  · classical
    rw [h5 i hi]
    have : ((Finset.range (es.length + 1)).filter fun j =>
        Conn (cutEdges (es.length + 1) (mstToLinkage wt es) eps) i j) =
        (Finset.range (es.length + 1)).filter fun j => Conn (below eps g) i j := by
      apply Finset.filter_congr
      intro j hj
      exact hconn i j hi (Finset.mem_range.1 hj)
    rw [this]

/-- **C14**, through the Kruskal entry point: from any weighted graph to the labels. -/
theorem C14_kruskal_dbscan_star [LinearOrder W] [OrderTop W] [AddCommMonoid S] (n : ℕ) (hn : 0 < n) (wt : ℕ → S)
    (g : List (Edge W)) (hr : InRange n g) (eps : W) (mcs : ℕ) :
    ∃ lab : ℕ → ℤ, cutLabels (mstToLinkage wt (lexsortMst
        (finishMst (runKruskalCore n CLParams.none (sortEdges g)) n))) eps mcs = (List.range n).map lab ∧
      IsDbscanStar n g eps mcs lab := by
  have hinv := kruskalCore_inv (sortEdges_inRange hr)
  obtain ⟨hmsf, _⟩ := kruskal_msf hr
  obtain ⟨h1, b, h2, h3⟩ := C08_finish_spanning_tree n hn (kruskalCore n (sortEdges g)) hinv.rep
    hmsf.forest.acyclic
  rw [run_none]
  exact C14_cut_is_dbscan_star n hn wt g _ b _ hmsf h3 h1 (by rw [h2]) eps mcs

/-- Two triangles and a lone sample; the cut at 5 keeps the first triangle only (minimum size 3). -/
def exCutGraph : List (Edge (WithTop ℕ)) :=
  [⟨0, 1, 1⟩, ⟨1, 2, 4⟩, ⟨0, 2, 9⟩, ⟨3, 4, 2⟩, ⟨4, 5, 5⟩, ⟨2, 3, 8⟩]

example : InRange 7 exCutGraph ∧ cutLabels (mstToLinkage (fun _ => (1 : ℕ)) (lexsortMst
    (finishMst (runKruskalCore 7 CLParams.none (sortEdges exCutGraph)) 7))) 5 3 =
      [0, 0, 0, -1, -1, -1, -1] := by decide +kernel

/-! ## C15 -/

/-- **C15**, density: for every linkage table whose rows refer to earlier nodes, the labels at a cut are `-1` and
`0 … k-1`, all of the latter being used. -/
theorem C15_cut_labels_dense [LT W] [DecidableLT W] (rows : List (LRow W S))
    (hr : ∀ i row, rows[i]? = some row → row.l < rows.length + 1 + i ∧ row.r < rows.length + 1 + i) (cut : W) (mcs : ℕ) :
    (cutLabels rows cut mcs).length = rows.length + 1 ∧
      ∃ k : ℕ, ∀ c : ℤ, c ≠ -1 → (c ∈ cutLabels rows cut mcs ↔ 0 ≤ c ∧ c < k) := by
  obtain ⟨h0, lab, k, h1, h2, h3, _, _⟩ := cutLabels_spec (rows := rows) hr cut mcs
  refine ⟨h0, k, fun c hc => ?_⟩
  constructor
  · intro hmem
    obtain ⟨i, hi, rfl⟩ := List.getElem_of_mem hmem
    have := h1 i (by omega)
    rw [List.getElem?_eq_getElem hi, Option.some.injEq] at this
    rw [this] at hc ⊢
    rcases h2 i (by omega) with h | ⟨d, hd, h⟩
    · exact absurd h hc
    · rw [h]; omega
  · rintro ⟨hc0, hck⟩
    obtain ⟨i, hi, h⟩ := h3 c.toNat (by omega)
    have := h1 i hi
    rw [h, show ((c.toNat : ℕ) : ℤ) = c by omega] at this
    exact List.mem_of_getElem? this

/-- **C15**, monotonicity: samples sharing a label `≥ 0` at a cut share a label `≥ 0` at every larger cut. -/
theorem C15_cut_monotone [LinearOrder W] (rows : List (LRow W S))
    (hr : ∀ i row, rows[i]? = some row → row.l < rows.length + 1 + i ∧ row.r < rows.length + 1 + i) (cut cut' : W)
    (hc : cut ≤ cut') (mcs i j : ℕ) (a : ℤ) (ha : a ≠ -1) (hi : (cutLabels rows cut mcs)[i]? = some a)
    (hj : (cutLabels rows cut mcs)[j]? = some a) :
    ∃ b : ℤ, b ≠ -1 ∧ (cutLabels rows cut' mcs)[i]? = some b ∧ (cutLabels rows cut' mcs)[j]? = some b := by
  classical
  obtain ⟨h0, lab, k, h1, _, _, h4, h5⟩ := cutLabels_spec (rows := rows) hr cut mcs
  obtain ⟨_, lab', k', h1', _, _, h4', h5'⟩ := cutLabels_spec (rows := rows) hr cut' mcs
  have hsome : ∀ x, (cutLabels rows cut mcs)[x]? = some a → x < rows.length + 1 := by
    intro x hx
    by_contra hlt
    rw [List.getElem?_eq_none (by omega)] at hx; cases hx
  have hin := hsome i hi
  have hjn := hsome j hj
  rw [h1 i hin, Option.some.injEq] at hi
  rw [h1 j hjn, Option.some.injEq] at hj
  have hmono : ∀ x y, Conn (cutEdges (rows.length + 1) rows cut) x y →
      Conn (cutEdges (rows.length + 1) rows cut') x y := by
    intro x y
    refine Conn.mono fun e he => ?_
    rw [mem_cutEdges] at he ⊢
    obtain ⟨q, row, hq, hd, h⟩ := he
    exact ⟨q, row, hq, hd.trans_le hc, h⟩
  have hne : lab' i ≠ -1 := by
    intro h
    rw [h5' i hin] at h
    have h6 : ¬ lab i = -1 := by rw [hi]; exact ha
    rw [h5 i hin] at h6
    apply h6
    refine lt_of_le_of_lt (Finset.card_le_card ?_) h
    intro y hy
    simp only [Finset.mem_filter] at hy ⊢
    exact ⟨hy.1, hmono _ _ hy.2⟩
  have hij : lab' i = lab' j := by
    rw [h4' i j hin hjn hne]
    apply hmono
    rw [← h4 i j hin hjn (by rw [hi]; exact ha)]
    omega
  exact ⟨lab' i, hne, h1' i hin, by rw [hij]; exact h1' j hjn⟩

example : let rows : List (LRow ℕ ℕ) := [⟨1, 0, 1, 2⟩, ⟨2, 3, 4, 2⟩, ⟨5, 4, 6, 4⟩]
    (∀ i < 3, ∀ row ∈ rows[i]?, row.l < 4 + i ∧ row.r < 4 + i) ∧ cutLabels rows 2 2 = [0, 0, -1, -1] ∧
      cutLabels rows 5 2 = [0, 0, 1, 1] ∧ cutLabels rows 7 2 = [0, 0, 0, 0] := by decide +kernel

end Verif
