import Verif.Lemmas.LinkSame
import Verif.Lemmas.Graph
import Verif.Props.Linkage
import Verif.Spec.Same

/-!
# Spanning trees with the same components at every length
-/

namespace Verif
variable {W S : Type*}

/-- The edges with renamed ends. -/
def renameEdges (f : ℕ → ℕ) (es : List (Edge W)) : List (Edge W) := es.map fun e => ⟨f e.u, f e.v, e.w⟩

theorem Conn.renamed (f : ℕ → ℕ) {es : List (Edge W)} {a b : ℕ} (h : Conn es a b) : Conn (renameEdges f es) (f a) (f b) := by
  induction h with
  | refl => exact Conn.refl _ _
  | tail _ hbc ih =>
    refine ih.trans ?_
    obtain ⟨e, he, h⟩ := hbc
    have hm : (⟨f e.u, f e.v, e.w⟩ : Edge W) ∈ renameEdges f es := List.mem_map_of_mem he
    rcases h with ⟨rfl, rfl⟩ | ⟨rfl, rfl⟩
    · exact Conn.edge hm
    · exact (Conn.edge hm).symm

theorem renameEdges_symm (f : Equiv.Perm ℕ) (es : List (Edge W)) : renameEdges f.symm (renameEdges f es) = es := by
  unfold renameEdges
  rw [List.map_map]
  conv_rhs => rw [← List.map_id es]
  refine List.map_congr_left fun e _ => ?_
  simp

theorem conn_rename (f : Equiv.Perm ℕ) {es : List (Edge W)} {a b : ℕ} : Conn (renameEdges f es) (f a) (f b) ↔ Conn es a b := by
  refine ⟨fun h => ?_, Conn.renamed f⟩
  have := h.renamed f.symm
  rwa [renameEdges_symm, Equiv.symm_apply_apply, Equiv.symm_apply_apply] at this

theorem Acyclic.rename (f : Equiv.Perm ℕ) {es : List (Edge W)} (h : Acyclic es) : Acyclic (renameEdges f es) := by
  intro l₁ e l₂ he hc
  have e1 := congrArg (renameEdges f.symm) he
  rw [renameEdges_symm] at e1
  unfold renameEdges at e1
  rw [List.map_append, List.map_cons] at e1
  refine h _ _ _ e1 ?_
  have := hc.renamed f.symm
  unfold renameEdges at this
  rwa [List.map_append] at this

theorem upTo_rename [LE W] [DecidableLE W] (f : ℕ → ℕ) (t : W) (es : List (Edge W)) : upTo t (renameEdges f es) = renameEdges f (upTo t es) := by
  unfold upTo renameEdges
  rw [List.filter_map]; rfl

theorem InRange.rename {n : ℕ} {f : ℕ → ℕ} (hf : ∀ x, x < n → f x < n) {es : List (Edge W)} (h : InRange n es) : InRange n (renameEdges f es) := by
  intro e he
  obtain ⟨e0, h0, rfl⟩ := List.mem_map.1 he
  exact ⟨hf _ (h e0 h0).1, hf _ (h e0 h0).2⟩

section
variable [LinearOrder W]

theorem SameComponents.upTo_length {n : ℕ} {f : Equiv.Perm ℕ} (hf : ∀ x, f x < n ↔ x < n) {g g' : List (Edge W)} (h : SameComponents n f g g')
    (hr : InRange n g) (hr' : InRange n g') (ha : Acyclic g) (ha' : Acyclic g') (t : W) : (upTo t g').length = (upTo t g).length := by
  have a1 := (ha.filter fun e => decide (e.w ≤ t)).rename f
  have r1 : InRange n (renameEdges f (upTo t g)) := InRange.rename (fun x hx => (hf x).2 hx) fun e he => hr e (mem_upTo.1 he).1
  have r2 : InRange n (upTo t g') := fun e he => hr' e (mem_upTo.1 he).1
  have c1 := Acyclic.length_add_compCount (n := n) a1 r1
  have c2 := Acyclic.length_add_compCount (n := n) (ha'.filter fun e => decide (e.w ≤ t)) r2
  have hc : compCount n (renameEdges f (upTo t g)) = compCount n (upTo t g') := by
    refine compCount_congr fun a b ha hb => ?_
    obtain ⟨x, rfl⟩ := f.surjective a
    obtain ⟨y, rfl⟩ := f.surjective b
    rw [conn_rename, h t x y ((hf x).1 ha) ((hf y).1 hb)]
  have e1 : (renameEdges f (upTo t g)).length = (upTo t g).length := List.length_map ..
  change (renameEdges f (upTo t g)).length + compCount n (renameEdges f (upTo t g)) = n at c1
  change (upTo t g').length + compCount n (upTo t g') = n at c2
  omega

theorem weights_sort_eq {A B : List W} (hl : A.length = B.length) (h : ∀ t, (A.filter (fun x => decide (x ≤ t))).length = (B.filter (fun x => decide (x ≤ t))).length) :
    A.insertionSort (· ≤ ·) = B.insertionSort (· ≤ ·) := by
  have h1 := forall₂_insertionSort_of_count hl fun t => (h t).ge
  have h2 := forall₂_insertionSort_of_count hl.symm fun t => (h t).le
  refine List.forall₂_eq_eq_eq ▸ ?_
  rw [List.forall₂_iff_get] at *
  exact ⟨h1.1, fun i p q => le_antisymm (h1.2 i p q) (h2.2 i q p)⟩

theorem lexsort_weights (es : List (Edge W)) : (lexsortMst es).map Edge.w = (es.map Edge.w).insertionSort (· ≤ ·) := by
  refine List.Perm.eq_of_pairwise (le := (· ≤ ·)) (fun a b _ _ h1 h2 => le_antisymm h1 h2) ?_ (List.pairwise_insertionSort _ _) ?_
  · rw [List.pairwise_map]; exact lexsortMst_sorted es
  · exact ((lexsortMst_perm es).map _).trans (List.perm_insertionSort _ _).symm

theorem SameComponents.weights {n : ℕ} {f : Equiv.Perm ℕ} (hf : ∀ x, f x < n ↔ x < n) {g g' : List (Edge W)} (h : SameComponents n f g g')
    (hn : 0 < n) (hg : SpanningTree n g) (hg' : SpanningTree n g') : (lexsortMst g').map Edge.w = (lexsortMst g).map Edge.w := by
  rw [lexsort_weights, lexsort_weights]
  refine weights_sort_eq (by have := hg.length hn; have := hg'.length hn; simp; omega) fun t => ?_
  have := h.upTo_length hf hg.inRange hg'.inRange hg.acyclic hg'.acyclic t
  unfold upTo at this
  rw [List.filter_map, List.filter_map, List.length_map, List.length_map]
  exact this

theorem take_eq_upTo {es : List (Edge W)} (hs : es.Pairwise fun a b => a.w < b.w) {i : ℕ} {e : Edge W} (he : es[i]? = some e) :
    es.take (i + 1) = upTo e.w es := by
  obtain ⟨hi, rfl⟩ := List.getElem?_eq_some_iff.1 he
  have h0 : upTo es[i].w es = (es.take (i + 1)).filter (fun e => decide (e.w ≤ es[i].w)) ++ (es.drop (i + 1)).filter (fun e => decide (e.w ≤ es[i].w)) := by
    rw [← List.filter_append, List.take_append_drop]; rfl
  rw [List.pairwise_iff_getElem] at hs
  have h1 : (es.take (i + 1)).filter (fun e => decide (e.w ≤ es[i].w)) = es.take (i + 1) := by
    rw [List.filter_eq_self]
    intro a ha
    obtain ⟨j, hj, rfl⟩ := List.mem_iff_getElem.1 ha
    rw [List.getElem_take]
    have hj' : j < i + 1 := by rw [List.length_take] at hj; omega
    rw [decide_eq_true_iff]
    rcases Nat.lt_or_eq_of_le (Nat.le_of_lt_succ hj') with hlt | rfl
    · exact (hs j i _ hi hlt).le
    · exact le_rfl
  have h2 : (es.drop (i + 1)).filter (fun e => decide (e.w ≤ es[i].w)) = [] := by
    rw [List.filter_eq_nil_iff]
    intro a ha
    obtain ⟨j, hj, rfl⟩ := List.mem_iff_getElem.1 ha
    rw [List.getElem_drop, decide_eq_true_iff, not_le]
    exact hs i _ hi _ (by omega)
  rw [h0, h1, h2, List.append_nil]

theorem lexsort_strict {es : List (Edge W)} (h : (es.map Edge.w).Nodup) : (lexsortMst es).Pairwise fun a b => a.w < b.w := by
  have h1 : ((lexsortMst es).map Edge.w).Nodup := ((lexsortMst_perm es).map _).nodup_iff.2 h
  rw [List.nodup_iff_pairwise_ne, List.pairwise_map] at h1
  exact (List.pairwise_and_iff.2 ⟨lexsortMst_sorted es, h1⟩).imp fun h => lt_of_le_of_ne h.1 h.2

/-- The linkage trees of two such spanning trees agree up to the names of the samples. -/
theorem SameComponents.linkage [AddCommMonoid S] {n : ℕ} {f : Equiv.Perm ℕ} (hf : ∀ x, f x < n ↔ x < n) {g g' : List (Edge W)} (h : SameComponents n f g g')
    (hn : 0 < n) (hg : SpanningTree n g) (hg' : SpanningTree n g') (hd : (g.map Edge.w).Nodup) {wt wt' : ℕ → S} (hwt : ∀ x, x < n → wt' (f x) = wt x) :
    mstToLinkage wt' (lexsortMst g') = (mstToLinkage wt (lexsortMst g)).map (renRow n f) := by
  have hw := h.weights hf hn hg hg'
  have hd' : (g'.map Edge.w).Nodup := by
    rw [← ((lexsortMst_perm g').map _).nodup_iff, hw, ((lexsortMst_perm g).map _).nodup_iff]
    exact hd
  have s := lexsort_strict hd
  have s' := lexsort_strict hd'
  have t := hg.perm (lexsortMst_perm g)
  have t' := hg'.perm (lexsortMst_perm g')
  have hlen := t.length hn
  have hlen' := t'.length hn
  have key := linkage_sim (n := n) hf hwt t.inRange t'.inRange t.acyclic t'.acyclic (by omega) hw fun i x y hx hy => by
    rcases Nat.eq_zero_or_pos i with rfl | hi
    · simp
    · obtain ⟨i, rfl⟩ : ∃ j, i = j + 1 := ⟨i - 1, by omega⟩
      by_cases hil : i < (lexsortMst g).length
      · have e1 := List.getElem?_eq_getElem hil
        have hil' : i < (lexsortMst g').length := by omega
        have e2 := List.getElem?_eq_getElem hil'
        have ew : (lexsortMst g')[i].w = (lexsortMst g)[i].w := by
          have := congrArg (fun l => l[i]?) hw
          simp only [List.getElem?_map, e1, e2, Option.map_some, Option.some.injEq] at this
          exact this
        rw [take_eq_upTo s e1, take_eq_upTo s' e2, ew]
        have p1 : (upTo (lexsortMst g)[i].w (lexsortMst g)).Perm (upTo (lexsortMst g)[i].w g) := (lexsortMst_perm g).filter _
        have p2 : (upTo (lexsortMst g)[i].w (lexsortMst g')).Perm (upTo (lexsortMst g)[i].w g') := (lexsortMst_perm g').filter _
        rw [Conn.perm p1, Conn.perm p2]
        exact h _ x y hx hy
      · rw [List.take_of_length_le (by omega), List.take_of_length_le (by omega)]
        exact ⟨fun _ => t'.conn _ _ ((hf x).2 hx) ((hf y).2 hy), fun _ => t.conn _ _ hx hy⟩
  unfold mstToLinkage
  simp only
  rw [hlen, hlen']
  exact key.rows

end

end Verif
