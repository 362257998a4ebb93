import Verif.Lemmas.LinkHier
import Verif.Lemmas.CondBuf
import Verif.Lemmas.Lambda
import Verif.Lemmas.Msf
import Verif.Props.Linkage
import Mathlib.Data.Rat.Defs
import Mathlib.Algebra.Order.Ring.Rat

/-!
# Properties C16–C19: the condensed tree
-/

namespace Verif
variable {W S L : Type*}

section
variable [AddCommMonoid S] [One S] [LinearOrder S] [IsOrderedAddMonoid S] [Inhabited W] [Inhabited S]

/-! ## C16 -/

/-- **C16**, at most once: for every dendrogram, every weighting, every `min_cluster_size` and `max_cluster_size`, nothing
is listed twice. -/
theorem C16_no_sample_twice (n : ℕ) (wt : ℕ → S) (rows : List (LRow W S)) (h : Dendrogram n wt rows) (mcs : S)
    (mx : Option S) (lam : W → L) :
    ((condenseTree (Hier.ofRows rows) wt mcs mx lam).map CRow.child).Nodup :=
  condense_nodup h.valid lam

/-- **C16** (partial): if every sample is lighter than `min_cluster_size`, every sample is listed exactly once.
Missing: samples at least as heavy as `min_cluster_size`, for which the claim is false (`C16_heavy_sample_lost`). -/
theorem C16_sample_exactly_once_partial (n : ℕ) (hn : 2 ≤ n) (wt : ℕ → S) (rows : List (LRow W S))
    (h : Dendrogram n wt rows) (mcs : S) (h0 : ∀ x, x < n → 0 ≤ wt x) (hl : ∀ x, x < n → wt x < mcs)
    (mx : Option S) (lam : W → L) (x : ℕ) (hx : x < n) :
    ((condenseTree (Hier.ofRows rows) wt mcs mx lam).map CRow.child).count x = 1 := by
  have hm : 0 < (Hier.ofRows rows).m := by
    have := h.length; change 0 < rows.length; omega
  obtain ⟨k, relabel, top, hr⟩ := condense_res (mx := mx) (h.condHyp h0 hl) hm lam
  have h1 := List.nodup_iff_count_le_one.1 (condense_nodup (wt := wt) (mcs := mcs) (mx := mx) h.valid lam) x
  have h2 := List.count_pos_iff.2 (hr.complete x (by rw [h.hier_n]; exact hx))
  omega

end

/-- Linkage table of three samples: 0 and 1 merge at distance 1, then 2 at distance 2. -/
def exRows3 : List (LRow ℕ ℕ) := [⟨1, 0, 1, 2⟩, ⟨3, 2, 2, 3⟩]

open Classical in
theorem exRows3_dendrogram : Dendrogram 3 (fun _ => 1) exRows3 := by
  have hb3 : ∀ x, Below 3 exRows3 3 x ↔ x = 1 ∨ x = 0 := fun x => by
    rw [show (3 : ℕ) = 3 + 0 from rfl, below_node_iff (row := ⟨1, 0, 1, 2⟩) rfl, below_leaf_iff (by decide),
      below_leaf_iff (by decide)]
  have hb4 : ∀ x, Below 3 exRows3 4 x ↔ (x = 1 ∨ x = 0) ∨ x = 2 := fun x => by
    rw [show (4 : ℕ) = 3 + 1 from rfl, below_node_iff (row := ⟨3, 2, 2, 3⟩) rfl, hb3, below_leaf_iff (by decide)]
  refine ⟨rfl, ?_, by decide, ?_⟩
  · intro i row hi
    match i with
    | 0 => cases hi; decide
    | 1 => cases hi; decide
    | i + 2 => simp [exRows3] at hi
  · intro i row hi
    match i with
    | 0 =>
      cases hi
      simp only [Nat.add_zero, hb3]
      decide
    | 1 =>
      cases hi
      simp only [show 3 + 1 = 4 from rfl, hb4]
      decide
    | i + 2 => simp [exRows3] at hi

/-- **C16 fails** for `min_cluster_size = 1`: samples 0 and 2 are listed nowhere (ids 4 and 5 are clusters). -/
theorem C16_heavy_sample_lost : Dendrogram 3 (fun _ => 1) exRows3 ∧
    (condenseTree (Hier.ofRows exRows3) (fun _ => 1) 1 none (fun d => d)).map CRow.child = [4, 5, 1] :=
  ⟨exRows3_dendrogram, by decide⟩

example : ∀ x, x < 3 → ((condenseTree (Hier.ofRows exRows3) (fun _ => 1) 2 none (fun d => d)).map
    CRow.child).count x = 1 :=
  C16_sample_exactly_once_partial 3 (by decide) (fun _ => 1) exRows3 exRows3_dendrogram 2 (by decide) (by decide)
    none _

/-! ## C17 -/

section
variable [AddCommMonoid S] [One S] [LinearOrder S] [IsOrderedAddMonoid S] [Inhabited W] [Inhabited S]

open Classical in
/-- **C17.** Without `max_cluster_size` (no caller passes one) and with every sample lighter than `min_cluster_size`: the
result is a condensed tree in the sense of the specification (ids without gaps, parents below children, own row first),
every cluster has no or exactly two child clusters leaving together, sample rows have size 1, and the size recorded for
a cluster is the weight of the samples below it in the condensed tree, at least `min_cluster_size`. -/
theorem C17_condensed_clusters_real (n : ℕ) (hn : 2 ≤ n) (wt : ℕ → S) (rows : List (LRow W S))
    (h : Dendrogram n wt rows) (mcs : S) (h0 : ∀ x, x < n → 0 ≤ wt x) (hl : ∀ x, x < n → wt x < mcs)
    (lam : W → L) :
    let T := condenseTree (Hier.ofRows rows) wt mcs none lam
    ∃ k, CondTree n k T ∧ CBinary n k T ∧ ∀ row ∈ T,
      (row.child < n → row.size = 1) ∧
      (n ≤ row.child → mcs ≤ row.size ∧
        row.size = ((Finset.range n).filter fun x => CDesc T row.child x).sum wt) := by
  intro T
  have hm : 0 < (Hier.ofRows rows).m := by
    have := h.length; change 0 < rows.length; omega
  have hh := h.condHyp h0 hl
  obtain ⟨k, relabel, top, hr⟩ := condense_res (mx := none) hh hm lam
  have hHn := h.hier_n
  refine ⟨k, hHn ▸ hr.condTree, hHn ▸ hr.binary hh, fun row hrow => ⟨fun hc => ?_, fun hc => ?_⟩⟩
  · obtain ⟨v, _, _, _, h1⟩ := hr.rows_pt row hrow (by omega)
    exact h1
  · obtain ⟨h1, h2, v, h3, h4, _, _, h5, _, _⟩ := hr.rows_cl row hrow (by omega)
    have hta := (hr.tops row.child (by omega) h2).1
    refine ⟨?_, ?_⟩
    · rw [h5, ← alive_kid_iff hh h4]; exact hta
    · rw [h5, h.count_eq hta.2.1]
      congr 1
      apply Finset.filter_congr
      intro x hx
      rw [hr.below_iff hh (by omega) h2 (by rw [hHn]; exact Finset.mem_range.1 hx)]

/-- **C17**, meaning of a cluster: in the condensed tree of a weight-sorted spanning tree, each cluster is born when some
tree edge `e` is removed: its samples are exactly one connected component of the tree edges before `e`, and its lambda
is that of `e`. -/
theorem C17_cluster_is_component [LinearOrder W] (n : ℕ) (hn : 2 ≤ n) (wt : ℕ → S) (t : List (Edge W))
    (ht : SpanningTree n t) (mcs : S) (h0 : ∀ x, x < n → 0 ≤ wt x)
    (hl : ∀ x, x < n → wt x < mcs) (mx : Option S) (lam : W → L) :
    let T := condenseTree (Hier.ofRows (mstToLinkage wt t)) wt mcs mx lam
    ∀ row ∈ T, n ≤ row.child → ∃ j e, t[j]? = some e ∧ row.lam = lam e.w ∧
      ∀ x y, CDesc T row.child x → x < n → y < n → (CDesc T row.child y ↔ Conn (t.take j) x y) := by
  intro T row hrow hc
  have hlen := ht.length (by omega)
  subst hlen
  have hfull := linkage_fold_inv wt ht.inRange ht.acyclic le_rfl
  have hlen : (mstToLinkage wt t).length = t.length := hfull.len
  have hden : Dendrogram (t.length + 1) wt (mstToLinkage wt t) :=
    ⟨by rw [hlen], hfull.older, hfull.once, hfull.rowsize⟩
  have hm : 0 < (Hier.ofRows (mstToLinkage wt t)).m := by
    change 0 < (mstToLinkage wt t).length; omega
  have hh := hden.condHyp h0 hl
  have hHn := hden.hier_n
  obtain ⟨k, relabel, top, hr⟩ := condense_res (mx := mx) hh hm lam
  obtain ⟨h1, h2, v, h3, h4, _, h5, _⟩ := hr.rows_cl row hrow (by omega)
  have hvn := h3.1
  have hvlt : v - (t.length + 1) < t.length := by
    have h6 : v < (Hier.ofRows (mstToLinkage wt t)).n + (mstToLinkage wt t).length := h4.2.1
    omega
  have hve : v = t.length + 1 + (v - (t.length + 1)) := by omega
  refine ⟨v - (t.length + 1), t[v - (t.length + 1)], List.getElem?_eq_getElem hvlt, ?_, ?_⟩
  · rw [h5, hHn]
    have hrow' : (mstToLinkage wt t)[v - (t.length + 1)]? = some (mstToLinkage wt t)[v - (t.length + 1)] :=
      List.getElem?_eq_getElem (by omega)
    rw [Hier.ofRows_d hrow']
    have hd := congrArg (fun l => l[v - (t.length + 1)]?) hfull.dist
    simp only [List.getElem?_map] at hd
    rw [show (t.foldl (linkStep (2 * (t.length + 1) - 1)) (linkInit (t.length + 1) wt)).rows =
      mstToLinkage wt t from rfl, hrow', List.getElem?_eq_getElem hvlt] at hd
    simp only [Option.map_some, Option.some.injEq] at hd
    rw [hd]
  · intro x y hx hxn hyn
    rw [hr.below_iff hh (by omega) h2 (by omega)] at hx
    rw [hr.below_iff hh (by omega) h2 (by omega)]
    rw [hve] at h4
    rw [link_component wt ht.inRange ht.acyclic h4 ((below_iff_sub hHn).2 ⟨hxn, hx⟩) hyn, below_iff_sub hHn]
    exact ⟨fun h => ⟨hyn, h⟩, fun h => h.2⟩

/-- **C17**, in terms of the data: let `g` be the (mutual reachability) graph, `f` a minimum spanning forest of it completed
with `+inf` edges to the tree `t`.  A cluster born at distance `d` is connected inside `g` by edges of weight at most `d`
(when `d` is finite), and no edges of weight below `d` lead from it to any other sample. -/
theorem C17_cluster_separated [LinearOrder W] [OrderTop W] (n : ℕ) (hn : 2 ≤ n) (wt : ℕ → S)
    (g f b t : List (Edge W)) (hf : MinSpanningForest g f) (hb : ∀ e ∈ b, e.w = ⊤) (ht : SpanningTree n t)
    (hp : t.Perm (f ++ b)) (mcs : S) (h0 : ∀ x, x < n → 0 ≤ wt x) (hl : ∀ x, x < n → wt x < mcs)
    (mx : Option S) (lam : W → L) :
    let T := condenseTree (Hier.ofRows (mstToLinkage wt (lexsortMst t))) wt mcs mx lam
    ∀ row ∈ T, n ≤ row.child → ∃ d, row.lam = lam d ∧ ∀ x y, x < n → y < n → CDesc T row.child x →
      (d ≠ ⊤ → CDesc T row.child y → Conn (upTo d g) x y) ∧ (Conn (below d g) x y → CDesc T row.child y) := by
  intro T row hrow hc
  have ht' := ht.perm (lexsortMst_perm t)
  have hsort := lexsortMst_sorted t
  have hperm := (lexsortMst_perm t).trans hp
  obtain ⟨j, e, hj, hlam, hcomp⟩ := C17_cluster_is_component n hn wt _ ht' mcs h0 hl mx lam row hrow hc
  have hle : ∀ a ∈ (lexsortMst t).take j, a.w ≤ e.w := by
    intro a ha
    obtain ⟨i, hi, rfl⟩ := List.getElem_of_mem ha
    rw [List.length_take] at hi
    obtain ⟨hjl, rfl⟩ := List.getElem?_eq_some_iff.1 hj
    rw [List.getElem_take]
    exact List.pairwise_iff_getElem.1 hsort i j (by omega) hjl (by omega)
  have hge : ∀ a ∈ lexsortMst t, a.w < e.w → a ∈ (lexsortMst t).take j := by
    intro a ha haw
    obtain ⟨i, hi, rfl⟩ := List.getElem_of_mem ha
    obtain ⟨hjl, rfl⟩ := List.getElem?_eq_some_iff.1 hj
    have hij : i < j := by
      by_contra hc
      rcases (not_lt.1 hc).lt_or_eq with h1 | h1
      · exact absurd haw (not_lt.2 (List.pairwise_iff_getElem.1 hsort j i hjl hi h1))
      · subst h1; exact lt_irrefl _ haw
    rw [List.mem_take_iff_getElem]
    exact ⟨i, by omega, rfl⟩
  refine ⟨e.w, hlam, fun x y hx hy hcx => ⟨fun hd hcy => ?_, fun hconn => ?_⟩⟩
  · rw [hcomp x y hcx hx hy] at hcy
    rw [← hf.conn_upTo]
    refine hcy.mono fun a ha => ?_
    have h1 := hle a ha
    have h2 := hperm.mem_iff.1 (List.mem_of_mem_take ha)
    rw [mem_upTo]
    refine ⟨?_, h1⟩
    rw [List.mem_append] at h2
    rcases h2 with h2 | h2
    · exact h2
    · rw [hb a h2, top_le_iff] at h1
      exact absurd h1 hd
  · rw [hcomp x y hcx hx hy]
    rw [← hf.conn_below] at hconn
    refine hconn.mono fun a ha => ?_
    rw [mem_below] at ha
    exact hge a (hperm.mem_iff.2 (by simp [ha.1])) ha.2

end

/-- Two pairs and a far away sample: the condensed tree has a top cluster 5 with the child clusters 6 and 7. -/
def exTree5 : List (Edge ℕ) := [⟨0, 1, 1⟩, ⟨2, 3, 2⟩, ⟨1, 2, 5⟩, ⟨4, 0, 9⟩]

theorem exTree5_spanning : SpanningTree 5 exTree5 := by
  have hconn : ∀ a b, a < 5 → b < 5 → Conn exTree5 a b := by
    have h0 : ∀ a, a < 5 → Conn exTree5 a 0 := by
      have e01 : Conn exTree5 0 1 := Conn.edge (e := ⟨0, 1, 1⟩) (by decide)
      have e23 : Conn exTree5 2 3 := Conn.edge (e := ⟨2, 3, 2⟩) (by decide)
      have e12 : Conn exTree5 1 2 := Conn.edge (e := ⟨1, 2, 5⟩) (by decide)
      have e40 : Conn exTree5 4 0 := Conn.edge (e := ⟨4, 0, 9⟩) (by decide)
      intro a ha
      interval_cases a
      · exact Conn.refl _ _
      · exact e01.symm
      · exact e12.symm.trans e01.symm
      · exact e23.symm.trans (e12.symm.trans e01.symm)
      · exact e40
    exact fun a b ha hb => (h0 a ha).trans (h0 b hb).symm
  have hr : InRange 5 exTree5 := by decide
  exact ⟨hr, acyclic_of_connected hr hconn (by decide), hconn⟩

example : condenseTree (Hier.ofRows (mstToLinkage (fun _ => (1 : ℕ)) exTree5)) (fun _ => 1) 2 none (fun d => d) =
    [⟨5, 4, 9, 1⟩, ⟨5, 6, 5, 2⟩, ⟨5, 7, 5, 2⟩, ⟨6, 3, 2, 1⟩, ⟨6, 2, 2, 1⟩, ⟨7, 1, 1, 1⟩, ⟨7, 0, 1, 1⟩] := by decide

example : Dendrogram 5 (fun _ => (1 : ℕ)) (mstToLinkage (fun _ => 1) exTree5) :=
  (C12_linkage_is_dendrogram 5 (by decide) (fun _ => 1) exTree5 exTree5_spanning (by decide)).1

/-! ## C18 -/

/-- **C18.** For every dendrogram with non-decreasing heights (any weights, any size limits) and every lambda that does not
increase with the distance, nothing leaves a cluster at a smaller lambda than the cluster appeared at. -/
theorem C18_lambda_monotone [AddCommMonoid S] [One S] [LinearOrder S] [Inhabited W] [Inhabited S] [Preorder W]
    [Preorder L] (n : ℕ) (wt : ℕ → S) (rows : List (LRow W S)) (h : Dendrogram n wt rows)
    (hs : (rows.map LRow.d).Pairwise (· ≤ ·)) (mcs : S) (mx : Option S) (lam : W → L) (hlam : Antitone lam) :
    CMono (condenseTree (Hier.ofRows rows) wt mcs mx lam) :=
  condense_mono h.valid hlam (ofRows_height hs)

/-- **C18** for both lambda functions of the code. -/
theorem C18_hdbscan_plscan_lambda {K : Type*} [Field K] [LinearOrder K] [IsStrictOrderedRing K] :
    Antitone (hdbscanLam (K := K)) ∧ Antitone plscanLam := ⟨hdbscanLam_antitone, plscanLam_antitone⟩

example : CMono (condenseTree (Hier.ofRows (mstToLinkage (fun _ => (1 : ℕ)) exTree5)) (fun _ => 1) 2 none
    (fun d => OrderDual.toDual d)) :=
  C18_lambda_monotone 5 (fun _ => 1) _
    (C12_linkage_is_dendrogram 5 (by decide) (fun _ => 1) exTree5 exTree5_spanning (by decide)).1
    (by decide) 2 none _ fun _ _ h => h

/-! ## C19 -/

/-- **C19.** For every dendrogram of `n` samples and all parameters, at most `2 (n - 1)` rows are written, and every node
visited indexes into tables of `2 (n - 1) + 1` entries. -/
theorem C19_buffers_suffice [AddCommMonoid S] [One S] [LinearOrder S] [Inhabited W] [Inhabited S] (n : ℕ)
    (wt : ℕ → S) (rows : List (LRow W S)) (h : Dendrogram n wt rows) (mcs : S) (mx : Option S) (lam : W → L) :
    (condenseTree (Hier.ofRows rows) wt mcs mx lam).length ≤ 2 * (n - 1) ∧
      ∀ v ∈ (Hier.ofRows rows).bfs (Hier.ofRows rows).root, v < 2 * (n - 1) + 1 := by
  have hm : (Hier.ofRows rows).m = n - 1 := by
    have := h.length; change rows.length = _; omega
  have h1 := condense_length_le (wt := wt) (mcs := mcs) (mx := mx) h.valid lam
  refine ⟨by rw [← hm]; exact h1, fun v hv => ?_⟩
  rw [Hier.mem_bfs h.valid le_rfl] at hv
  have := hv.le h.valid
  unfold Hier.root at this
  omega

/-- The bound is attained: two pairs, `min_cluster_size = 2` (six rows for four samples). -/
example : (condenseTree (Hier.ofRows ([⟨1, 0, 1, 2⟩, ⟨3, 2, 1, 2⟩, ⟨5, 4, 2, 4⟩] : List (LRow ℕ ℕ)))
    (fun _ => 1) 2 none (fun d => d)).length = 2 * (4 - 1) := by decide

end Verif
