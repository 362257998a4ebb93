import Verif.Lemmas.CondFacts
import Verif.Lemmas.Linkage
import Verif.Lemmas.Cut
import Mathlib.Algebra.Order.BigOperators.Group.Finset

/-!
# From dendrograms to the hierarchies read by `condense_tree`
-/

namespace Verif
variable {W S L : Type*}

section
variable [Inhabited W] [Inhabited S]

theorem Hier.ofRows_l {rows : List (LRow W S)} {i : ℕ} {row : LRow W S} (h : rows[i]? = some row) :
    (Hier.ofRows rows).l i = row.l := by simp [Hier.ofRows, h]
theorem Hier.ofRows_r {rows : List (LRow W S)} {i : ℕ} {row : LRow W S} (h : rows[i]? = some row) :
    (Hier.ofRows rows).r i = row.r := by simp [Hier.ofRows, h]
theorem Hier.ofRows_d {rows : List (LRow W S)} {i : ℕ} {row : LRow W S} (h : rows[i]? = some row) :
    (Hier.ofRows rows).d i = row.d := by simp [Hier.ofRows, h]
theorem Hier.ofRows_s {rows : List (LRow W S)} {i : ℕ} {row : LRow W S} (h : rows[i]? = some row) :
    (Hier.ofRows rows).s i = row.s := by simp [Hier.ofRows, h]

omit [Inhabited W] [Inhabited S] in
theorem once_of_nodup {rows : List (LRow W S)} (hn : (rows.flatMap fun row => [row.l, row.r]).Nodup) {i j : ℕ}
    {a b : LRow W S} (hi : rows[i]? = some a) (hj : rows[j]? = some b) :
    a.l ≠ b.r ∧ (a.l = b.l → i = j) ∧ (a.r = b.r → i = j) := by
  rw [List.nodup_flatMap] at hn
  obtain ⟨h1, h2⟩ := hn
  have hself : ∀ a ∈ rows, a.l ≠ a.r := by
    intro a ha he
    have := h1 a ha
    simp [he] at this
  have hdis : ∀ {i j : ℕ} {a b : LRow W S}, rows[i]? = some a → rows[j]? = some b → i < j →
      a.l ≠ b.l ∧ a.l ≠ b.r ∧ a.r ≠ b.l ∧ a.r ≠ b.r := by
    intro i j a b hi hj hij
    rw [List.pairwise_iff_getElem] at h2
    obtain ⟨hil, rfl⟩ := List.getElem?_eq_some_iff.1 hi
    obtain ⟨hjl, rfl⟩ := List.getElem?_eq_some_iff.1 hj
    have := h2 i j hil hjl hij
    simp only [Function.onFun, List.disjoint_cons_left, List.mem_cons, List.not_mem_nil, or_false,
      not_or] at this
    exact ⟨this.1.1, this.1.2, this.2.1.1, this.2.1.2⟩
  rcases Nat.lt_trichotomy i j with h | h | h
  · have := hdis hi hj h
    exact ⟨this.2.1, fun he => absurd he this.1, fun he => absurd he this.2.2.2⟩
  · subst h
    rw [hi, Option.some.injEq] at hj
    subst hj
    exact ⟨hself a (List.mem_of_getElem? hi), fun _ => rfl, fun _ => rfl⟩
  · have := hdis hj hi h
    exact ⟨fun he => this.2.2.1 he.symm, fun he => absurd he.symm this.1, fun he => absurd he.symm this.2.2.2⟩

theorem Dendrogram.hier_n [AddCommMonoid S] {n : ℕ} {wt : ℕ → S} {rows : List (LRow W S)}
    (h : Dendrogram n wt rows) : (Hier.ofRows rows).n = n := h.length

theorem Dendrogram.valid [AddCommMonoid S] {n : ℕ} {wt : ℕ → S} {rows : List (LRow W S)}
    (h : Dendrogram n wt rows) : (Hier.ofRows rows).Valid := by
  have hget : ∀ i, i < (Hier.ofRows rows).m → ∃ row, rows[i]? = some row := fun i hi =>
    ⟨_, List.getElem?_eq_getElem hi⟩
  constructor
  · intro i hi
    obtain ⟨row, hr⟩ := hget i hi
    rw [h.hier_n, Hier.ofRows_l hr, Hier.ofRows_r hr]
    exact h.lt i row hr
  · intro i j hi hj
    obtain ⟨a, ha⟩ := hget i hi
    obtain ⟨b, hb⟩ := hget j hj
    rw [Hier.ofRows_l ha, Hier.ofRows_r hb]
    exact (once_of_nodup h.once ha hb).1
  · intro i j hi hj
    obtain ⟨a, ha⟩ := hget i hi
    obtain ⟨b, hb⟩ := hget j hj
    rw [Hier.ofRows_l ha, Hier.ofRows_l hb]
    exact (once_of_nodup h.once ha hb).2.1
  · intro i j hi hj
    obtain ⟨a, ha⟩ := hget i hi
    obtain ⟨b, hb⟩ := hget j hj
    rw [Hier.ofRows_r ha, Hier.ofRows_r hb]
    exact (once_of_nodup h.once ha hb).2.2

theorem Hier.isKid_ofRows {rows : List (LRow W S)} {i a : ℕ} {row : LRow W S} (h : rows[i]? = some row) :
    (Hier.ofRows rows).IsKid ((Hier.ofRows rows).n + i) a ↔ a = row.l ∨ a = row.r := by
  have hi : i < rows.length := by
    by_contra hc
    rw [List.getElem?_eq_none (by omega)] at h; cases h
  unfold Hier.IsKid
  rw [Nat.add_sub_cancel_left, Hier.ofRows_l h, Hier.ofRows_r h]
  constructor
  · rintro ⟨_, _, h⟩; exact h
  · intro h; exact ⟨by omega, by change _ < _ + rows.length; omega, h⟩

/-- Both notions of "below a node" agree. -/
theorem below_iff_sub {n : ℕ} {rows : List (LRow W S)} (hl : (Hier.ofRows rows).n = n) {v x : ℕ} :
    Below n rows v x ↔ x < n ∧ (Hier.ofRows rows).Sub v x := by
  subst hl
  constructor
  · intro h
    refine ⟨h.lt_n, ?_⟩
    induction h with
    | leaf _ => exact Hier.Sub.refl _
    | left hi _ ih => exact (Hier.Sub.kid ((Hier.isKid_ofRows hi).2 (Or.inl rfl))).trans ih
    | right hi _ ih => exact (Hier.Sub.kid ((Hier.isKid_ofRows hi).2 (Or.inr rfl))).trans ih
  · rintro ⟨hx, hs⟩
    induction hs using Relation.ReflTransGen.head_induction_on with
    | refl => exact Below.leaf hx
    | @head v a hk _ ih =>
      have h1 := hk.1
      have h2 : v - (Hier.ofRows rows).n < rows.length := by
        have : v < (Hier.ofRows rows).n + rows.length := hk.2.1
        omega
      have hi : rows[v - (Hier.ofRows rows).n]? = some rows[v - (Hier.ofRows rows).n] :=
        List.getElem?_eq_getElem h2
      have hv : v = (Hier.ofRows rows).n + (v - (Hier.ofRows rows).n) := by omega
      rw [hv] at hk ⊢
      rcases (Hier.isKid_ofRows hi).1 hk with rfl | rfl
      · exact Below.left hi ih
      · exact Below.right hi ih

open Classical in
/-- The count of a node is the weight of the samples below it. -/
theorem Dendrogram.count_eq [AddCommMonoid S] {n : ℕ} {wt : ℕ → S} {rows : List (LRow W S)}
    (h : Dendrogram n wt rows) {v : ℕ} (hv : v ≤ (Hier.ofRows rows).root) :
    (Hier.ofRows rows).count wt v = ((Finset.range n).filter fun x => (Hier.ofRows rows).Sub v x).sum wt := by
  have hre := (Hier.ofRows rows).root_eq
  have hn := h.hier_n
  unfold Hier.count
  by_cases hvn : (Hier.ofRows rows).n ≤ v
  · rw [if_pos hvn]
    have h2 : v - n < rows.length := by
      have h3 : (Hier.ofRows rows).m = rows.length := rfl
      omega
    have hi : rows[v - n]? = some rows[v - n] := List.getElem?_eq_getElem h2
    rw [hn, Hier.ofRows_s hi, h.size _ _ hi]
    congr 1
    apply Finset.filter_congr
    intro x hx
    rw [below_iff_sub hn, show n + (v - n) = v by omega]
    exact ⟨fun h => h.2, fun h => ⟨Finset.mem_range.1 hx, h⟩⟩
  · rw [if_neg hvn]
    have : ((Finset.range n).filter fun x => (Hier.ofRows rows).Sub v x) = {v} := by
      ext x
      simp only [Finset.mem_filter, Finset.mem_range, Finset.mem_singleton]
      constructor
      · rintro ⟨_, hs⟩; exact hs.of_leaf (by omega)
      · rintro rfl; exact ⟨by omega, Hier.Sub.refl _⟩
    rw [this, Finset.sum_singleton]

theorem Dendrogram.condHyp [AddCommMonoid S] [LinearOrder S] [IsOrderedAddMonoid S] {n : ℕ} {wt : ℕ → S}
    {rows : List (LRow W S)} (h : Dendrogram n wt rows) {mcs : S} (h0 : ∀ x, x < n → 0 ≤ wt x)
    (hl : ∀ x, x < n → wt x < mcs) : CondHyp (Hier.ofRows rows) wt mcs := by
  classical
  refine ⟨h.valid, by rw [h.hier_n]; exact hl, fun v a hk => ?_⟩
  have h1 := hk.lt h.valid
  have h2 := hk.2.1
  have h3 := (Hier.ofRows rows).root_eq
  rw [h.count_eq (by omega), h.count_eq (by omega)]
  refine Finset.sum_le_sum_of_subset_of_nonneg ?_ ?_
  · intro x hx
    rw [Finset.mem_filter] at hx ⊢
    exact ⟨hx.1, (Hier.Sub.kid hk).trans hx.2⟩
  · intro x hx _
    rw [Finset.mem_filter, Finset.mem_range] at hx
    exact h0 x hx.1

theorem ofRows_height [Preorder W] {rows : List (LRow W S)} (hs : (rows.map LRow.d).Pairwise (· ≤ ·)) (i j : ℕ)
    (hij : i ≤ j) (hj : j < (Hier.ofRows rows).m) : (Hier.ofRows rows).d i ≤ (Hier.ofRows rows).d j := by
  have hj' : j < rows.length := hj
  have hi' : i < rows.length := by omega
  rw [Hier.ofRows_d (List.getElem?_eq_getElem hi'), Hier.ofRows_d (List.getElem?_eq_getElem hj')]
  rcases hij.lt_or_eq with h | h
  · rw [List.pairwise_map, List.pairwise_iff_getElem] at hs
    exact hs i j hi' hj' h
  · subst h; exact le_rfl

end

/-! ### Components of prefixes of the spanning tree -/

theorem below_append_list {n : ℕ} {rows rest : List (LRow W S)} {v x : ℕ} (h : Below n rows v x) :
    Below n (rows ++ rest) v x := by
  have hx : ∀ {i : ℕ} {row : LRow W S}, rows[i]? = some row → (rows ++ rest)[i]? = some row := by
    intro i row hi
    obtain ⟨h1, _⟩ := List.getElem?_eq_some_iff.1 hi
    rw [List.getElem?_append_left h1]; exact hi
  induction h with
  | leaf h => exact Below.leaf h
  | left hi _ ih => exact Below.left (hx hi) ih
  | right hi _ ih => exact Below.right (hx hi) ih

/-- A node that is merged in row `j` is a full connected component of the first `j` tree edges. -/
theorem link_component [AddCommMonoid S] [Inhabited W] [Inhabited S] (wt : ℕ → S) {es : List (Edge W)}
    (hr : InRange (es.length + 1) es) (ha : Acyclic es) {j a x y : ℕ}
    (hk : (Hier.ofRows (mstToLinkage wt es)).IsKid (es.length + 1 + j) a)
    (hx : Below (es.length + 1) (mstToLinkage wt es) a x) (hy : y < es.length + 1) :
    Conn (es.take j) x y ↔ Below (es.length + 1) (mstToLinkage wt es) a y := by
  have hfull := linkage_fold_inv wt hr ha le_rfl
  set n := es.length + 1 with hn
  have hrows : mstToLinkage wt es = (es.foldl (linkStep (2 * n - 1)) (linkInit n wt)).rows := rfl
  have hlen : (mstToLinkage wt es).length = es.length := hfull.len
  have hden : Dendrogram n wt (mstToLinkage wt es) :=
    ⟨by rw [hlen], hfull.older, hfull.once, hfull.rowsize⟩
  have hHn := hden.hier_n
  have hv := hden.valid
  have hjl : j < es.length := by
    have h1 : n + j < (Hier.ofRows (mstToLinkage wt es)).n + (mstToLinkage wt es).length := hk.2.1
    rw [hHn, hlen] at h1
    omega
  -- the state after `j` steps
  have htake : InRange n (es.take j) := fun e he => hr e (List.mem_of_mem_take he)
  have hatake : Acyclic (es.take j) := by
    exact ha.of_subperm (List.take_sublist j es).subperm
  have hj := linkage_fold_inv wt htake hatake (by rw [List.length_take]; omega)
  obtain ⟨rest, hrest⟩ := link_fold_rows (2 * n - 1)
    ((es.take j).foldl (linkStep (2 * n - 1)) (linkInit n wt)) (es.drop j)
  rw [← List.foldl_append, List.take_append_drop, ← hrows] at hrest
  set stj := (es.take j).foldl (linkStep (2 * n - 1)) (linkInit n wt) with hstj
  have hnext : stj.next = n + j := by rw [hj.next, List.length_take]; omega
  have hxn := hx.lt_n
  -- the root of x at time j
  set r := root stj.next (optParent stj.parent) x with hrdef
  have hrlt : r < n + j := by
    rw [← hnext]; exact hj.forest.root_lt (by omega)
  have hrfix : optParent stj.parent r = r := hj.forest.root_fixed x
  have hrb : ∀ z, z < n → (Below n stj.rows r z ↔ Conn (es.take j) x z) := by
    intro z hz
    rw [hj.below r (by omega) hrfix z hz, ← hj.conn x z hxn hz]
    exact ⟨fun h => h.symm, fun h => h.symm⟩
  have hrx : Below n (mstToLinkage wt es) r x := by
    rw [hrest]; exact below_append_list ((hrb x hxn).2 (Conn.refl _ _))
  have hlift : ∀ z, Below n stj.rows r z → Below n (mstToLinkage wt es) r z := by
    intro z hz; rw [hrest]; exact below_append_list hz
  -- a is a component root too
  have hsx := ((below_iff_sub hHn).1 hx).2
  have hsr := ((below_iff_sub hHn).1 hrx).2
  have hane : ∀ w, (Hier.ofRows (mstToLinkage wt es)).Sub w a → w < n + j → w = a := by
    intro w hw hlt
    rcases hw.cases_tail with h1 | ⟨u, h1, h2⟩
    · exact h1.symm
    · have h3 := h2.unique hv hk
      have h4 := h1.le hv
      omega
  have hsub : (Hier.ofRows (mstToLinkage wt es)).Sub a r := by
    rcases hsx.comparable hv hsr with h1 | h1
    · exact h1
    · rw [hane r h1 hrlt]; exact Hier.Sub.refl _
  constructor
  · intro hc
    have h1 := hlift y ((hrb y hy).2 hc)
    rw [below_iff_sub hHn] at h1 ⊢
    exact ⟨h1.1, hsub.trans h1.2⟩
  · intro hby
    -- all samples below a are connected by the edges of the rows below a
    have hconn : ∀ {v z : ℕ}, Below n (mstToLinkage wt es) v z → v < n + j → ∀ z',
        Below n (mstToLinkage wt es) v z' → Conn (es.take j) z z' := by
      intro v z hz hvj z' hz'
      by_cases hvn : v < n
      · rw [below_leaf_iff hvn] at hz hz'
        subst hz; subst hz'; exact Conn.refl _ _
      · have hi : v - n < es.length := by omega
        have he : es[v - n]? = some es[v - n] := List.getElem?_eq_getElem hi
        have hveq : v = n + (v - n) := by omega
        rw [hveq] at hz hz'
        have h1 := (hfull.node (v - n) _ he z hz.lt_n).1 hz
        have h2 := (hfull.node (v - n) _ he z' hz'.lt_n).1 hz'
        refine (h1.trans h2.symm).mono fun e he' => ?_
        have : (es.take (v - n + 1)).Sublist (es.take j) := List.take_sublist_take_left (by omega)
        exact this.subset he'
    have hlt := hk.lt hv
    exact hconn hx (by omega) y hby

end Verif
