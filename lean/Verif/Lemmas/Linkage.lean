import Verif.Model.Linkage
import Verif.Lemmas.UnionFind

namespace Verif
variable {W S : Type*}

/-- Parent array with `-1` read as "own parent". -/
def optParent (p : ℕ → Option ℕ) (x : ℕ) : ℕ := (p x).getD x

theorem optParent_update (p : ℕ → Option ℕ) (x y : ℕ) :
    optParent (Function.update p x (some y)) = Function.update (optParent p) x y := by
  funext z
  unfold optParent
  by_cases h : z = x
  · subst h; simp
  · rw [Function.update_of_ne h, Function.update_of_ne h]

theorem linkRoot_eq (f : ℕ) (p : ℕ → Option ℕ) (x : ℕ) : linkRoot f p x = chase (optParent p) f x := by
  induction f generalizing x with
  | zero => rfl
  | succ f ih =>
    unfold linkRoot chase
    cases h : p x with
    | none => simp [optParent, h]
    | some y => simp [optParent, h, ih]

theorem PForest.mono {n n' : ℕ} {p : ℕ → ℕ} (hp : PForest n p) (h : n ≤ n') : PForest n' p := by
  refine ⟨fun x hx => ?_, fun x hx => hp.out x (by omega), hp.wf⟩
  by_cases hxn : x < n
  · have := hp.lt x hxn; omega
  · rw [hp.out x (by omega)]; exact hx

theorem PForest.root_mono {n n' : ℕ} {p : ℕ → ℕ} (hp : PForest n p) (h : n ≤ n') (x : ℕ) :
    root n' p x = root n p x := by
  rw [(hp.mono h).root_eq_iff]
  exact hp.root_eq_iff.1 rfl

theorem linkRelabel_spec {m : ℕ} (f : ℕ) {p : ℕ → Option ℕ} (hp : PForest m (optParent p)) (node x : ℕ)
    (hx : root m (optParent p) x = node) :
    PForest m (optParent (linkRelabel f p node x)) ∧
      (∀ y, root m (optParent (linkRelabel f p node x)) y = root m (optParent p) y) ∧
      ∀ y, p y = none → linkRelabel f p node x y = none := by
  induction f generalizing p x with
  | zero => exact ⟨hp, fun _ => rfl, fun _ h => h⟩
  | succ f ih =>
    unfold linkRelabel
    split
    · rename_i hne
      cases hpx : p x with
      | none => exact ⟨hp, fun _ => rfl, fun _ h => h⟩
      | some y =>
        simp only
        have hc := hp.compress x
        rw [hx, ← optParent_update] at hc
        have hpy : optParent p x = y := by simp [optParent, hpx]
        obtain ⟨h1, h2, h3⟩ := ih hc.1 y (by rw [hc.2, ← hpy, hp.root_parent, hx])
        refine ⟨h1, fun z => by rw [h2, hc.2], fun z hz => h3 z ?_⟩
        have : z ≠ x := by rintro rfl; rw [hpx] at hz; cases hz
        rw [Function.update_of_ne this]; exact hz
    · exact ⟨hp, fun _ => rfl, fun _ h => h⟩

theorem linkFind_spec {m : ℕ} {p : ℕ → Option ℕ} (hp : PForest m (optParent p)) (x : ℕ) :
    (linkFind m p x).2 = root m (optParent p) x ∧ PForest m (optParent (linkFind m p x).1) ∧
      (∀ y, root m (optParent (linkFind m p x).1) y = root m (optParent p) y) ∧
      ∀ y, y ≠ root m (optParent p) x → p y = none → (linkFind m p x).1 y = none := by
  have h0 : linkRoot m p x = root m (optParent p) x := linkRoot_eq m p x
  have hfix := hp.root_fixed x
  have heq : optParent (Function.update p (root m (optParent p) x) (some (root m (optParent p) x))) =
      optParent p := by
    rw [optParent_update, Function.update_eq_self_iff]
    exact hfix.symm
  unfold linkFind
  simp only [h0]
  have := linkRelabel_spec m (p := Function.update p (root m (optParent p) x)
    (some (root m (optParent p) x))) (by rw [heq]; exact hp) (root m (optParent p) x) x (by rw [heq])
  rw [heq] at this
  refine ⟨trivial, this.1, this.2.1, fun y hy hn => this.2.2 y ?_⟩
  rw [Function.update_of_ne hy]; exact hn

/-! ### `Below` and growing row lists -/

theorem Below.lt_n {n : ℕ} {rows : List (LRow W S)} {v x : ℕ} (h : Below n rows v x) : x < n := by
  induction h with
  | leaf h => exact h
  | left _ _ ih => exact ih
  | right _ _ ih => exact ih

theorem below_leaf_iff {n : ℕ} {rows : List (LRow W S)} {v x : ℕ} (hv : v < n) :
    Below n rows v x ↔ x = v := by
  constructor
  · intro h
    cases h with
    | leaf h => rfl
    | left => omega
    | right => omega
  · rintro rfl; exact Below.leaf hv

theorem below_node_iff {n : ℕ} {rows : List (LRow W S)} {i x : ℕ} {row : LRow W S}
    (hi : rows[i]? = some row) : Below n rows (n + i) x ↔ Below n rows row.l x ∨ Below n rows row.r x := by
  constructor
  · intro h
    generalize hv : n + i = v at h
    cases h with
    | leaf h => omega
    | @left j _ row' hj h =>
      have : i = j := by omega
      subst this
      rw [hi] at hj; cases hj
      exact Or.inl h
    | @right j _ row' hj h =>
      have : i = j := by omega
      subst this
      rw [hi] at hj; cases hj
      exact Or.inr h
  · rintro (h | h)
    · exact Below.left hi h
    · exact Below.right hi h

/-- All children are older than the node itself. -/
def RowsOlder (n : ℕ) (rows : List (LRow W S)) : Prop :=
  ∀ i row, rows[i]? = some row → row.r < row.l ∧ row.l < n + i

theorem below_append {n : ℕ} {rows : List (LRow W S)} (hr : RowsOlder n rows) (row : LRow W S) {v x : ℕ}
    (hv : v < n + rows.length) : Below n (rows ++ [row]) v x ↔ Below n rows v x := by
  induction v using Nat.strong_induction_on with
  | _ v ih =>
    by_cases hvn : v < n
    · rw [below_leaf_iff hvn, below_leaf_iff hvn]
    · obtain ⟨i, rfl⟩ : ∃ i, v = n + i := ⟨v - n, by omega⟩
      have hi : i < rows.length := by omega
      have h1 : rows[i]? = some rows[i] := List.getElem?_eq_getElem hi
      have h2 : (rows ++ [row])[i]? = some rows[i] := by
        rw [List.getElem?_append_left hi]; exact h1
      rw [below_node_iff h1, below_node_iff h2]
      have h3 := hr i _ h1
      rw [ih _ h3.2 (by omega), ih _ (by omega) (by omega)]

theorem getElem?_snoc {α : Type*} {l : List α} {a b : α} {i : ℕ} (h : (l ++ [a])[i]? = some b) :
    l[i]? = some b ∨ (i = l.length ∧ b = a) := by
  rcases Nat.lt_trichotomy i l.length with hi | hi | hi
  · rw [List.getElem?_append_left hi] at h; exact Or.inl h
  · subst hi; rw [List.getElem?_concat_length] at h; cases h; exact Or.inr ⟨rfl, rfl⟩
  · rw [List.getElem?_eq_none (by simp; omega)] at h; cases h

open Classical in
/-- Invariant of the linkage loop after the edges `es`. -/
structure LinkInv [AddCommMonoid S] (n : ℕ) (wt : ℕ → S) (es : List (Edge W)) (st : LinkState W S) : Prop where
  next : st.next = n + es.length
  len : st.rows.length = es.length
  forest : PForest st.next (optParent st.parent)
  fresh : ∀ x, st.next ≤ x → st.parent x = none
  conn : ∀ x y, x < n → y < n →
    (root st.next (optParent st.parent) x = root st.next (optParent st.parent) y ↔ Conn es x y)
  older : RowsOlder n st.rows
  below : ∀ r, r < st.next → optParent st.parent r = r → ∀ x, x < n →
    (Below n st.rows r x ↔ root st.next (optParent st.parent) x = r)
  once : (st.rows.flatMap fun row => [row.l, row.r]).Nodup
  merged : ∀ c ∈ st.rows.flatMap (fun row => [row.l, row.r]), optParent st.parent c ≠ c
  size : ∀ r, r < st.next → optParent st.parent r = r →
    st.size r = ((Finset.range n).filter fun x => Below n st.rows r x).sum wt
  rowsize : ∀ i row, st.rows[i]? = some row →
    row.s = ((Finset.range n).filter fun x => Below n st.rows (n + i) x).sum wt
  dist : st.rows.map LRow.d = es.map Edge.w
  child : ∀ i row, st.rows[i]? = some row →
    root st.next (optParent st.parent) row.l = root st.next (optParent st.parent) (n + i) ∧
    root st.next (optParent st.parent) row.r = root st.next (optParent st.parent) (n + i)
  node : ∀ i e, es[i]? = some e → ∀ x, x < n → (Below n st.rows (n + i) x ↔ Conn (es.take (i + 1)) x e.u)

theorem LinkInv.init [AddCommMonoid S] (n : ℕ) (wt : ℕ → S) :
    LinkInv n wt ([] : List (Edge W)) (linkInit n wt) := by
  have hid : optParent (fun _ => none) = fun x : ℕ => x := by funext x; rfl
  constructor
  · rfl
  · rfl
  · simp only [linkInit, hid]; exact PForest.id n
  · intro x _; rfl
  · intro x y _ _
    simp only [linkInit, hid]
    rw [(PForest.id n).root_of_fixed rfl, (PForest.id n).root_of_fixed rfl]; simp
  · intro i row h; simp [linkInit] at h
  · intro r hr _ x hx
    simp only [linkInit, hid] at hr ⊢
    rw [(PForest.id n).root_of_fixed rfl, below_leaf_iff hr]
  · simp [linkInit]
  · intro c hc; simp [linkInit] at hc
  · intro r hr _
    have hr' : r < n := hr
    classical
    have : ((Finset.range n).filter fun x => Below n (linkInit n wt : LinkState W S).rows r x) = {r} := by
      ext x
      simp only [Finset.mem_filter, Finset.mem_range, Finset.mem_singleton, below_leaf_iff hr']
      constructor
      · exact fun h => h.2
      · rintro rfl; exact ⟨hr', rfl⟩
    rw [this, Finset.sum_singleton]
    simp only [linkInit]
    rw [if_pos hr']
  · intro i row h; simp [linkInit] at h
  · rfl
  · intro i row h; simp [linkInit] at h
  · intro i e h; simp at h

theorem linkStep_inv [AddCommMonoid S] {n m : ℕ} {wt : ℕ → S} {es : List (Edge W)} {st : LinkState W S}
    {e : Edge W} (h : LinkInv n wt es st) (hu : e.u < n) (hv : e.v < n) (hne : ¬ Conn es e.u e.v)
    (hm : st.next < m) : LinkInv n wt (es ++ [e]) (linkStep m st e) := by
  classical
  obtain ⟨hnext, hlen, hfor, hfresh, hconn, holder, hbelow, honce, hmerged, hsize, hrowsize, hdist, hchild, hnode⟩ := h
  have hle : st.next ≤ m := hm.le
  have hforM := hfor.mono hle
  obtain ⟨f1, f2, f3, f4⟩ := linkFind_spec hforM e.u
  obtain ⟨g1, g2, g3, g4⟩ := linkFind_spec f2 e.v
  set ra := root st.next (optParent st.parent) e.u with hra
  set rb := root st.next (optParent st.parent) e.v with hrb
  have ea : (linkFind m st.parent e.u).2 = ra := by rw [f1, hfor.root_mono hle]
  have eb : (linkFind m (linkFind m st.parent e.u).1 e.v).2 = rb := by
    rw [g1, f3, hfor.root_mono hle]
  set p2 := (linkFind m (linkFind m st.parent e.u).1 e.v).1 with hp2
  have hroot2 : ∀ y, root m (optParent p2) y = root st.next (optParent st.parent) y := by
    intro y; rw [g3, f3, hfor.root_mono hle]
  have hun : e.u < st.next := by omega
  have hvn : e.v < st.next := by omega
  have hra_lt : ra < st.next := hfor.root_lt hun
  have hrb_lt : rb < st.next := hfor.root_lt hvn
  have hab : ra ≠ rb := fun heq => hne ((hconn _ _ hu hv).1 heq)
  have hra_fix : optParent st.parent ra = ra := hfor.root_fixed _
  have hrb_fix : optParent st.parent rb = rb := hfor.root_fixed _
  have hfresh2 : ∀ x, st.next ≤ x → p2 x = none := by
    intro x hx
    apply g4
    · rw [f3, hfor.root_mono hle]; omega
    · apply f4
      · rw [hfor.root_mono hle]; omega
      · exact hfresh x hx
  -- the array before linking is a forest on `next` nodes
  have hfor2 : PForest (st.next + 1) (optParent p2) := by
    refine ⟨fun x hx => ?_, fun x hx => ?_, g2.wf⟩
    · by_contra hlt
      -- the parent would be fresh, hence its own root, contradiction with roots < next
      have h1 : optParent p2 (optParent p2 x) = optParent p2 x := by
        unfold optParent at hlt ⊢
        rw [hfresh2 ((p2 x).getD x) (by omega)]; rfl
      have h2 : root m (optParent p2) x = optParent p2 x := by
        rw [← g2.root_parent, g2.root_of_fixed h1]
      rw [hroot2] at h2
      have h3 : root st.next (optParent st.parent) x < st.next + 1 := by
        by_cases hx' : x < st.next
        · have := hfor.root_lt hx'; omega
        · rw [hfor.root_ge (by omega)]; exact hx
      omega
    · unfold optParent; rw [hfresh2 x (by omega)]; rfl
  have hle2 : st.next + 1 ≤ m := hm
  have hroot3 : ∀ y, root (st.next + 1) (optParent p2) y = root st.next (optParent st.parent) y := by
    intro y; rw [← hfor2.root_mono hle2, hroot2]
  have hfix2 : ∀ r, optParent p2 r = r ↔ optParent st.parent r = r := by
    intro r
    constructor
    · intro h
      have := hfor2.root_of_fixed h
      rw [hroot3] at this
      rw [← this]; exact hfor.root_fixed _
    · intro h
      have := hfor.root_of_fixed h
      rw [← hroot3] at this
      rw [← this]; exact hfor2.root_fixed _
  have hN_fix : optParent p2 st.next = st.next := by
    unfold optParent; rw [hfresh2 _ le_rfl]; rfl
  have hra2 := (hfix2 ra).2 hra_fix
  have hrb2 := (hfix2 rb).2 hrb_fix
  have hNa : st.next ≠ ra := by omega
  have hNb : st.next ≠ rb := by omega
  -- first link
  have l1 := hfor2.link hN_fix hra2 hNa (by omega) (by omega)
  have r1 := hfor2.root_link hN_fix hra2 hNa (by omega) (by omega)
  have hN1 : Function.update (optParent p2) ra st.next st.next = st.next := by
    rw [Function.update_of_ne hNa]; exact hN_fix
  have hb1 : Function.update (optParent p2) ra st.next rb = rb := by
    rw [Function.update_of_ne (Ne.symm hab)]; exact hrb2
  have l2 := l1.link hN1 hb1 hNb (by omega) (by omega)
  have r2 := l1.root_link hN1 hb1 hNb (by omega) (by omega)
  set q := Function.update (Function.update (optParent p2) ra st.next) rb st.next with hq
  have hqroot : ∀ x, root (st.next + 1) q x =
      if root st.next (optParent st.parent) x = ra ∨ root st.next (optParent st.parent) x = rb
      then st.next else root st.next (optParent st.parent) x := by
    intro x
    rw [r2, r1, hroot3]
    generalize root st.next (optParent st.parent) x = z
    by_cases h1 : z = ra
    · simp [h1, hNb]
    · by_cases h2 : z = rb
      · subst h2; simp [Ne.symm hab]
      · simp [h1, h2]
  set row : LRow W S := if ra > rb then ⟨ra, rb, e.w, st.size ra + st.size rb⟩
    else ⟨rb, ra, e.w, st.size ra + st.size rb⟩ with hrow
  have hstep : linkStep m st e =
      { parent := Function.update (Function.update p2 ra (some st.next)) rb (some st.next)
        size := Function.update st.size st.next (st.size ra + st.size rb)
        next := st.next + 1
        rows := st.rows ++ [row] } := by
    unfold linkStep
    simp only [ea, eb, ← hp2, hrow]
  have hpar : optParent (Function.update (Function.update p2 ra (some st.next)) rb (some st.next)) = q := by
    rw [optParent_update, optParent_update]
  have hrowlr : (row.l = ra ∧ row.r = rb ∧ rb < ra) ∨ (row.l = rb ∧ row.r = ra ∧ ra < rb) := by
    rw [hrow]
    split
    · left; exact ⟨rfl, rfl, by omega⟩
    · right; exact ⟨rfl, rfl, by omega⟩
  have hrows_s : row.s = st.size ra + st.size rb := by rw [hrow]; split <;> rfl
  have hrows_d : row.d = e.w := by rw [hrow]; split <;> rfl
  have holder' : RowsOlder n (st.rows ++ [row]) := by
    intro i r hi
    rcases getElem?_snoc hi with h | ⟨rfl, rfl⟩
    · exact holder i r h
    · rcases hrowlr with ⟨h1, h2, h3⟩ | ⟨h1, h2, h3⟩ <;> rw [h1, h2] <;> omega
  have hlast : (st.rows ++ [row])[st.rows.length]? = some row := List.getElem?_concat_length
  have hbelowN : ∀ x, x < n → (Below n (st.rows ++ [row]) st.next x ↔
      root st.next (optParent st.parent) x = ra ∨ root st.next (optParent st.parent) x = rb) := by
    intro x hx
    have : st.next = n + st.rows.length := by omega
    rw [this, below_node_iff hlast, ← this]
    have e1 : Below n (st.rows ++ [row]) ra x ↔ root st.next (optParent st.parent) x = ra := by
      rw [below_append holder row (by omega)]; exact hbelow ra hra_lt hra_fix x hx
    have e2 : Below n (st.rows ++ [row]) rb x ↔ root st.next (optParent st.parent) x = rb := by
      rw [below_append holder row (by omega)]; exact hbelow rb hrb_lt hrb_fix x hx
    rcases hrowlr with ⟨h1, h2, _⟩ | ⟨h1, h2, _⟩
    · rw [h1, h2, e1, e2]
    · rw [h1, h2, e1, e2, or_comm]
  have hsumN : ((Finset.range n).filter fun x => Below n (st.rows ++ [row]) st.next x).sum wt =
      st.size ra + st.size rb := by
    rw [hsize ra hra_lt hra_fix, hsize rb hrb_lt hrb_fix, ← Finset.sum_union]
    · congr 1
      ext x
      simp only [Finset.mem_filter, Finset.mem_union, Finset.mem_range]
      constructor
      · rintro ⟨hx, hb⟩
        rw [hbelowN x hx] at hb
        rw [hbelow ra hra_lt hra_fix x hx, hbelow rb hrb_lt hrb_fix x hx]
        tauto
      · rintro (⟨hx, hb⟩ | ⟨hx, hb⟩)
        · rw [hbelow ra hra_lt hra_fix x hx] at hb
          exact ⟨hx, (hbelowN x hx).2 (Or.inl hb)⟩
        · rw [hbelow rb hrb_lt hrb_fix x hx] at hb
          exact ⟨hx, (hbelowN x hx).2 (Or.inr hb)⟩
    · rw [Finset.disjoint_left]
      intro x hx hx'
      simp only [Finset.mem_filter, Finset.mem_range] at hx hx'
      have h1 := (hbelow ra hra_lt hra_fix x hx.1).1 hx.2
      have h2 := (hbelow rb hrb_lt hrb_fix x hx.1).1 hx'.2
      exact hab (h1.symm.trans h2)
  have hqfix : ∀ r, r < st.next + 1 → q r = r →
      r = st.next ∨ (r < st.next ∧ optParent st.parent r = r ∧ r ≠ ra ∧ r ≠ rb) := by
    intro r hr hfx
    by_cases h1 : r = st.next
    · exact Or.inl h1
    · right
      have hrb' : r ≠ rb := by
        rintro rfl
        rw [hq, Function.update_self] at hfx; omega
      have hra' : r ≠ ra := by
        rintro rfl
        rw [hq, Function.update_of_ne hrb', Function.update_self] at hfx; omega
      rw [hq, Function.update_of_ne hrb', Function.update_of_ne hra'] at hfx
      exact ⟨by omega, (hfix2 r).1 hfx, hra', hrb'⟩
  have hbelow' : ∀ r, r < st.next + 1 → q r = r → ∀ x, x < n →
      (Below n (st.rows ++ [row]) r x ↔ root (st.next + 1) q x = r) := by
    intro r hr hfx x hx
    rw [hqroot]
    rcases hqfix r hr hfx with rfl | ⟨h1, h2, h3, h4⟩
    · rw [hbelowN x hx]
      constructor
      · intro h; rw [if_pos h]
      · intro h
        by_contra hc
        rw [if_neg hc] at h
        have := hfor.root_lt (show x < st.next by omega)
        omega
    · rw [below_append holder row (by omega), hbelow r h1 h2 x hx]
      constructor
      · intro h
        rw [if_neg (by rw [h]; tauto)]; exact h
      · intro h
        split at h
        · omega
        · exact h
  have hconn' : ∀ x y, x < n → y < n →
      (root (st.next + 1) q x = root (st.next + 1) q y ↔ Conn (es ++ [e]) x y) := by
    intro x y hx hy
    rw [hqroot, hqroot, Conn.snoc_iff, ← hconn x y hx hy, ← hconn x e.u hx hu, ← hconn e.v y hv hy,
      ← hconn x e.v hx hv, ← hconn e.u y hu hy, ← hra, ← hrb]
    have bx := hfor.root_lt (show x < st.next by omega)
    have by' := hfor.root_lt (show y < st.next by omega)
    generalize root st.next (optParent st.parent) x = zx at *
    generalize root st.next (optParent st.parent) y = zy at *
    split_ifs <;> omega
  rw [hstep]
  constructor
  · simp only [List.length_append, List.length_cons, List.length_nil]; omega
  · simp only [List.length_append, List.length_cons, List.length_nil]; omega
  · simp only [hpar]; exact l2
  · intro x hx
    simp only at hx ⊢
    rw [Function.update_of_ne (by omega), Function.update_of_ne (by omega)]
    exact hfresh2 x (by omega)
  · simp only [hpar]; exact hconn'
  · exact holder'
  · simp only [hpar]; exact hbelow'
  · simp only
    rw [List.flatMap_append, List.nodup_append]
    refine ⟨honce, ?_, ?_⟩
    · simp only [List.flatMap_cons, List.flatMap_nil, List.append_nil]
      rcases hrowlr with ⟨h1, h2, h3⟩ | ⟨h1, h2, h3⟩ <;> rw [h1, h2] <;> simp <;> omega
    · intro c hc d hd
      simp only [List.flatMap_cons, List.flatMap_nil, List.append_nil, List.mem_cons,
        List.not_mem_nil, or_false] at hd
      have := hmerged c hc
      rintro rfl
      rcases hrowlr with ⟨h1, h2, h3⟩ | ⟨h1, h2, h3⟩ <;> rw [h1, h2] at hd <;>
        rcases hd with rfl | rfl
      · exact this hra_fix
      · exact this hrb_fix
      · exact this hrb_fix
      · exact this hra_fix
  · intro c hc
    simp only at hc ⊢
    rw [hpar]
    rw [List.flatMap_append, List.mem_append] at hc
    rcases hc with hc | hc
    · intro hfx
      have h1 := hmerged c hc
      by_cases hcb : c = rb
      · exact h1 (hcb ▸ hrb_fix)
      · by_cases hca : c = ra
        · exact h1 (hca ▸ hra_fix)
        · rw [hq, Function.update_of_ne hcb, Function.update_of_ne hca] at hfx
          exact h1 ((hfix2 c).1 hfx)
    · simp only [List.flatMap_cons, List.flatMap_nil, List.append_nil, List.mem_cons,
        List.not_mem_nil, or_false] at hc
      have hqa : q ra ≠ ra := by
        rw [hq, Function.update_of_ne hab, Function.update_self]; omega
      have hqb : q rb ≠ rb := by
        rw [hq, Function.update_self]; omega
      rcases hrowlr with ⟨h1, h2, h3⟩ | ⟨h1, h2, h3⟩ <;> rw [h1, h2] at hc <;>
        rcases hc with rfl | rfl <;> assumption
  · intro r hr hfx
    simp only at hr hfx ⊢
    rw [hpar] at hfx
    rcases hqfix r hr hfx with rfl | ⟨h1, h2, h3, h4⟩
    · rw [Function.update_self, hsumN]
    · rw [Function.update_of_ne (by omega), hsize r h1 h2]
      congr 1
      ext x
      simp only [Finset.mem_filter, below_append holder row (show r < n + st.rows.length by omega)]
  · intro i r hi
    rcases getElem?_snoc hi with h | ⟨rfl, rfl⟩
    · rw [hrowsize i r h]
      congr 1
      ext x
      have hil : i < st.rows.length := by
        by_contra hc
        rw [List.getElem?_eq_none (by omega)] at h; cases h
      simp only [Finset.mem_filter, below_append holder row (show n + i < n + st.rows.length by omega)]
    · rw [hrows_s, ← hsumN]
      congr 1
      ext x
      rw [show st.next = n + st.rows.length by omega]
  · simp only [List.map_append, List.map_cons, List.map_nil, hdist, hrows_d]
  · intro i r hi
    simp only [hpar]
    rcases getElem?_snoc hi with h | ⟨rfl, rfl⟩
    · obtain ⟨h1, h2⟩ := hchild i r h
      rw [hqroot, hqroot, hqroot, h1, h2]
      exact ⟨rfl, rfl⟩
    · have e1 : root (st.next + 1) q ra = st.next := by
        rw [hqroot, hfor.root_of_fixed hra_fix, if_pos (Or.inl rfl)]
      have e2 : root (st.next + 1) q rb = st.next := by
        rw [hqroot, hfor.root_of_fixed hrb_fix, if_pos (Or.inr rfl)]
      have e3 : root (st.next + 1) q (n + st.rows.length) = st.next := by
        rw [hlen, ← hnext, hqroot, hfor.root_ge le_rfl, if_neg (by omega)]
      rw [e3]
      rcases hrowlr with ⟨h1, h2, h3⟩ | ⟨h1, h2, h3⟩ <;> rw [h1, h2, e1, e2] <;> exact ⟨rfl, rfl⟩
  · intro i e' hi x hx
    simp only
    rcases getElem?_snoc hi with h | ⟨rfl, rfl⟩
    · have hil : i < es.length := by
        by_contra hc
        rw [List.getElem?_eq_none (by omega)] at h; cases h
      rw [below_append holder row (by omega), hnode i e' h x hx,
        List.take_append_of_le_length (by omega)]
    · rw [List.take_of_length_le (by simp), ← hconn' x e'.u hx hu, ← hnext, hbelowN x hx, hqroot, hqroot,
        ← hra]
      have bx := hfor.root_lt (show x < st.next by omega)
      generalize root st.next (optParent st.parent) x = zx at *
      simp only [true_or, if_true]
      split_ifs with hc
      · simp [hc]
      · simp only [hc, false_iff]; omega

theorem linkage_fold_inv [AddCommMonoid S] {n : ℕ} (wt : ℕ → S) {es : List (Edge W)} (hr : InRange n es)
    (ha : Acyclic es) (hl : es.length + 1 ≤ n) :
    LinkInv n wt es (es.foldl (linkStep (2 * n - 1)) (linkInit n wt)) := by
  induction es using List.reverseRecOn with
  | nil => exact LinkInv.init n wt
  | append_singleton es e ih =>
    have hr' : InRange n es := fun x hx => hr x (by simp [hx])
    have he := hr e (by simp)
    rw [Acyclic.snoc_iff] at ha
    simp only [List.length_append, List.length_cons, List.length_nil] at hl
    have h := ih hr' ha.1 (by omega)
    rw [List.foldl_append]
    exact linkStep_inv h he.1 he.2 ha.2 (by rw [h.next]; omega)

end Verif
