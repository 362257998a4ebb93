import Verif.Lemmas.Linkage
import Verif.Spec.Same
import Mathlib.Logic.Equiv.Basic

/-!
# Two spanning trees with the same components at every length have the same linkage tree, up to the names of the samples
-/

namespace Verif
variable {W S : Type*}

/-- What one step of the linkage loop does, in terms of representatives. -/
theorem linkStep_root [AddCommMonoid S] {n m : ℕ} {wt : ℕ → S} {es : List (Edge W)} {st : LinkState W S}
    {e : Edge W} (h : LinkInv n wt es st) (hu : e.u < n) (hv : e.v < n) (hne : ¬ Conn es e.u e.v) (hm : st.next < m) :
    let a := root st.next (optParent st.parent) e.u
    let b := root st.next (optParent st.parent) e.v
    (linkStep m st e).rows = st.rows ++ [⟨max a b, min a b, e.w, st.size a + st.size b⟩] ∧
    (linkStep m st e).size = Function.update st.size st.next (st.size a + st.size b) ∧ (linkStep m st e).next = st.next + 1 ∧
    a < st.next ∧ b < st.next ∧ a ≠ b ∧
    ∀ x, root (st.next + 1) (optParent (linkStep m st e).parent) x =
      if root st.next (optParent st.parent) x = a ∨ root st.next (optParent st.parent) x = b then st.next else root st.next (optParent st.parent) x := by
  obtain ⟨hnext, hlen, hfor, hfresh, hconn, holder, hbelow, honce, hmerged, hsize, hrowsize, hdist, hchild, hnode⟩ := h
  have hle : st.next ≤ m := hm.le
  have hforM := hfor.mono hle
  obtain ⟨f1, f2, f3, f4⟩ := linkFind_spec hforM e.u
  obtain ⟨g1, g2, g3, g4⟩ := linkFind_spec f2 e.v
  intro ra rb
  have hra : ra = root st.next (optParent st.parent) e.u := rfl
  have hrb : rb = root st.next (optParent st.parent) e.v := rfl
  have ea : (linkFind m st.parent e.u).2 = ra := by rw [f1, hfor.root_mono hle]
  have eb : (linkFind m (linkFind m st.parent e.u).1 e.v).2 = rb := by
    rw [g1, f3, hfor.root_mono hle]
  set p2 := (linkFind m (linkFind m st.parent e.u).1 e.v).1 with hp2
  have hroot2 : ∀ y, root m (optParent p2) y = root st.next (optParent st.parent) y := by
    intro y; rw [g3, f3, hfor.root_mono hle]
  have hun : e.u < st.next := by omega
  have hvn : e.v < st.next := by omega
  have hra_lt : ra < st.next := hfor.root_lt hun
  have hrb_lt : rb < st.next := hfor.root_lt hvn
  have hab : ra ≠ rb := fun heq => hne ((hconn _ _ hu hv).1 heq)
  have hra_fix : optParent st.parent ra = ra := hfor.root_fixed _
  have hrb_fix : optParent st.parent rb = rb := hfor.root_fixed _
  have hfresh2 : ∀ x, st.next ≤ x → p2 x = none := by
    intro x hx
    apply g4
    · rw [f3, hfor.root_mono hle]; omega
    · apply f4
      · rw [hfor.root_mono hle]; omega
      · exact hfresh x hx
  have hfor2 : PForest (st.next + 1) (optParent p2) := by
    refine ⟨fun x hx => ?_, fun x hx => ?_, g2.wf⟩
    · by_contra hlt
      have h1 : optParent p2 (optParent p2 x) = optParent p2 x := by
        unfold optParent at hlt ⊢
        rw [hfresh2 ((p2 x).getD x) (by omega)]; rfl
      have h2 : root m (optParent p2) x = optParent p2 x := by
        rw [← g2.root_parent, g2.root_of_fixed h1]
      rw [hroot2] at h2
      have h3 : root st.next (optParent st.parent) x < st.next + 1 := by
        by_cases hx' : x < st.next
        · have := hfor.root_lt hx'; omega
        · rw [hfor.root_ge (by omega)]; exact hx
      omega
    · unfold optParent; rw [hfresh2 x (by omega)]; rfl
  have hle2 : st.next + 1 ≤ m := hm
  have hroot3 : ∀ y, root (st.next + 1) (optParent p2) y = root st.next (optParent st.parent) y := by
    intro y; rw [← hfor2.root_mono hle2, hroot2]
  have hfix2 : ∀ r, optParent p2 r = r ↔ optParent st.parent r = r := by
    intro r
    constructor
    · intro h
      have := hfor2.root_of_fixed h
      rw [hroot3] at this
      rw [← this]; exact hfor.root_fixed _
    · intro h
      have := hfor.root_of_fixed h
      rw [← hroot3] at this
      rw [← this]; exact hfor2.root_fixed _
  have hN_fix : optParent p2 st.next = st.next := by
    unfold optParent; rw [hfresh2 _ le_rfl]; rfl
  have hra2 := (hfix2 ra).2 hra_fix
  have hrb2 := (hfix2 rb).2 hrb_fix
  have hNa : st.next ≠ ra := by omega
  have hNb : st.next ≠ rb := by omega
  have l1 := hfor2.link hN_fix hra2 hNa (by omega) (by omega)
  have r1 := hfor2.root_link hN_fix hra2 hNa (by omega) (by omega)
  have hN1 : Function.update (optParent p2) ra st.next st.next = st.next := by
    rw [Function.update_of_ne hNa]; exact hN_fix
  have hb1 : Function.update (optParent p2) ra st.next rb = rb := by
    rw [Function.update_of_ne (Ne.symm hab)]; exact hrb2
  have l2 := l1.link hN1 hb1 hNb (by omega) (by omega)
  have r2 := l1.root_link hN1 hb1 hNb (by omega) (by omega)
  have hrow : (if ra > rb then (⟨ra, rb, e.w, st.size ra + st.size rb⟩ : LRow W S) else ⟨rb, ra, e.w, st.size ra + st.size rb⟩) =
      ⟨max ra rb, min ra rb, e.w, st.size ra + st.size rb⟩ := by
    split_ifs with hc
    · rw [max_eq_left (le_of_lt hc), min_eq_right (le_of_lt hc)]
    · rw [max_eq_right (not_lt.1 hc), min_eq_left (not_lt.1 hc)]
  have hstep : linkStep m st e =
      { parent := Function.update (Function.update p2 ra (some st.next)) rb (some st.next)
        size := Function.update st.size st.next (st.size ra + st.size rb)
        next := st.next + 1
        rows := st.rows ++ [⟨max ra rb, min ra rb, e.w, st.size ra + st.size rb⟩] } := by
    unfold linkStep
    simp only [ea, eb, ← hp2, ← hrow]
  rw [hstep]
  refine ⟨rfl, rfl, rfl, hra_lt, hrb_lt, hab, fun x => ?_⟩
  simp only [optParent_update]
  rw [r2, r1, hroot3]
  generalize root st.next (optParent st.parent) x = z
  by_cases h1 : z = ra
  · simp [h1, hNb]
  · by_cases h2 : z = rb
    · subst h2; simp [Ne.symm hab]
    · simp [h1, h2]

/-- Two linkage loops that agree up to the names of the samples. -/
structure LinkSim (n : ℕ) (f : ℕ → ℕ) (st st' : LinkState W S) : Prop where
  next : st'.next = st.next
  rows : st'.rows = st.rows.map (renRow n f)
  top : ∀ x, x < n → root st'.next (optParent st'.parent) (f x) = onNodes n f (root st.next (optParent st.parent) x)
  size : ∀ v, v < st.next → st'.size (onNodes n f v) = st.size v

theorem LinkSim.step [AddCommMonoid S] {n m : ℕ} {f : Equiv.Perm ℕ} (hf : ∀ x, f x < n ↔ x < n) {wt wt' : ℕ → S} {es es' : List (Edge W)}
    {st st' : LinkState W S} {e e' : Edge W} (sim : LinkSim n f st st') (h : LinkInv n wt es st) (h' : LinkInv n wt' es' st') (hw : e'.w = e.w)
    (hu : e.u < n) (hv : e.v < n) (hu' : e'.u < n) (hv' : e'.v < n) (hne : ¬ Conn es e.u e.v) (hne' : ¬ Conn es' e'.u e'.v) (hm : st.next < m)
    (hc : ∀ x y, x < n → y < n → (Conn es x y ↔ Conn es' (f x) (f y)))
    (hc1 : ∀ x y, x < n → y < n → (Conn (es ++ [e]) x y ↔ Conn (es' ++ [e']) (f x) (f y))) : LinkSim n f (linkStep m st e) (linkStep m st' e') := by
  have hn : n ≤ st.next := by rw [h.next]; omega
  obtain ⟨x0, hx0⟩ := f.surjective e'.u
  obtain ⟨y0, hy0⟩ := f.surjective e'.v
  have x0n : x0 < n := by rw [← hf, hx0]; exact hu'
  have y0n : y0 < n := by rw [← hf, hy0]; exact hv'
  have c0 : ¬ Conn es x0 y0 := by rw [hc x0 y0 x0n y0n, hx0, hy0]; exact hne'
  have c1 : Conn (es ++ [e]) x0 y0 := by
    rw [hc1 x0 y0 x0n y0n, hx0, hy0]
    exact Conn.edge (List.mem_append_right _ (List.mem_singleton_self _))
  obtain ⟨a1, a2, a3, a4, a5, a6, a7⟩ := linkStep_root h hu hv hne hm
  obtain ⟨b1, b2, b3, b4, b5, b6, b7⟩ := linkStep_root h' hu' hv' hne' (m := m) (by rw [sim.next]; exact hm)
  have ru : root st'.next (optParent st'.parent) e'.u = onNodes n f (root st.next (optParent st.parent) x0) := by rw [← hx0]; exact sim.top x0 x0n
  have rv : root st'.next (optParent st'.parent) e'.v = onNodes n f (root st.next (optParent st.parent) y0) := by rw [← hy0]; exact sim.top y0 y0n
  have inj : ∀ v w, onNodes n f v = onNodes n f w → v = w := by
    intro v w hvw
    unfold onNodes at hvw
    split_ifs at hvw with p q q
    · exact f.injective hvw
    · have := (hf v).2 p; omega
    · have := (hf w).2 q; omega
    · exact hvw
  have hnx : ∀ v, n ≤ v → onNodes n f v = v := fun v hv => if_neg (by omega)
  set a := root st.next (optParent st.parent) e.u
  set b := root st.next (optParent st.parent) e.v
  set a' := root st'.next (optParent st'.parent) e'.u
  set b' := root st'.next (optParent st'.parent) e'.v
  have hab : (a' = onNodes n f a ∧ b' = onNodes n f b) ∨ (a' = onNodes n f b ∧ b' = onNodes n f a) := by
    rcases Conn.snoc_iff.1 c1 with c | ⟨c, d⟩ | ⟨c, d⟩
    · exact absurd c c0
    · left
      rw [ru, rv]
      exact ⟨by rw [(h.conn x0 e.u x0n hu).2 c], by rw [(h.conn y0 e.v y0n hv).2 d.symm]⟩
    · right
      rw [ru, rv]
      exact ⟨by rw [(h.conn x0 e.v x0n hv).2 c], by rw [(h.conn y0 e.u y0n hu).2 d.symm]⟩
  have hsz : st'.size a' + st'.size b' = st.size a + st.size b := by
    rcases hab with ⟨p, q⟩ | ⟨p, q⟩
    · rw [p, q, sim.size a a4, sim.size b a5]
    · rw [p, q, sim.size a a4, sim.size b a5, add_comm]
  refine ⟨by rw [a3, b3, sim.next], ?_, fun x hx => ?_, fun v hv => ?_⟩
  · rw [a1, b1, sim.rows, List.map_append, hsz, hw]
    congr 1
    simp only [List.map_cons, List.map_nil, renRow]
    rcases hab with ⟨p, q⟩ | ⟨p, q⟩ <;> rw [p, q] <;> rcases le_total a b with k | k <;> simp [k, max_comm, min_comm]
  · rw [a3, b3, a7, b7, sim.top x hx, sim.next]
    have hN : onNodes n f st.next = st.next := hnx _ hn
    have : (onNodes n f (root st.next (optParent st.parent) x) = a' ∨ onNodes n f (root st.next (optParent st.parent) x) = b') ↔
        (root st.next (optParent st.parent) x = a ∨ root st.next (optParent st.parent) x = b) := by
      rcases hab with ⟨p, q⟩ | ⟨p, q⟩
      · rw [p, q]
        exact or_congr ⟨inj _ _, fun h => by rw [h]⟩ ⟨inj _ _, fun h => by rw [h]⟩
      · rw [p, q, or_comm]
        exact or_congr ⟨inj _ _, fun h => by rw [h]⟩ ⟨inj _ _, fun h => by rw [h]⟩
    by_cases hq : root st.next (optParent st.parent) x = a ∨ root st.next (optParent st.parent) x = b
    · rw [if_pos hq, if_pos (this.2 hq), hN]
    · rw [if_neg hq, if_neg fun h => hq (this.1 h)]
  · rw [a3] at hv
    rw [a2, b2, hsz, sim.next]
    by_cases hvn : v = st.next
    · subst hvn
      rw [hnx _ hn, Function.update_self, Function.update_self]
    · have : onNodes n f v ≠ st.next := fun h => hvn (inj _ _ (h.trans (hnx _ hn).symm))
      rw [Function.update_of_ne this, Function.update_of_ne hvn]
      exact sim.size v (by omega)

theorem linkage_sim [AddCommMonoid S] {n : ℕ} {f : Equiv.Perm ℕ} (hf : ∀ x, f x < n ↔ x < n) {wt wt' : ℕ → S} (hwt : ∀ x, x < n → wt' (f x) = wt x)
    {es es' : List (Edge W)} (hr : InRange n es) (hr' : InRange n es') (ha : Acyclic es) (ha' : Acyclic es') (hl : es.length + 1 ≤ n)
    (hw : es'.map Edge.w = es.map Edge.w)
    (hc : ∀ i, ∀ x y, x < n → y < n → (Conn (es.take i) x y ↔ Conn (es'.take i) (f x) (f y))) :
    LinkSim n f (es.foldl (linkStep (2 * n - 1)) (linkInit n wt)) (es'.foldl (linkStep (2 * n - 1)) (linkInit n wt')) := by
  induction es using List.reverseRecOn generalizing es' with
  | nil =>
    obtain rfl : es' = [] := by simpa using hw
    refine ⟨rfl, rfl, fun x hx => ?_, fun v hv => ?_⟩
    · have hid : optParent (fun _ => none) = fun x : ℕ => x := by funext x; rfl
      simp only [List.foldl_nil, linkInit, hid]
      rw [(PForest.id n).root_of_fixed rfl, (PForest.id n).root_of_fixed rfl, onNodes, if_pos hx]
    · have hv : v < n := hv
      simp only [List.foldl_nil, linkInit]
      rw [onNodes, if_pos hv, if_pos hv, if_pos ((hf v).2 hv), hwt v hv]
  | append_singleton es e ih =>
    obtain ⟨es', e', rfl⟩ : ∃ as a, es' = as ++ [a] := by
      rcases List.eq_nil_or_concat es' with rfl | ⟨as, a, rfl⟩
      · simp at hw
      · exact ⟨as, a, by simp⟩
    simp only [List.map_append, List.map_cons, List.map_nil] at hw
    obtain ⟨hw1, hw2⟩ := List.append_inj' hw rfl
    have hlen : es'.length = es.length := by simpa using congrArg List.length hw1
    rw [Acyclic.snoc_iff] at ha ha'
    simp only [List.length_append, List.length_cons, List.length_nil] at hl
    have r1 : InRange n es := fun x hx => hr x (by simp [hx])
    have r2 : InRange n es' := fun x hx => hr' x (by simp [hx])
    have s := ih r1 r2 ha.1 ha'.1 (by omega) hw1 fun i x y hx hy => by
      by_cases hi : i ≤ es.length
      · have := hc i x y hx hy
        rwa [List.take_append_of_le_length hi, List.take_append_of_le_length (by omega)] at this
      · have := hc es.length x y hx hy
        rw [List.take_append_of_le_length le_rfl, List.take_append_of_le_length (by omega)] at this
        rw [List.take_of_length_le (by omega), List.take_of_length_le (by omega)]
        rwa [List.take_length, ← hlen, List.take_length] at this
    have i1 := linkage_fold_inv wt r1 ha.1 (n := n) (by omega)
    have i2 := linkage_fold_inv wt' r2 ha'.1 (n := n) (by omega)
    rw [List.foldl_append, List.foldl_append]
    refine s.step hf i1 i2 (by simpa using hw2) (hr e (by simp)).1 (hr e (by simp)).2 (hr' e' (by simp)).1 (hr' e' (by simp)).2 ha.2 ha'.2
      (by rw [i1.next]; omega) (fun x y hx hy => ?_) fun x y hx hy => ?_
    · have := hc es.length x y hx hy
      rw [List.take_append_of_le_length le_rfl, List.take_append_of_le_length (by omega), List.take_length, ← hlen, List.take_length] at this
      exact this
    · have := hc (es.length + 1) x y hx hy
      rwa [List.take_of_length_le (by simp), List.take_of_length_le (by simp; omega)] at this

end Verif
