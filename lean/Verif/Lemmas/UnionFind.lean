import Verif.Model.DisjointSet
import Verif.Lemmas.Graph
import Mathlib.Logic.Function.Iterate

/-! # Theory of parent arrays, shared by all disjoint-set variants of the code -/

namespace Verif

/-- Read-only root chase `while p[x] != x: x = p[x]` with fuel. -/
def chase (p : ℕ → ℕ) : ℕ → ℕ → ℕ
  | 0, x => x
  | f + 1, x => if p x ≠ x then chase p f (p x) else x

/-- `p` is a parent array of a forest on `0 … n-1`. -/
structure PForest (n : ℕ) (p : ℕ → ℕ) : Prop where
  lt : ∀ x, x < n → p x < n
  out : ∀ x, n ≤ x → p x = x
  wf : ∃ h : ℕ → ℕ, ∀ x, p x ≠ x → h x < h (p x)

theorem PForest.id (n : ℕ) : PForest n (fun x => x) :=
  ⟨fun _ h => h, fun _ _ => rfl, ⟨fun _ => 0, fun _ h => absurd rfl h⟩⟩

/-- The root of `x`. -/
def root (n : ℕ) (p : ℕ → ℕ) (x : ℕ) : ℕ := chase p n x

theorem chase_iterate (p : ℕ → ℕ) (f x : ℕ) : ∃ k, k ≤ f ∧ p^[k] x = chase p f x := by
  induction f generalizing x with
  | zero => exact ⟨0, le_refl _, rfl⟩
  | succ f ih =>
    unfold chase
    split
    · obtain ⟨k, hk, hk'⟩ := ih (p x)
      exact ⟨k + 1, by omega, by rw [Function.iterate_succ_apply]; exact hk'⟩
    · exact ⟨0, by omega, rfl⟩

theorem chase_fixed {p : ℕ → ℕ} {n : ℕ} (hp : PForest n p) (h : ℕ → ℕ)
    (hh : ∀ x, p x ≠ x → h x < h (p x)) (f x : ℕ)
    (hc : ((Finset.range n).filter (fun y => h x < h y)).card ≤ f) :
    p (chase p f x) = chase p f x := by
  induction f generalizing x with
  | zero =>
    simp only [chase]
    by_contra hne
    have hx : x < n := by
      by_contra hx; exact hne (hp.out x (by omega))
    have hm : p x ∈ (Finset.range n).filter (fun y => h x < h y) := by
      simp only [Finset.mem_filter, Finset.mem_range]
      exact ⟨hp.lt x hx, hh x hne⟩
    have := Finset.card_pos.2 ⟨_, hm⟩
    omega
  | succ f ih =>
    unfold chase
    split
    · rename_i hne
      apply ih
      have hx : x < n := by
        by_contra hx; exact hne (hp.out x (by omega))
      have hm : p x ∈ (Finset.range n).filter (fun y => h x < h y) := by
        simp only [Finset.mem_filter, Finset.mem_range]
        exact ⟨hp.lt x hx, hh x hne⟩
      have hlt : ((Finset.range n).filter (fun y => h (p x) < h y)).card <
          ((Finset.range n).filter (fun y => h x < h y)).card := by
        apply Finset.card_lt_card
        refine ⟨?_, fun hsub => ?_⟩
        · intro y hy
          simp only [Finset.mem_filter] at hy ⊢
          exact ⟨hy.1, (hh x hne).trans hy.2⟩
        · have := hsub hm
          simp at this
      omega
    · rename_i hne
      push Not at hne
      exact hne

theorem PForest.root_fixed {p : ℕ → ℕ} {n : ℕ} (hp : PForest n p) (x : ℕ) :
    p (root n p x) = root n p x := by
  obtain ⟨h, hh⟩ := hp.wf
  apply chase_fixed hp h hh
  exact (Finset.card_filter_le _ _).trans (by simp)

theorem iterate_fixed {p : ℕ → ℕ} {r : ℕ} (hr : p r = r) (k : ℕ) : p^[k] r = r :=
  Function.iterate_fixed hr k

theorem PForest.root_eq_iff {p : ℕ → ℕ} {n : ℕ} (hp : PForest n p) {x r : ℕ} :
    root n p x = r ↔ p r = r ∧ ∃ k, p^[k] x = r := by
  obtain ⟨k, _, hk⟩ := chase_iterate p n x
  constructor
  · rintro rfl
    exact ⟨hp.root_fixed x, k, hk⟩
  · rintro ⟨hr, m, hm⟩
    have hf := hp.root_fixed x
    rcases le_total k m with h | h
    · obtain ⟨d, rfl⟩ := Nat.exists_eq_add_of_le h
      rw [Nat.add_comm, Function.iterate_add_apply, hk] at hm
      rw [show chase p n x = root n p x from rfl, iterate_fixed hf] at hm
      exact hm
    · obtain ⟨d, rfl⟩ := Nat.exists_eq_add_of_le h
      rw [Nat.add_comm, Function.iterate_add_apply, hm, iterate_fixed hr] at hk
      exact hk.symm

theorem PForest.root_of_fixed {p : ℕ → ℕ} {n : ℕ} (hp : PForest n p) {x : ℕ} (hx : p x = x) :
    root n p x = x := hp.root_eq_iff.2 ⟨hx, 0, rfl⟩

theorem PForest.root_root {p : ℕ → ℕ} {n : ℕ} (hp : PForest n p) (x : ℕ) :
    root n p (root n p x) = root n p x := hp.root_of_fixed (hp.root_fixed x)

theorem PForest.root_parent {p : ℕ → ℕ} {n : ℕ} (hp : PForest n p) (x : ℕ) :
    root n p (p x) = root n p x := by
  by_cases hx : p x = x
  · rw [hx]
  · rw [hp.root_eq_iff]
    obtain ⟨h1, k, hk⟩ := hp.root_eq_iff.1 (rfl : root n p x = root n p x)
    refine ⟨h1, ?_⟩
    cases k with
    | zero =>
      simp only [Function.iterate_zero, id_eq] at hk
      exact absurd (hk ▸ h1) hx
    | succ k => exact ⟨k, by rw [← hk, Function.iterate_succ_apply]⟩

theorem PForest.root_iterate {p : ℕ → ℕ} {n : ℕ} (hp : PForest n p) (x k : ℕ) :
    root n p (p^[k] x) = root n p x := by
  induction k generalizing x with
  | zero => rfl
  | succ k ih => rw [Function.iterate_succ_apply, ih, hp.root_parent]

theorem PForest.root_lt {p : ℕ → ℕ} {n : ℕ} (hp : PForest n p) {x : ℕ} (hx : x < n) :
    root n p x < n := by
  obtain ⟨k, hk0, hk⟩ := chase_iterate p n x
  rw [root, ← hk]
  clear hk hk0
  induction k generalizing x with
  | zero => exact hx
  | succ k ih => rw [Function.iterate_succ_apply]; exact ih (hp.lt x hx)

theorem PForest.root_ge {p : ℕ → ℕ} {n : ℕ} (hp : PForest n p) {x : ℕ} (hx : n ≤ x) :
    root n p x = x := hp.root_of_fixed (hp.out x hx)

/-- `h` grows along parent chains. -/
theorem h_iterate {p h : ℕ → ℕ} (hh : ∀ x, p x ≠ x → h x < h (p x)) (x k : ℕ) :
    p^[k] x = x ∨ h x < h (p^[k] x) := by
  induction k generalizing x with
  | zero => exact Or.inl rfl
  | succ k ih =>
    rw [Function.iterate_succ_apply]
    by_cases hx : p x = x
    · rw [hx]; exact ih x
    · right
      rcases ih (p x) with h1 | h1
      · rw [h1]; exact hh x hx
      · exact (hh x hx).trans h1

/-- Linking root `b` below root `a`. -/
theorem PForest.link {p : ℕ → ℕ} {n a b : ℕ} (hp : PForest n p) (ha : p a = a) (hb : p b = b)
    (hab : a ≠ b) (han : a < n) (hbn : b < n) : PForest n (Function.update p b a) := by
  refine ⟨fun x hx => ?_, fun x hx => ?_, ?_⟩
  · by_cases h : x = b
    · subst h; simpa using han
    · rw [Function.update_of_ne h]; exact hp.lt x hx
  · rw [Function.update_of_ne (by omega)]; exact hp.out x hx
  · obtain ⟨h, hh⟩ := hp.wf
    refine ⟨fun y => if root n p y = a then h y + h b + 1 else h y, fun y hy => ?_⟩
    by_cases hyb : y = b
    · subst hyb
      simp only [Function.update_self]
      rw [hp.root_of_fixed hb, hp.root_of_fixed ha]
      simp only [if_true, if_neg hab.symm]
      omega
    · rw [Function.update_of_ne hyb] at hy ⊢
      simp only [hp.root_parent]
      have := hh y hy
      split <;> omega

theorem PForest.root_link {p : ℕ → ℕ} {n a b : ℕ} (hp : PForest n p) (ha : p a = a) (hb : p b = b)
    (hab : a ≠ b) (han : a < n) (hbn : b < n) (x : ℕ) :
    root n (Function.update p b a) x = if root n p x = b then a else root n p x := by
  have hp' := hp.link ha hb hab han hbn
  have ha' : Function.update p b a a = a := by rw [Function.update_of_ne hab]; exact ha
  split
  · rename_i hx
    obtain ⟨_, k, hk⟩ := hp.root_eq_iff.1 hx
    clear hx
    induction k generalizing x with
    | zero =>
      simp only [Function.iterate_zero, id_eq] at hk
      subst hk
      rw [← hp'.root_parent, Function.update_self]
      exact hp'.root_of_fixed ha'
    | succ k ih =>
      by_cases hxb : x = b
      · subst hxb
        rw [← hp'.root_parent, Function.update_self]
        exact hp'.root_of_fixed ha'
      · rw [← hp'.root_parent, Function.update_of_ne hxb]
        exact ih (p x) (by rwa [Function.iterate_succ_apply] at hk)
  · rename_i hx
    obtain ⟨hr, k, hk⟩ := hp.root_eq_iff.1 (rfl : root n p x = root n p x)
    rw [hp'.root_eq_iff]
    refine ⟨by rw [Function.update_of_ne hx]; exact hr, k, ?_⟩
    rw [← hk]
    clear hk hr
    induction k generalizing x with
    | zero => rfl
    | succ k ih =>
      have hxb : x ≠ b := fun h => hx (by rw [h]; exact hp.root_of_fixed hb)
      rw [Function.iterate_succ_apply, Function.iterate_succ_apply, Function.update_of_ne hxb]
      exact ih (p x) (by rw [hp.root_parent]; exact hx)

/-- Pointing `x` directly at its root. -/
theorem PForest.compress {p : ℕ → ℕ} {n : ℕ} (hp : PForest n p) (x : ℕ) :
    PForest n (Function.update p x (root n p x)) ∧
      ∀ y, root n (Function.update p x (root n p x)) y = root n p y := by
  by_cases hx : p x = x
  · rw [hp.root_of_fixed hx]
    have : Function.update p x x = p := by
      funext y
      by_cases hy : y = x
      · subst hy; simp [hx]
      · rw [Function.update_of_ne hy]
    rw [this]
    exact ⟨hp, fun _ => rfl⟩
  · have hxn : x < n := by
      by_contra h; exact hx (hp.out x (by omega))
    obtain ⟨hr, k, hk⟩ := hp.root_eq_iff.1 (rfl : root n p x = root n p x)
    have hxr : root n p x ≠ x := fun h => hx (by rw [h] at hr; exact hr)
    have hp' : PForest n (Function.update p x (root n p x)) := by
      refine ⟨fun y hy => ?_, fun y hy => ?_, ?_⟩
      · by_cases h : y = x
        · subst h; simpa using hp.root_lt hxn
        · rw [Function.update_of_ne h]; exact hp.lt y hy
      · rw [Function.update_of_ne (by omega)]; exact hp.out y hy
      · obtain ⟨h, hh⟩ := hp.wf
        refine ⟨h, fun y hy => ?_⟩
        by_cases hyx : y = x
        · subst hyx
          rw [Function.update_self]
          rcases h_iterate hh y k with h1 | h1
          · exact absurd (hk.symm.trans h1) hxr
          · rw [hk] at h1; exact h1
        · rw [Function.update_of_ne hyx] at hy ⊢
          exact hh y hy
    refine ⟨hp', fun y => ?_⟩
    obtain ⟨hry, m, hm⟩ := hp.root_eq_iff.1 (rfl : root n p y = root n p y)
    induction m generalizing y with
    | zero =>
      simp only [Function.iterate_zero, id_eq] at hm
      have hy : p y = y := by rw [hm]; exact hry
      have hyx : y ≠ x := fun h => hx (h ▸ hy)
      rw [hp.root_of_fixed hy]
      exact hp'.root_of_fixed (by rw [Function.update_of_ne hyx]; exact hy)
    | succ m ih =>
      by_cases hyx : y = x
      · subst hyx
        rw [← hp'.root_parent, Function.update_self]
        exact hp'.root_of_fixed (by rw [Function.update_of_ne hxr]; exact hr)
      · rw [← hp'.root_parent, Function.update_of_ne hyx]
        rw [← hp.root_parent y]
        refine ih (p y) (hp.root_fixed _) ?_
        rw [hp.root_parent]
        rwa [Function.iterate_succ_apply] at hm

/-- A parent array represents the connectivity of an edge list. -/
structure Represents {W : Type*} (n : ℕ) (p : ℕ → ℕ) (es : List (Edge W)) : Prop where
  forest : PForest n p
  inRange : InRange n es
  conn : ∀ x y, root n p x = root n p y ↔ Conn es x y

theorem Represents.id {W : Type*} (n : ℕ) : Represents n (fun x => x) ([] : List (Edge W)) where
  forest := PForest.id n
  inRange := fun e he => by simp at he
  conn := fun x y => by
    rw [(PForest.id n).root_of_fixed rfl, (PForest.id n).root_of_fixed rfl]; simp

theorem Represents.of_root_eq {W : Type*} {n : ℕ} {p p' : ℕ → ℕ} {es : List (Edge W)}
    (h : Represents n p es) (hp' : PForest n p') (hr : ∀ x, root n p' x = root n p x) :
    Represents n p' es :=
  ⟨hp', h.inRange, fun x y => by rw [hr, hr]; exact h.conn x y⟩

/-- Linking the roots of the endpoints of an edge adds that edge. -/
theorem Represents.link {W : Type*} {n : ℕ} {p : ℕ → ℕ} {es : List (Edge W)}
    (h : Represents n p es) {e : Edge W} (hu : e.u < n) (hv : e.v < n) {a b : ℕ}
    (hne : root n p e.u ≠ root n p e.v)
    (hab : (a = root n p e.u ∧ b = root n p e.v) ∨ (a = root n p e.v ∧ b = root n p e.u)) :
    Represents n (Function.update p b a) (es ++ [e]) := by
  have hp := h.forest
  have hab' : p a = a ∧ p b = b ∧ a ≠ b ∧ a < n ∧ b < n := by
    rcases hab with ⟨rfl, rfl⟩ | ⟨rfl, rfl⟩
    · exact ⟨hp.root_fixed _, hp.root_fixed _, hne, hp.root_lt hu, hp.root_lt hv⟩
    · exact ⟨hp.root_fixed _, hp.root_fixed _, hne.symm, hp.root_lt hv, hp.root_lt hu⟩
  obtain ⟨ha, hb, hanb, han, hbn⟩ := hab'
  refine ⟨hp.link ha hb hanb han hbn, ?_, fun x y => ?_⟩
  · intro x hx
    rcases List.mem_append.1 hx with hx | hx
    · exact h.inRange x hx
    · simp only [List.mem_singleton] at hx; subst hx; exact ⟨hu, hv⟩
  · rw [hp.root_link ha hb hanb han hbn, hp.root_link ha hb hanb han hbn, Conn.snoc_iff]
    rw [← h.conn, ← h.conn, ← h.conn, ← h.conn, ← h.conn]
    generalize root n p x = rx at *
    generalize root n p y = ry at *
    generalize root n p e.u = ru at *
    generalize root n p e.v = rv at *
    split_ifs <;> omega

/-! ### The `ds_find` of the code -/

theorem dsFindStep_fst (p : ℕ → ℕ) (x : ℕ) : (dsFindStep p x).1 = p := by
  simp [dsFindStep]

/-- `ds_find` never changes the parent array and returns the root. -/
theorem dsFindAux_eq (f : ℕ) (p : ℕ → ℕ) (x : ℕ) : dsFindAux f p x = (p, chase p f x) := by
  induction f generalizing x with
  | zero => rfl
  | succ f ih =>
    unfold dsFindAux chase
    split
    · rw [dsFindStep_fst, ih]; rfl
    · rfl

theorem dsFind_eq (n : ℕ) (p : ℕ → ℕ) (x : ℕ) : dsFind n p x = (p, root n p x) :=
  dsFindAux_eq n p x

end Verif
