import Verif.Model.Heap
import Mathlib.Data.List.Perm.Basic
import Mathlib.Data.List.Nodup
import Mathlib.Logic.Equiv.Basic
import Mathlib.Data.List.Range
import Mathlib.Data.List.Perm.Lattice

namespace Verif
variable {α : Type*}

/-- The entries of an array at the positions `l ≤ x < r`. -/
def slice (h : ℕ → α) (l r : ℕ) : List α := (List.range' l (r - l)).map h

/-- `h'` is `h` with the entries at the positions `l ≤ x < r` rearranged. -/
structure PermOn (l r : ℕ) (h h' : ℕ → α) : Prop where
  perm : (slice h' l r).Perm (slice h l r)
  out : ∀ x, ¬ (l ≤ x ∧ x < r) → h' x = h x

theorem mem_slice {h : ℕ → α} {l r : ℕ} {a : α} : a ∈ slice h l r ↔ ∃ x, l ≤ x ∧ x < r ∧ h x = a := by
  unfold slice
  simp only [List.mem_map, List.mem_range'_1]
  constructor
  · rintro ⟨x, ⟨h1, h2⟩, rfl⟩; exact ⟨x, h1, by omega, rfl⟩
  · rintro ⟨x, h1, h2, rfl⟩; exact ⟨x, ⟨h1, by omega⟩, rfl⟩

theorem slice_length (h : ℕ → α) (l r : ℕ) : (slice h l r).length = r - l := by simp [slice]

theorem slice_append (h : ℕ → α) {l m r : ℕ} (h1 : l ≤ m) (h2 : m ≤ r) : slice h l r = slice h l m ++ slice h m r := by
  unfold slice
  rw [← List.map_append]
  congr 1
  have : m = l + (m - l) := by omega
  conv_rhs => arg 2; rw [this]
  rw [List.range'_append_1]
  congr 1
  omega

theorem slice_congr {h h' : ℕ → α} {l r : ℕ} (he : ∀ x, l ≤ x → x < r → h x = h' x) : slice h l r = slice h' l r := by
  unfold slice
  apply List.map_congr_left
  intro x hx
  rw [List.mem_range'_1] at hx
  exact he x hx.1 (by omega)

theorem slice_succ_right (h : ℕ → α) {l r : ℕ} (hlr : l ≤ r) : slice h l (r + 1) = slice h l r ++ [h r] := by
  rw [slice_append h hlr (Nat.le_succ r)]
  congr 1
  unfold slice
  simp

theorem slice_cons (h : ℕ → α) {l r : ℕ} (hlr : l < r) : slice h l r = h l :: slice h (l + 1) r := by
  rw [slice_append h (Nat.le_succ l) hlr]
  unfold slice
  simp

theorem slice_getElem (h : ℕ → α) (l r i : ℕ) (hi : i < (slice h l r).length) : (slice h l r)[i] = h (l + i) := by
  simp [slice]

namespace PermOn

theorem refl (l r : ℕ) (h : ℕ → α) : PermOn l r h h := ⟨List.Perm.refl _, fun _ _ => rfl⟩

theorem trans {l r : ℕ} {h h' h'' : ℕ → α} (h1 : PermOn l r h h') (h2 : PermOn l r h' h'') : PermOn l r h h'' :=
  ⟨h2.perm.trans h1.perm, fun x hx => (h2.out x hx).trans (h1.out x hx)⟩

theorem mono {l r l' r' : ℕ} {h h' : ℕ → α} (h1 : PermOn l r h h') (hl : l' ≤ l) (hr : r ≤ r') (hlr : l ≤ r) :
    PermOn l' r' h h' := by
  refine ⟨?_, fun x hx => h1.out x (by omega)⟩
  rw [slice_append h' hl (by omega : l ≤ r'), slice_append h' hlr hr, slice_append h hl (by omega : l ≤ r'),
    slice_append h hlr hr]
  rw [slice_congr (h := h') (h' := h) (l := l') (r := l) fun x _ h2 => h1.out x (by omega),
    slice_congr (h := h') (h' := h) (l := r) (r := r') fun x h2 _ => h1.out x (by omega)]
  exact (List.Perm.refl _).append (h1.perm.append (List.Perm.refl _))

/-- Every entry of the new array is an entry of the old one. -/
theorem exists_old {l r : ℕ} {h h' : ℕ → α} (h1 : PermOn l r h h') {x : ℕ} (hx : l ≤ x ∧ x < r) :
    ∃ y, l ≤ y ∧ y < r ∧ h y = h' x :=
  mem_slice.1 (h1.perm.mem_iff.1 (mem_slice.2 ⟨x, hx.1, hx.2, rfl⟩))

end PermOn

theorem swapAt_apply (h : ℕ → α) (i j x : ℕ) :
    swapAt h i j x = if x = j then h i else if x = i then h j else h x := by
  unfold swapAt
  by_cases hj : x = j
  · subst hj; simp
  · rw [Function.update_of_ne hj, if_neg hj]
    by_cases hi : x = i
    · subst hi; simp
    · rw [Function.update_of_ne hi, if_neg hi]

theorem swapAt_eq (h : ℕ → α) (i j : ℕ) : swapAt h i j = h ∘ Equiv.swap i j := by
  funext x
  rw [swapAt_apply, Function.comp, Equiv.swap_apply_def]
  split_ifs with h1 h2 h2
  · subst h1; subst h2; rfl
  · rfl
  · rfl
  · rfl

theorem PermOn.swapAt {l r i j : ℕ} (h : ℕ → α) (hi : l ≤ i ∧ i < r) (hj : l ≤ j ∧ j < r) :
    PermOn l r h (Verif.swapAt h i j) := by
  refine ⟨?_, fun x hx => ?_⟩
  · rw [swapAt_eq]
    unfold slice
    rw [← List.map_map]
    apply List.Perm.map
    have hnd : (List.range' l (r - l)).Nodup := List.nodup_range'
    rw [List.perm_ext_iff_of_nodup (hnd.map (Equiv.swap i j).injective) hnd]
    intro x
    rw [List.mem_map]
    simp only [List.mem_range'_1]
    have key : ∀ y, (l ≤ y ∧ y < l + (r - l)) → l ≤ Equiv.swap i j y ∧ Equiv.swap i j y < l + (r - l) := by
      intro y hy
      rw [Equiv.swap_apply_def]
      split_ifs <;> omega
    constructor
    · rintro ⟨y, hy, rfl⟩; exact key y hy
    · intro hx; exact ⟨Equiv.swap i j x, key x hx, Equiv.swap_apply_self i j x⟩
  · rw [swapAt_apply, if_neg (by omega), if_neg (by omega)]

end Verif
