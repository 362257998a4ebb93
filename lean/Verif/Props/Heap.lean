import Verif.Lemmas.Nearest
import Mathlib.Data.ENat.Basic

/-!
# C56: bounded candidate heaps keep the k smallest
-/

namespace Verif
variable {W J : Type*} [LinearOrder W]

/-- C56, for heaps of at most 32768 entries: pushing any sequence of candidates into a heap succeeds, leaves the heap in heap
order holding the smallest of the old entries and the candidates, and draining yields those entries in ascending order.
(`C56_push_hangs` shows that the limit is needed: the loop variables are 16 bits wide.) -/
theorem C56_heap_partial {size : ℕ} (hsz : size ≤ 32768) (h0 : 0 < size) (h : ℕ → W × J) (hh : HeapOrder size h)
    (ps : List (W × J)) :
    ∃ h', pushAll size h ps = some h' ∧ HeapOrder size h' ∧
      SmallestOf (entries size (drainHeap Prod.fst 0 size h')) (entries size h ++ ps) ∧
      (entries size (drainHeap Prod.fst 0 size h')).Pairwise (fun x y => x.1 ≤ y.1) := by
  obtain ⟨h', e, a, b⟩ := pushAll_spec hsz h0 h hh ps
  obtain ⟨hp, hs⟩ := drainHeap_entries h' a
  exact ⟨h', e, a, b.perm_left hp, hs⟩

/-- Case: a heap of three entries sees seven candidates with ties. -/
example : ∃ h', pushAll 3 (fun _ => ((⊤ : ℕ∞), none)) [(5, some 0), (1, some 1), (4, some 2), (1, some 3), (7, some 4), (2, some 5), (2, some 6)] = some h' ∧
    entries 3 (drainHeap Prod.fst 0 3 h') = [(1, some 3), (1, some 1), (2, some 5)] := ⟨_, rfl, by decide +kernel⟩

/-! ### The limit is sharp -/

/-- A heap of 32769 fives with one four. -/
def wideHeap (i : ℕ) : ℕ × ℕ := if i = 32767 then (4, i) else (5, 0)

/-- The positions visited by the loop that never ends. -/
def wideCycle : List ℕ := [1, 3, 7, 15, 31, 63, 127, 255, 511, 1023, 2047, 4095, 8191, 16383, 32768]

theorem wide_step : ∀ i ∈ wideCycle, ∃ s ∈ wideCycle, pushChild 32769 3 wideHeap i = some s := by decide +kernel

theorem wideHeap_cycle : ∀ i ∈ wideCycle, wideHeap i = (5, 0) := by decide +kernel

theorem wide_loop (g : ℕ) (i : ℕ) (hi : i ∈ wideCycle) : pushLoop 32769 3 9 g wideHeap i = none := by
  induction g generalizing i with
  | zero => rfl
  | succ g ih =>
    obtain ⟨s, hs, e⟩ := wide_step i hi
    unfold pushLoop
    rw [e]
    simp only
    have : Function.update wideHeap i (wideHeap s) = wideHeap := by
      rw [wideHeap_cycle s hs, ← wideHeap_cycle i hi, Function.update_eq_self]
    rw [this]
    exact ih s hs

/-- With 32769 entries there is a heap on which the push never returns, however many steps are allowed: the child index
`2 * 32768 + 1` wraps around to 1. -/
theorem C56_push_hangs : HeapOrder 32769 wideHeap ∧ (3 : ℕ) < (wideHeap 0).1 ∧
    ∀ steps, pushLoop 32769 3 9 steps (Function.update wideHeap 0 (3, 9)) 0 = none := by
  refine ⟨?_, by decide +kernel, ?_⟩
  · intro c h0 h1
    unfold wideHeap
    have : (c - 1) / 2 ≠ 32767 := by omega
    rw [if_neg this]
    by_cases hc : c = 32767
    · rw [if_pos hc]; exact Nat.le_succ 4
    · rw [if_neg hc]
  · intro steps
    cases steps with
    | zero => rfl
    | succ g =>
      unfold pushLoop
      have hc : pushChild 32769 3 (Function.update wideHeap 0 (3, 9)) 0 = some 1 := by decide +kernel
      rw [hc]
      simp only
      have h1 : Function.update wideHeap 0 (3, 9) 1 = (5, 0) := by decide +kernel
      have h2 : (5, 0) = wideHeap 0 := by decide +kernel
      rw [h1, Function.update_idem, h2, Function.update_eq_self]
      exact wide_loop g 1 (by decide)

end Verif
