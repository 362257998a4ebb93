import Verif.Lemmas.Heap
import Verif.Spec.Nearest
import Mathlib.Order.Monotone.Basic

/-! # Keeping the smallest entries: lemmas -/

namespace Verif
variable {W J : Type*} [LinearOrder W]

theorem slice_eq_entries {α : Type*} (h : ℕ → α) (size : ℕ) : slice h 0 size = entries size h := by
  unfold slice entries
  rw [Nat.sub_zero, List.range_eq_range']

theorem entries_length {α : Type*} (h : ℕ → α) (size : ℕ) : (entries size h).length = size := by simp [entries]

theorem heapOrder_iff (size : ℕ) (h : ℕ → W × J) : HeapFrom Prod.fst 0 0 size h ↔ HeapOrder size h := by
  unfold HeapFrom HeapOrder
  simp

theorem SmallestOf.refl (k : List (W × J)) : SmallestOf k (k ++ []) := ⟨[], List.Perm.refl _, by simp⟩

/-- Keeping the smallest in two stages. -/
theorem SmallestOf.trans {k0 k1 k2 a b : List (W × J)} (h1 : SmallestOf k1 (k0 ++ a)) (h2 : SmallestOf k2 (k1 ++ b))
    (hl : k2.length = k1.length) : SmallestOf k2 (k0 ++ (a ++ b)) := by
  obtain ⟨r1, p1, c1⟩ := h1
  obtain ⟨r2, p2, c2⟩ := h2
  refine ⟨r2 ++ r1, ?_, fun x hx y hy => ?_⟩
  · have e1 : (k2 ++ (r2 ++ r1)).Perm (k1 ++ b ++ r1) := by
      rw [← List.append_assoc]; exact p2.append_right _
    refine e1.trans ?_
    have e2 : (k1 ++ b ++ r1).Perm (k1 ++ r1 ++ b) := by
      rw [List.append_assoc, List.append_assoc]
      exact List.Perm.append_left _ List.perm_append_comm
    refine e2.trans ?_
    rw [← List.append_assoc]
    exact p1.append_right _
  · rcases List.mem_append.1 hy with hy | hy
    · exact c2 x hx y hy
    · by_contra hlt
      have hlt := not_le.1 hlt
      have hc := p2.countP_eq (fun z => decide (z.1 ≤ y.1))
      rw [List.countP_append, List.countP_append] at hc
      have hr0 : r2.countP (fun z => decide (z.1 ≤ y.1)) = 0 := by
        rw [List.countP_eq_zero]
        intro z hz
        simpa using lt_of_lt_of_le hlt (c2 x hx z hz)
      have hfull : k1.countP (fun z => decide (z.1 ≤ y.1)) = k1.length := by
        rw [List.countP_eq_length]
        intro z hz
        simpa using c1 z hz y hy
      have hless : k2.countP (fun z => decide (z.1 ≤ y.1)) < k2.length := by
        rw [lt_iff_le_and_ne]
        refine ⟨List.countP_le_length, fun he => ?_⟩
        have := (List.countP_eq_length.1 he) x hx
        simp only [decide_eq_true_eq] at this
        exact absurd hlt (not_lt.2 this)
      omega

theorem SmallestOf.perm_right {k a b : List (W × J)} (h : SmallestOf k a) (hp : a.Perm b) : SmallestOf k b := by
  obtain ⟨r, p, c⟩ := h
  exact ⟨r, p.trans hp, c⟩

theorem SmallestOf.perm_left {k k' a : List (W × J)} (h : SmallestOf k a) (hp : k'.Perm k) : SmallestOf k' a := by
  obtain ⟨r, p, c⟩ := h
  exact ⟨r, (hp.append_right _).trans p, fun x hx y hy => c x (hp.mem_iff.1 hx) y hy⟩

/-- What lies above everything that is kept may be added. -/
theorem SmallestOf.skip {k a b : List (W × J)} (h : SmallestOf k a) (hb : ∀ x ∈ k, ∀ y ∈ b, x.1 ≤ y.1) : SmallestOf k (a ++ b) := by
  obtain ⟨r, p, c⟩ := h
  refine ⟨r ++ b, ?_, fun x hx y hy => ?_⟩
  · rw [← List.append_assoc]; exact p.append_right _
  · rcases List.mem_append.1 hy with hy | hy
    · exact c x hx y hy
    · exact hb x hx y hy

theorem SmallestOf.map {W' : Type*} [LinearOrder W'] {f : W → W'} (hf : Monotone f) {k a : List (W × J)} (h : SmallestOf k a) :
    SmallestOf (k.map fun x => (f x.1, x.2)) (a.map fun x => (f x.1, x.2)) := by
  obtain ⟨r, p, c⟩ := h
  refine ⟨r.map fun x => (f x.1, x.2), ?_, ?_⟩
  · rw [← List.map_append]; exact p.map _
  · intro x hx y hy
    obtain ⟨x', hx', rfl⟩ := List.mem_map.1 hx
    obtain ⟨y', hy', rfl⟩ := List.mem_map.1 hy
    exact hf (c x' hx' y' hy')

theorem HeapOrder.le_root {size : ℕ} {h : ℕ → W × J} (hh : HeapOrder size h) {x : W × J} (hx : x ∈ entries size h) :
    x.1 ≤ (h 0).1 := by
  rw [← slice_eq_entries] at hx
  obtain ⟨c, _, hc, rfl⟩ := mem_slice.1 hx
  simpa using ((heapOrder_iff _ _).2 hh).root_max c hc

theorem heapPush_smallest {size : ℕ} (hsz : size ≤ 32768) (h0 : 0 < size) (h : ℕ → W × J) (hh : HeapOrder size h) (p : W) (n : J) :
    ∃ h', heapPush size h p n = some h' ∧ HeapOrder size h' ∧ SmallestOf (entries size h') (entries size h ++ [(p, n)]) := by
  obtain ⟨h1, drop, e, a, b, c, -⟩ := heapPush_spec hsz h0 h ((heapOrder_iff _ _).2 hh) p n
  rw [slice_eq_entries, slice_eq_entries] at b
  rw [slice_eq_entries] at c
  exact ⟨h1, e, (heapOrder_iff _ _).1 a, [drop], b, fun x hx y hy => by rw [List.mem_singleton.1 hy]; exact c x hx⟩

theorem pushAll_spec {size : ℕ} (hsz : size ≤ 32768) (h0 : 0 < size) (h : ℕ → W × J) (hh : HeapOrder size h)
    (ps : List (W × J)) :
    ∃ h', pushAll size h ps = some h' ∧ HeapOrder size h' ∧ SmallestOf (entries size h') (entries size h ++ ps) := by
  induction ps generalizing h with
  | nil => exact ⟨h, rfl, hh, SmallestOf.refl _⟩
  | cons p ps ih =>
    obtain ⟨h1, e, a, b⟩ := heapPush_smallest hsz h0 h hh p.1 p.2
    obtain ⟨h', e', a', b'⟩ := ih h1 a
    refine ⟨h', ?_, a', ?_⟩
    · unfold pushAll; rw [e]; exact e'
    · exact b.trans b' (by rw [entries_length, entries_length])

theorem drainHeap_entries {size : ℕ} (h : ℕ → W × J) (hh : HeapOrder size h) :
    (entries size (drainHeap Prod.fst 0 size h)).Perm (entries size h) ∧
      (entries size (drainHeap Prod.fst 0 size h)).Pairwise (fun x y => x.1 ≤ y.1) := by
  obtain ⟨d1, d2⟩ := drainHeap_spec Prod.fst 0 size h ((heapOrder_iff _ _).2 hh)
  constructor
  · have := d2.perm
    rw [Nat.zero_add, slice_eq_entries, slice_eq_entries] at this
    exact this
  · rw [List.pairwise_iff_getElem]
    intro i j hi hj hij
    simp only [entries, List.getElem_map, List.getElem_range]
    have hj' : j < size := by simpa [entries] using hj
    simpa using d1 i j (by omega) hj'

/-- A row of `parallel_tree_query` starts as a heap: every entry is +inf. -/
theorem heapOrder_const (size : ℕ) (w : W) (n : J) : HeapOrder size (fun _ => (w, n)) := fun _ _ _ => le_refl _

end Verif
