import Verif.Model.BruteNeighbors
import Mathlib.Data.List.Sort
import Mathlib.Data.Rat.Defs
import Mathlib.Tactic.Linarith

/-!
# C99: the neighbours returned by the exact Kruskal routine
-/

namespace Verif
variable {W : Type*} [LinearOrder W]

/-- The entries of a partition, sorted, are the first entries of all distances sorted. -/
theorem ArgPartition.sorted_eq {n k : ℕ} {d : ℕ → W} {part sorted : List ℕ} (h : ArgPartition n k d part) (hp : sorted.Perm part)
    (hs : (sorted.map d).Pairwise (· ≤ ·)) : sorted.map d = (((List.range n).map d).insertionSort (· ≤ ·)).take k := by
  have h1 : (sorted ++ (List.range n).filter (· ∉ sorted)).Perm (List.range n) := by
    refine (List.perm_ext_iff_of_nodup ?_ List.nodup_range).2 fun x => ?_
    · refine List.nodup_append.2 ⟨hp.nodup_iff.2 h.nodup, List.nodup_range.filter _, ?_⟩
      rintro a ha b hb rfl
      simp only [List.mem_filter, decide_eq_true_eq] at hb
      exact hb.2 ha
    · simp only [List.mem_append, List.mem_filter, List.mem_range, decide_eq_true_eq]
      constructor
      · rintro (hx | hx)
        · exact h.lt x (hp.subset hx)
        · exact hx.1
      · intro hx; by_cases h : x ∈ sorted
        · exact .inl h
        · exact .inr ⟨hx, h⟩
  have h2 : (sorted.map d ++ (((List.range n).filter (· ∉ sorted)).map d).insertionSort (· ≤ ·)).Perm
      (((List.range n).map d).insertionSort (· ≤ ·)) := by
    refine ((List.Perm.refl _).append (List.perm_insertionSort _ _)).trans (.trans ?_ (List.perm_insertionSort _ _).symm)
    rw [← List.map_append]
    exact h1.map d
  have h3 : (sorted.map d ++ (((List.range n).filter (· ∉ sorted)).map d).insertionSort (· ≤ ·)).Pairwise (· ≤ ·) := by
    refine List.pairwise_append.2 ⟨hs, List.pairwise_insertionSort _ _, fun a ha b hb => ?_⟩
    obtain ⟨x, hx, rfl⟩ := List.mem_map.1 ha
    obtain ⟨y, hy, rfl⟩ := List.mem_map.1 ((List.perm_insertionSort _ _).subset hb)
    simp only [List.mem_filter, List.mem_range, decide_eq_true_eq] at hy
    exact h.least x (hp.subset hx) y hy.1 fun hc => hy.2 (hp.symm.subset hc)
  have h4 := h2.eq_of_pairwise (fun _ _ _ _ => le_antisymm) h3 (List.pairwise_insertionSort _ _)
  rw [← h4, List.take_left']
  rw [List.length_map, hp.length_eq, h.length]

/-- There is a partition. -/
theorem argPartition_exists (n k : ℕ) (hk : k ≤ n) (d : ℕ → W) :
    ∃ part, ArgPartition n k d part ∧ (part.map d).Pairwise (· ≤ ·) := by
  set s := (List.range n).insertionSort (fun a b => d a ≤ d b) with hs
  haveI : Std.Total (fun a b : ℕ => d a ≤ d b) := ⟨fun a b => le_total _ _⟩
  haveI : IsTrans ℕ (fun a b : ℕ => d a ≤ d b) := ⟨fun a b c => le_trans⟩
  have hperm : s.Perm (List.range n) := List.perm_insertionSort _ _
  have hp : s.Pairwise (fun a b => d a ≤ d b) := List.pairwise_insertionSort _ _
  refine ⟨s.take k, ⟨(hperm.nodup_iff.2 List.nodup_range).sublist (List.take_sublist _ _), fun a ha => ?_, ?_, fun a ha b hb hnb => ?_⟩, ?_⟩
  · exact List.mem_range.1 (hperm.subset (List.mem_of_mem_take ha))
  · rw [List.length_take, hperm.length_eq, List.length_range]; omega
  · have hb' : b ∈ s.drop k := by
      have := hperm.symm.subset (List.mem_range.2 hb)
      rw [← List.take_append_drop k s, List.mem_append] at this
      exact this.resolve_left hnb
    rw [← List.take_append_drop k s, List.pairwise_append] at hp
    exact hp.2.2 a ha b hb'
  · exact List.pairwise_map.2 (hp.sublist (List.take_sublist _ _))

/-- **C99** (partial).  The neighbours that `_kruskal_mst_brute` returns for sample `i`, for every behaviour of `argpartition` and `argsort` on equal distances, if no
distance from `i` is less than that to itself: there are `min(max(1, min_samples), n - 1)` of them, all different; their distances are entries 1, 2, ... of the sorted
distances from `i`, so the last one is at the core distance if `min_samples` is at least 2 and below `n`; if `i` itself is listed, a twin of `i` at the
same distance is missing; and if `i` has no twin, the list consists of nearest other samples.
Missing: with duplicate rows a sample can be its own neighbour (`C99_own_neighbour`). -/
theorem C99_neighbours_partial (n ms : ℕ) (h2 : 2 ≤ n) (D : ℕ → ℕ → W) (i : ℕ) (hi : i < n) (hself : ∀ j < n, D i i ≤ D i j) :
    (∃ out, BruteNeighbors n ms D i out) ∧ ∀ out, BruteNeighbors n ms D i out →
      out.length = min (max 1 ms) (n - 1) ∧ out.Nodup ∧ (∀ a ∈ out, a < n) ∧
      out.map (D i) = ((((List.range n).map (D i)).insertionSort (· ≤ ·)).drop 1).take (min (max 1 ms) (n - 1)) ∧
      (∀ [OrderTop W] [Zero W], 2 ≤ ms → ms < n → out.getLast?.map (D i) = some (bruteCore n ms D i)) ∧
      (i ∈ out → ∃ j < n, j ≠ i ∧ j ∉ out ∧ D i j = D i i) ∧
      ((∀ j < n, j ≠ i → D i i < D i j) → i ∉ out ∧ ∀ a ∈ out, ∀ b < n, b ≠ i → b ∉ out → D i a ≤ D i b) := by
  have hk : min (bruteOut n ms + 1) n = bruteOut n ms + 1 := by unfold bruteOut; omega
  have hk1 : 1 ≤ bruteOut n ms := by unfold bruteOut; omega
  constructor
  · obtain ⟨part, h1, h3⟩ := argPartition_exists n (min (bruteOut n ms + 1) n) (by omega) (D i)
    exact ⟨_, part, part, h1, .refl _, h3, rfl⟩
  · rintro out ⟨part, sorted, h1, hp, hs, rfl⟩
    have hlen : sorted.length = bruteOut n ms + 1 := by rw [hp.length_eq, h1.length, hk]
    have hnd : sorted.Nodup := hp.nodup_iff.2 h1.nodup
    obtain ⟨a, rest, rfl⟩ : ∃ a rest, sorted = a :: rest := List.exists_cons_of_ne_nil (List.ne_nil_of_length_pos (by omega))
    have hrest : rest.length = bruteOut n ms := by simpa using hlen
    have e1 : ((a :: rest).drop 1).take (bruteOut n ms) = rest := by rw [List.drop_one, List.tail_cons, List.take_of_length_le hrest.le]
    rw [e1]
    have hlt : ∀ x ∈ a :: rest, x < n := fun x hx => h1.lt x (hp.subset hx)
    have hleast : ∀ x ∈ a :: rest, ∀ b < n, b ∉ a :: rest → D i x ≤ D i b :=
      fun x hx b hb hn => h1.least x (hp.subset hx) b hb fun hc => hn (hp.symm.subset hc)
    have hse := h1.sorted_eq hp hs
    rw [hk] at hse
    have hrd : rest.map (D i) = ((((List.range n).map (D i)).insertionSort (· ≤ ·)).drop 1).take (bruteOut n ms) := by
      have := congrArg (List.drop 1) hse
      rw [List.drop_take, Nat.add_sub_cancel] at this
      exact this
    have ha : D i a ≤ D i i := by
      by_cases hin : i ∈ a :: rest
      · rcases List.mem_cons.1 hin with rfl | h
        · exact le_rfl
        · rw [List.map_cons, List.pairwise_cons] at hs
          exact hs.1 _ (List.mem_map_of_mem h)
      · exact hleast a List.mem_cons_self i hi hin
    have hal := hlt a List.mem_cons_self
    rw [List.nodup_cons] at hnd
    refine ⟨hrest, hnd.2, fun x hx => hlt x (List.mem_cons_of_mem _ hx), hrd, ?_, ?_, ?_⟩
    · intro _ _ hm hmn
      have hb : bruteOut n ms = ms := by unfold bruteOut; omega
      have hlen2 : (((List.range n).map (D i)).insertionSort (· ≤ ·)).length = n := by
        rw [(List.perm_insertionSort _ _).length_eq, List.length_map, List.length_range]
      rw [← List.getLast?_map, hrd, hb, List.getLast?_eq_getElem?, List.length_take, List.length_drop, hlen2, min_eq_left (by omega),
        List.getElem?_take, if_pos (by omega), List.getElem?_drop]
      unfold bruteCore
      rw [if_neg (by omega), List.getD_eq_getElem?_getD, show 1 + (ms - 1) = ms by omega, List.getElem?_eq_getElem (by omega)]
      rw [if_pos hmn]; rfl
    · intro hin
      exact ⟨a, hal, fun h => hnd.1 (h ▸ hin), hnd.1, le_antisymm ha (hself a hal)⟩
    · intro huniq
      have hai : a = i := by
        by_contra h
        exact absurd (huniq a hal h) (not_lt.2 ha)
      subst hai
      refine ⟨hnd.1, fun x hx b hb hne hnb => hleast x (List.mem_cons_of_mem _ hx) b hb fun hc => ?_⟩
      rcases List.mem_cons.1 hc with rfl | h
      · exact hne rfl
      · exact hnb h

/-- Positions 0, 0 and 1 on a line. -/
def twinDist (i j : ℕ) : ℚ := if (i = 2) = (j = 2) then 0 else 1

/-- Case for C99: for the third sample of 0, 0, 1 with `min_samples = 2` both others are returned. -/
example : BruteNeighbors 3 2 twinDist 2 [0, 1] :=
  ⟨[2, 0, 1], [2, 0, 1], ⟨by decide, by decide, by decide, by decide⟩, .refl _, by decide +kernel, by decide⟩

/-- It has no twin. -/
example : (∀ j < 3, twinDist 2 2 ≤ twinDist 2 j) ∧ ∀ j < 3, j ≠ 2 → twinDist 2 2 < twinDist 2 j := by constructor <;> decide +kernel

/-- **C99** fails for duplicate rows: sample 1 of 0, 0, 1 can be its own only neighbour, since the entry skipped is its twin 0, which a stable sort puts first. -/
theorem C99_own_neighbour : BruteNeighbors 3 1 twinDist 1 [1] :=
  ⟨[0, 1], [0, 1], ⟨by decide, by decide, by decide, by decide +kernel⟩, .refl _, by decide +kernel, by decide⟩

end Verif
