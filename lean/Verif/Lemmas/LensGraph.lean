import Verif.Model.LensGraph
import Verif.Lemmas.Propagate
import Verif.Lemmas.DirectedBoruvka

/-!
# Lemmas on the core graph of a lens
-/

namespace Verif
variable {W D V : Type*}

/-! ## Dictionaries -/

theorem pair_mem_dictSet {A : List (ℕ × V)} {k j : ℕ} {v x : V} :
    (j, x) ∈ dictSet A k v ↔ (j = k ∧ x = v) ∨ (j ≠ k ∧ (j, x) ∈ A) := by
  unfold dictSet
  split
  next h =>
    obtain ⟨p, hp, hk⟩ := List.any_eq_true.1 h
    have hk : p.1 = k := by simpa using hk
    rw [List.mem_map]
    constructor
    · rintro ⟨q, hq, he⟩
      split at he
      · injection he with h1 h2; exact .inl ⟨h1.symm, h2.symm⟩
      · next hne => subst he; exact .inr ⟨hne, hq⟩
    · rintro (⟨rfl, rfl⟩ | ⟨h1, h2⟩)
      · exact ⟨p, hp, by rw [if_pos hk]⟩
      · exact ⟨_, h2, by rw [if_neg h1]⟩
  next h =>
    have h' : ∀ q ∈ A, q.1 ≠ k := fun q hq he => h (List.any_eq_true.2 ⟨q, hq, by simpa using he⟩)
    rw [List.mem_append, List.mem_singleton]
    constructor
    · rintro (h1 | h1)
      · exact .inr ⟨h' _ h1, h1⟩
      · injection h1 with h1 h2; exact .inl ⟨h1, h2⟩
    · rintro (⟨rfl, rfl⟩ | ⟨_, h2⟩)
      · exact .inr rfl
      · exact .inl h2

theorem dictSet_nodup {A : List (ℕ × V)} {k : ℕ} {v : V} (h : (A.map Prod.fst).Nodup) : ((dictSet A k v).map Prod.fst).Nodup := by
  unfold dictSet
  split
  · rw [List.map_map]
    have : (Prod.fst ∘ fun p : ℕ × V => if p.1 = k then (k, v) else p) = Prod.fst := by
      funext p
      simp only [Function.comp]
      split
      · next h => exact h.symm
      · rfl
    rw [this]; exact h
  next hn =>
    rw [List.map_append, List.nodup_append]
    refine ⟨h, by simp, fun a ha b hb => ?_⟩
    obtain ⟨q, hq, rfl⟩ := List.mem_map.1 ha
    simp only [List.map_cons, List.map_nil, List.mem_singleton] at hb
    subst hb
    exact fun he => hn (List.any_eq_true.2 ⟨q, hq, by simpa using he⟩)

/-! ## The union of nearest neighbours and spanning tree -/

section
variable [LinearOrder W] [LinearOrder D]

theorem knnRow_spec (core : ℕ → D) (lens : ℕ → W) (nb : List (Option ℕ)) (u : ℕ) :
    ((knnRow core lens nb u).map Prod.fst).Nodup ∧ ∀ v w d, (v, w, d) ∈ knnRow core lens nb u ↔
      some v ∈ nb ∧ w = max (lens u) (lens v) ∧ d = max (core u) (core v) := by
  unfold knnRow
  induction nb using List.reverseRecOn with
  | nil => simp
  | append_singleton l c ih =>
    rw [List.foldl_append, List.foldl_cons, List.foldl_nil]
    cases c with
    | none => simpa using ih
    | some c =>
      refine ⟨dictSet_nodup ih.1, fun v w d => ?_⟩
      rw [pair_mem_dictSet, ih.2, List.mem_append, List.mem_singleton, Option.some.injEq, Prod.mk.injEq]
      by_cases h : v = c
      · subst h; simp
      · simp [h]

/-- The distance stored for the edge from `u` to `v`: by the core distances if `v` is a neighbour of `u`, otherwise that of the first edge
from `u` to `v` in the list. -/
def lensDist (n : ℕ) (nb : ℕ → List (Option ℕ)) (core : ℕ → D) (mst : List (Edge D)) (u v : ℕ) : Option D :=
  if u < n ∧ some v ∈ nb u then some (max (core u) (core v)) else (mst.find? fun e => e.u = u ∧ e.v = v).map fun e => e.w

theorem knnMstUnion_spec (n : ℕ) (nb : ℕ → List (Option ℕ)) (core : ℕ → D) (mst : List (Edge D)) (lens : ℕ → W) (u : ℕ) :
    ((knnMstUnion n nb core mst lens u).map Prod.fst).Nodup ∧ ∀ v w d, (v, w, d) ∈ knnMstUnion n nb core mst lens u ↔
      w = max (lens u) (lens v) ∧ lensDist n nb core mst u v = some d := by
  unfold knnMstUnion
  induction mst using List.reverseRecOn with
  | nil =>
    rw [List.foldl_nil]
    unfold lensDist
    by_cases h : u < n
    · rw [if_pos h]
      refine ⟨(knnRow_spec core lens (nb u) u).1, fun v w d => ?_⟩
      rw [(knnRow_spec core lens (nb u) u).2]
      by_cases hm : some v ∈ nb u
      · rw [if_pos ⟨h, hm⟩]; simp [hm, eq_comm]
      · rw [if_neg (fun hh => hm hh.2)]; simp [hm]
    · rw [if_neg h]
      refine ⟨by simp, fun v w d => ?_⟩
      rw [if_neg (fun hh => h hh.1)]; simp
  | append_singleton l e ih =>
    rw [List.foldl_append, List.foldl_cons, List.foldl_nil]
    set g := l.foldl (unionStep lens) fun point => if point < n then knnRow core lens (nb point) point else [] with hg
    have hd : ∀ v, lensDist n nb core (l ++ [e]) u v =
        (lensDist n nb core l u v).or (if e.u = u ∧ e.v = v then some e.w else none) := by
      intro v
      unfold lensDist
      split
      · rfl
      · rw [List.find?_append]
        cases l.find? (fun e => decide (e.u = u ∧ e.v = v)) with
        | some x => rfl
        | none =>
          simp only [Option.none_or, Option.map_none, List.find?_singleton]
          by_cases h : e.u = u ∧ e.v = v
          · simp [h]
          · simp only [h, decide_false, if_false]; rfl
    by_cases hu : e.u = u
    · unfold unionStep
      by_cases ha : (g e.u).any (fun p => p.1 = e.v) = true
      · rw [if_pos ha]
        refine ⟨ih.1, fun v w d => ?_⟩
        rw [ih.2, hd]
        refine and_congr_right fun _ => ?_
        by_cases hv : e.v = v
        · obtain ⟨p, hp, hpv⟩ := List.any_eq_true.1 ha
          have hpv : p.1 = e.v := by simpa using hpv
          obtain ⟨p1, p2, p3⟩ := p
          simp only at hpv
          rw [hu, hpv, hv] at hp
          rw [((ih.2 _ _ _).1 hp).2]; rfl
        · rw [if_neg (fun h => hv h.2), Option.or_none]
      · rw [if_neg ha]
        subst hu
        rw [Function.update_self]
        refine ⟨dictSet_nodup ih.1, fun v w d => ?_⟩
        rw [pair_mem_dictSet, hd, ih.2, Prod.mk.injEq]
        by_cases hv : v = e.v
        · subst hv
          have : lensDist n nb core l e.u e.v = none := by
            cases hx : lensDist n nb core l e.u e.v with
            | none => rfl
            | some x => exact absurd (List.any_eq_true.2 ⟨_, (ih.2 e.v _ x).2 ⟨rfl, hx⟩, by simp⟩) ha
          rw [this]; simp [eq_comm]
        · have hv' : e.v ≠ v := fun h => hv h.symm
          simp [hv, hv']
    · have hst : unionStep lens g e u = g u := by
        unfold unionStep
        split
        · rfl
        · rw [Function.update_of_ne (fun h => hu h.symm)]
      rw [hst]
      refine ⟨ih.1, fun v w d => ?_⟩
      rw [ih.2, hd, if_neg (fun h => hu h.1), Option.or_none]

end

/-! ## Compressed rows -/

/-- Where row `i` starts when `n` lists are written one after the other. -/
def rowStart {α : Type*} (n : ℕ) (f : ℕ → List α) (i : ℕ) : ℕ := ((List.range (min i n)).map fun j => (f j).length).sum

theorem rowStart_succ {α : Type*} {n : ℕ} {f : ℕ → List α} {i : ℕ} (hi : i < n) : rowStart n f (i + 1) = rowStart n f i + (f i).length := by
  unfold rowStart
  rw [Nat.min_eq_left hi, Nat.min_eq_left hi.le, List.range_succ, List.map_append, List.sum_append]; simp

theorem rowStart_mono {α : Type*} (n : ℕ) (f : ℕ → List α) : Monotone (rowStart n f) := by
  refine monotone_nat_of_le_succ fun i => ?_
  by_cases h : i < n
  · rw [rowStart_succ h]; omega
  · unfold rowStart; rw [Nat.min_eq_right (by omega), Nat.min_eq_right (by omega)]

theorem rowStart_last {α : Type*} (n : ℕ) (f : ℕ → List α) : rowStart n f n = ((List.range n).flatMap f).length := by
  unfold rowStart; rw [Nat.min_self, List.length_flatMap]

theorem rowStart_congr {α β : Type*} {n : ℕ} {f : ℕ → List α} {g : ℕ → List β} (h : ∀ i < n, (f i).length = (g i).length) :
    rowStart n f = rowStart n g := by
  funext i
  unfold rowStart
  congr 1
  exact List.map_congr_left fun j hj => h j (lt_of_lt_of_le (List.mem_range.1 hj) (min_le_right _ _))

theorem flatMap_row {α : Type*} {n : ℕ} (f : ℕ → List α) {i : ℕ} (hi : i < n) :
    (((List.range n).flatMap f).drop (rowStart n f i)).take (rowStart n f (i + 1) - rowStart n f i) = f i := by
  rw [rowStart_succ hi, Nat.add_sub_cancel_left]
  have e : List.range n = List.range i ++ i :: (List.range (n - i - 1)).map (· + (i + 1)) := by
    have h1 : n = (i + 1) + (n - i - 1) := by omega
    conv_lhs => rw [h1, List.range_add, List.range_succ]
    rw [List.append_assoc, List.singleton_append]
    congr 2
    exact List.map_congr_left fun x _ => Nat.add_comm _ _
  have hl : rowStart n f i = ((List.range i).flatMap f).length := by
    unfold rowStart; rw [Nat.min_eq_left hi.le, List.length_flatMap]
  rw [e, List.flatMap_append, hl, List.drop_left, List.flatMap_cons, List.take_left]

theorem flattenToCsr_row {n : ℕ} {g : ℕ → LensRow W D} {i : ℕ} (hi : i < n) : (flattenToCsr n g).row i = g i := flatMap_row g hi

theorem csr_row_of {n : ℕ} {c : LensCsr W D} {f : ℕ → LensRow W D} (hp : c.indptr = rowStart n f) (he : c.ent = (List.range n).flatMap f)
    {i : ℕ} (hi : i < n) : c.row i = f i := by
  unfold LensCsr.row
  rw [hp, he]; exact flatMap_row f hi

theorem flatMap_congr_range {α : Type*} {n : ℕ} {f g : ℕ → List α} (h : ∀ i < n, f i = g i) :
    (List.range n).flatMap f = (List.range n).flatMap g := by
  rw [List.flatMap_def, List.flatMap_def, List.map_congr_left fun i hi => h i (List.mem_range.1 hi)]

/-- Sorting the rows leaves them where they are. -/
theorem sortByLens_shape {sortRow : LensRow W D → LensRow W D} (hs : ∀ r, (sortRow r).Perm r) {n : ℕ} {c : LensCsr W D}
    {f : ℕ → LensRow W D} (hp : c.indptr = rowStart n f) (he : c.ent = (List.range n).flatMap f) :
    (sortByLens sortRow n c).indptr = rowStart n (fun i => sortRow (f i)) ∧
      (sortByLens sortRow n c).ent = (List.range n).flatMap fun i => sortRow (f i) := by
  refine ⟨hp.trans (rowStart_congr fun i _ => ((hs _).length_eq).symm), flatMap_congr_range fun i hi => ?_⟩
  rw [csr_row_of hp he hi]

end Verif
