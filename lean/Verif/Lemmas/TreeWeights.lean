import Verif.Lemmas.TreeSeq
import Verif.Lemmas.BruteMst
import Mathlib.Algebra.Order.Floor.Semiring
import Mathlib.Algebra.BigOperators.Group.List.Basic

/-!
# Core distances with sample weights
-/

namespace Verif
variable {R W S : Type*} [Field S] [LinearOrder S] [IsStrictOrderedRing S] [LinearOrder R] [LinearOrder W] [OrderTop W]

omit [LinearOrder W] [OrderTop W] in
theorem weightScan_unit {n ms : ℕ} (total : ℕ) (last : Option W) (row : List (W × Option ℕ)) (h1 : total < ms) (h2 : ms ≤ total + row.length) :
    weightScan n ms (fun _ => (1 : S)) total last row = (row[ms - total - 1]?).map Prod.fst := by
  induction row generalizing total last with
  | nil => simp at h2; omega
  | cons p ps ih =>
    unfold weightScan
    rw [if_pos (Nat.cast_lt.2 h1), ← Nat.cast_add_one]
    by_cases h : total + 1 < ms
    · rw [ih (total + 1) _ h (by simp at h2; omega)]
      have : ms - total - 1 = (ms - (total + 1) - 1) + 1 := by omega
      rw [this, List.getElem?_cons_succ]
    · have : ms - total - 1 = 0 := by omega
      rw [this, List.getElem?_cons_zero]
      cases ps with
      | nil => rfl
      | cons q qs => unfold weightScan; rw [if_neg (by rwa [Nat.cast_lt])]; rfl

omit [Field S] [LinearOrder S] [IsStrictOrderedRing S] in
/-- Entry `j` of the result of the query is entry `j` of all distances, sorted. -/
theorem treeQuery_entry {ar : Arith R W} (ha : ar.Lawful) {rt : W → W} (hrt : Monotone rt) (dims : ℕ) (pts : ℕ → ℕ → R) {t : KdTree R}
    {n nNodes : ℕ} (ht : t.Valid pts dims n nNodes) {k : ℕ} (hk : k ≤ 32768) (h0 : 0 < k) (pt : ℕ → R) {row : List (W × Option ℕ)}
    (hrow : treeQuery ar rt dims pts t nNodes k pt = some row) {j : ℕ} (hj : j < k) (hjn : j < n) :
    (row[j]?).map Prod.fst = (((List.range n).map fun q => rt (rdist ar dims pt (pts q))).insertionSort (· ≤ ·))[j]? := by
  obtain ⟨out, e, h1, h2, rest, h3, h4⟩ := treeQuery_spec ha hrt dims pts ht hk h0 pt
  rw [hrow] at e
  obtain rfl := Option.some.inj e
  set reals := (List.range n).map fun q => rt (rdist ar dims pt (pts q)) with hreals
  have hp : (row.map Prod.fst ++ rest.map Prod.fst).Perm (List.replicate k (rt ⊤) ++ reals) := by
    have := h3.map (Prod.fst : W × Option ℕ → W)
    rw [List.map_append, List.map_append, List.map_replicate, List.map_map] at this
    exact this
  have e1 := insertionSort_split hp (by rw [List.pairwise_map]; exact h2) (fun x hx y hy => by
    obtain ⟨x', hx', rfl⟩ := List.mem_map.1 hx
    obtain ⟨y', hy', rfl⟩ := List.mem_map.1 hy
    exact h4 x' hx' y' hy')
  have hp2 : (reals.insertionSort (· ≤ ·) ++ List.replicate k (rt ⊤)).Perm (List.replicate k (rt ⊤) ++ reals) :=
    List.perm_append_comm.trans (List.Perm.append_left _ (List.perm_insertionSort _ _))
  have e2 := insertionSort_split hp2 (List.pairwise_insertionSort _ _) (fun x hx y hy => by
    rw [List.eq_of_mem_replicate hy]
    obtain ⟨q, _, rfl⟩ := List.mem_map.1 ((List.mem_insertionSort _).1 hx)
    exact hrt le_top)
  have e3 : (row.map Prod.fst ++ (rest.map Prod.fst).insertionSort (· ≤ ·))[j]? =
      (reals.insertionSort (· ≤ ·) ++ (List.replicate k (rt ⊤)).insertionSort (· ≤ ·))[j]? := by rw [← e1, e2]
  rw [List.getElem?_append_left (by rw [List.length_map]; omega),
    List.getElem?_append_left (by rw [List.length_insertionSort]; simp [hreals, hjn]), List.getElem?_map] at e3
  exact e3

theorem weighted_core [FloorSemiring S] {vis : List W → W → Prop} {ar : Arith R W} (ha : ar.Lawful) {rt : W → W} (hrt : Monotone rt) {dims : ℕ}
    {pts : ℕ → ℕ → R} {t : KdTree R} {n nNodes ms : ℕ} (ht : t.Valid pts dims n nNodes) (h1 : 1 ≤ ms) (hms : ms ≤ n) (hbig : 2 * ms ≤ 32768)
    {repro : Option ℕ} {edges : List (TEdge W)} {core : ℕ → W}
    (h : TreeBoruvkaW vis ar rt dims pts t nNodes n ms (fun _ => (1 : S)) repro edges core) (i : ℕ) (hi : i < n) :
    core i = rt ((((List.range n).map fun q => rt (rdist ar dims (pts i) (pts q))).insertionSort (· ≤ ·)).getD (ms - 1) ⊤) := by
  obtain ⟨rows, c, hrows, hc, s, _, _, hcore⟩ := h
  have hsum : ((List.range n).map fun _ : ℕ => (1 : S)).sum = n := by simp
  have hk : weightedK n ms (fun _ => (1 : S)) = 2 * ms := by
    unfold weightedK
    rw [hsum, div_self (Nat.cast_ne_zero.2 (by omega)), div_one, ← Nat.cast_ofNat, ← Nat.cast_mul, Nat.floor_natCast]
  have hr := hrows i hi
  rw [hk] at hr
  have hlen : (rows i).length = 2 * ms := by
    obtain ⟨out, e, h1, _⟩ := treeQuery_spec ha hrt dims pts ht hbig (by omega) (pts i)
    rw [hr] at e
    obtain rfl := Option.some.inj e
    exact h1
  have := hc i hi
  unfold sampleWeightCore at this
  have hz : (0 : S) = ((0 : ℕ) : S) := Nat.cast_zero.symm
  rw [hz, weightScan_unit 0 _ _ (by omega) (by omega), Nat.sub_zero,
    treeQuery_entry ha hrt dims pts ht hbig (by omega) (pts i) hr (j := ms - 1) (by omega) (by omega)] at this
  rw [hcore i, List.getD_eq_getElem?_getD, this]
  rfl

end Verif
