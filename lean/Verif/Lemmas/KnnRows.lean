import Verif.Lemmas.BruteMst
import Verif.Lemmas.Labels
import Verif.Model.KnnKruskal

/-!
# Rows of nearest neighbours that may contain padding
-/

namespace Verif
variable {R W : Type*}

/-! ## Queries depend on the coordinates only -/

theorem rdist_congr (ar : Arith R W) {dims : ℕ} {x x' : ℕ → R} (h : ∀ c < dims, x c = x' c) (y : ℕ → R) : rdist ar dims x y = rdist ar dims x' y := by
  unfold rdist
  have key : ∀ (l : List ℕ) (r : W), (∀ c ∈ l, c < dims) → l.foldl (fun r i => ar.add r (ar.sq (ar.diff (x i) (y i)))) r =
      l.foldl (fun r i => ar.add r (ar.sq (ar.diff (x' i) (y i)))) r := by
    intro l
    induction l with
    | nil => intros; rfl
    | cons a l ih =>
      intro r hl
      rw [List.foldl_cons, List.foldl_cons, h a (hl a (by simp))]
      exact ih _ fun c hc => hl c (by simp [hc])
  exact key _ _ fun c hc => List.mem_range.1 hc

theorem boxDist_congr [LinearOrder R] (ar : Arith R W) {dims : ℕ} {x x' : ℕ → R} (h : ∀ c < dims, x c = x' c) (lo hi : ℕ → R) :
    boxDist ar dims lo hi x = boxDist ar dims lo hi x' := by
  unfold boxDist
  have key : ∀ (l : List ℕ) (r : W), (∀ c ∈ l, c < dims) →
      l.foldl (fun r i => ar.add r (ar.sq (ar.add (if lo i > x i then ar.diff (lo i) (x i) else ar.zero)
        (if x i > hi i then ar.diff (x i) (hi i) else ar.zero)))) r =
      l.foldl (fun r i => ar.add r (ar.sq (ar.add (if lo i > x' i then ar.diff (lo i) (x' i) else ar.zero)
        (if x' i > hi i then ar.diff (x' i) (hi i) else ar.zero)))) r := by
    intro l
    induction l with
    | nil => intros; rfl
    | cons a l ih =>
      intro r hl
      rw [List.foldl_cons, List.foldl_cons, h a (hl a (by simp))]
      exact ih _ fun c hc => hl c (by simp [hc])
  exact key _ _ fun c hc => List.mem_range.1 hc

theorem queryLeaf_congr [LinearOrder W] (ar : Arith R W) {dims : ℕ} (pts : ℕ → ℕ → R) {x x' : ℕ → R} (h : ∀ c < dims, x c = x' c) (k : ℕ)
    (qs : List ℕ) (a : ℕ → W × Option ℕ) : queryLeaf ar dims pts x k qs a = queryLeaf ar dims pts x' k qs a := by
  induction qs generalizing a with
  | nil => rfl
  | cons q qs ih =>
    unfold queryLeaf
    simp only [rdist_congr ar h, ih]

theorem queryRec_congr [LinearOrder R] [LinearOrder W] (ar : Arith R W) {dims : ℕ} (pts : ℕ → ℕ → R) (t : KdTree R) {x x' : ℕ → R}
    (h : ∀ c < dims, x c = x' c) (k g v : ℕ) (bound : W) (a : ℕ → W × Option ℕ) :
    queryRec ar dims pts t x k g v bound a = queryRec ar dims pts t x' k g v bound a := by
  induction g generalizing v bound a with
  | zero => rfl
  | succ g ih =>
    unfold queryRec
    simp only [boxDist_congr ar h, queryLeaf_congr ar pts h]
    have e : ∀ v b, queryRec ar dims pts t x k g v b = queryRec ar dims pts t x' k g v b := fun v b => funext fun a => ih v b a
    simp only [e]

theorem treeQuery_congr [LinearOrder R] [LinearOrder W] [OrderTop W] (ar : Arith R W) (rt : W → W) {dims : ℕ} (pts : ℕ → ℕ → R) (t : KdTree R)
    (nNodes k : ℕ) {x x' : ℕ → R} (h : ∀ c < dims, x c = x' c) :
    treeQuery ar rt dims pts t nNodes k x = treeQuery ar rt dims pts t nNodes k x' := by
  unfold treeQuery
  rw [boxDist_congr ar h, queryRec_congr ar pts t h]

/-! ## Padded rows -/

variable [LinearOrder W] [OrderTop W]

/-- `k` entries in ascending order: the nearest of `n` samples, padded. -/
structure PadRow (n k : ℕ) (dist : ℕ → W) (row : List (W × Option ℕ)) : Prop where
  length : row.length = k
  sorted : row.Pairwise fun x y => x.1 ≤ y.1
  small : SmallestOf row (List.replicate k (⊤, none) ++ (List.range n).map fun q => (dist q, some q))

theorem PadRow.entry {n k : ℕ} {dist : ℕ → W} {row : List (W × Option ℕ)} (h : PadRow n k dist row) {x : W × Option ℕ} (hx : x ∈ row) :
    x = (⊤, none) ∨ ∃ q < n, x = (dist q, some q) := by
  obtain ⟨rest, h1, _⟩ := h.small
  have := h1.mem_iff.1 (List.mem_append_left _ hx)
  rcases List.mem_append.1 this with h | h
  · exact Or.inl (List.eq_of_mem_replicate h)
  · obtain ⟨q, hq, rfl⟩ := List.mem_map.1 h
    exact Or.inr ⟨q, List.mem_range.1 hq, rfl⟩

/-- All samples within `τ` are in the row if there are at most `k`. -/
theorem PadRow.mem_of_count {n k : ℕ} {dist : ℕ → W} {row : List (W × Option ℕ)} (h : PadRow n k dist row) {rt : W → W} (hrt : Monotone rt)
    (htop : rt ⊤ = ⊤) {τ : W} (hτ : τ < ⊤) (hc : ((List.range n).filter fun q => decide (rt (dist q) ≤ τ)).length ≤ k) {q : ℕ} (hq : q < n)
    (hd : rt (dist q) ≤ τ) : (dist q, some q) ∈ row := by
  by_contra hno
  obtain ⟨rest, h1, h2⟩ := h.small
  have hin : (dist q, some q) ∈ row ++ rest := h1.mem_iff.2 (List.mem_append_right _ (List.mem_map.2 ⟨q, List.mem_range.2 hq, rfl⟩))
  have hrest : (dist q, some q) ∈ rest := (List.mem_append.1 hin).resolve_left hno
  have hall : ∀ x ∈ row, rt x.1 ≤ τ := fun x hx => (hrt (h2 x hx _ hrest)).trans hd
  have hl := (h1.filter fun x => decide (rt x.1 ≤ τ)).length_eq
  rw [List.filter_append, List.filter_append, List.length_append, List.length_append] at hl
  have e1 : (row.filter fun x => decide (rt x.1 ≤ τ)) = row := List.filter_eq_self.2 fun x hx => by simpa using hall x hx
  have e2 : ((List.replicate k ((⊤ : W), (none : Option ℕ))).filter fun x => decide (rt x.1 ≤ τ)) = [] := by
    rw [List.filter_eq_nil_iff]
    intro x hx
    rw [List.eq_of_mem_replicate hx]
    simpa [htop] using hτ.ne
  have e3 : (((List.range n).map fun q => (dist q, some q)).filter fun x => decide (rt x.1 ≤ τ)).length =
      ((List.range n).filter fun q => decide (rt (dist q) ≤ τ)).length := by
    rw [List.filter_map, List.length_map]; rfl
  have e4 : 0 < (rest.filter fun x => decide (rt x.1 ≤ τ)).length :=
    List.length_pos_iff.2 (List.ne_nil_of_mem (List.mem_filter.2 ⟨hrest, by simpa using hd⟩))
  rw [e1, e2, e3, h.length, List.length_nil] at hl
  omega

/-- Entry `m` of a row is entry `m` of the sorted distances. -/
theorem PadRow.sorted_entry {n k : ℕ} {dist : ℕ → W} {row : List (W × Option ℕ)} (h : PadRow n k dist row) {rt : W → W} (hrt : Monotone rt)
    (htop : rt ⊤ = ⊤) {m : ℕ} (hm : m < k) :
    ((row[m]?).map fun x => rt x.1).getD ⊤ = (((List.range n).map fun q => rt (dist q)).insertionSort (· ≤ ·)).getD m ⊤ := by
  obtain ⟨rest, h1, h2⟩ := h.small
  set D := (List.range n).map fun q => rt (dist q) with hD
  have hp : (row.map (fun x => rt x.1) ++ rest.map fun x => rt x.1).Perm (List.replicate k (⊤ : W) ++ D) := by
    have := h1.map fun x : W × Option ℕ => rt x.1
    rw [List.map_append, List.map_append, List.map_map, List.map_replicate] at this
    simpa [htop, hD, Function.comp_def] using this
  have s1 := insertionSort_split hp (by
    rw [List.pairwise_map]; exact h.sorted.imp fun hxy => hrt hxy) (by
    intro x hx z hz
    obtain ⟨x', hx', rfl⟩ := List.mem_map.1 hx
    obtain ⟨z', hz', rfl⟩ := List.mem_map.1 hz
    exact hrt (h2 x' hx' z' hz'))
  have s2 := insertionSort_split (l := List.replicate k (⊤ : W) ++ D) (a := D.insertionSort (· ≤ ·)) (b := List.replicate k (⊤ : W))
    ((List.Perm.append_right _ (List.perm_insertionSort _ _)).trans List.perm_append_comm) (List.pairwise_insertionSort _ _)
    (fun x _ y hy => by rw [List.eq_of_mem_replicate hy]; exact le_top)
  have s3 : (List.replicate k (⊤ : W)).insertionSort (· ≤ ·) = List.replicate k ⊤ :=
    List.eq_replicate_iff.2 ⟨by simp, fun b hb => List.eq_of_mem_replicate ((List.mem_insertionSort _).1 hb)⟩
  rw [s1, s3] at s2
  have s4 := congrArg (fun l : List W => (l[m]?).getD ⊤) s2
  rw [List.getElem?_append_left (by rw [List.length_map, h.length]; exact hm), List.getElem?_map] at s4
  rw [s4, List.getD_eq_getElem?_getD]
  by_cases hmn : m < (D.insertionSort (· ≤ ·)).length
  · rw [List.getElem?_append_left hmn]
  · rw [List.getElem?_append_right (by omega), List.getElem?_eq_none (l := D.insertionSort _) (by omega), List.getElem?_replicate]
    split <;> rfl

theorem padRow_of_query [LinearOrder R] {ar : Arith R W} (ha : ar.Lawful) (dims : ℕ) (pts : ℕ → ℕ → R) {t : KdTree R} {n nNodes : ℕ}
    (ht : t.Valid pts dims n nNodes) {k : ℕ} (hk : k ≤ 32768) (h0 : 0 < k) (pt : ℕ → R) :
    ∃ row, treeQuery ar id dims pts t nNodes k pt = some row ∧ PadRow n k (fun q => rdist ar dims pt (pts q)) row := by
  obtain ⟨out, e, h1, h2, h3⟩ := treeQuery_spec ha (rt := id) (fun _ _ h => h) dims pts ht hk h0 pt
  exact ⟨out, e, h1, h2, h3⟩

theorem queryRows_eq [LinearOrder R] {ar : Arith R W} {rt : W → W} {dims : ℕ} {pts : ℕ → ℕ → R} {t : KdTree R} {nNodes n k : ℕ}
    {rows : ℕ → List (W × Option ℕ)} (h : ∀ i < n, treeQuery ar rt dims pts t nNodes k (pts i) = some (rows i)) :
    ∃ rows', queryRows ar rt dims pts t nNodes n k = some rows' ∧ ∀ i < n, rows' i = rows i := by
  unfold queryRows
  rw [mapM_of_some (g := rows) fun i hi => h i (List.mem_range.1 hi)]
  refine ⟨_, rfl, fun i hi => ?_⟩
  show ((List.range n).map rows).getD i [] = rows i
  rw [List.getD_eq_getElem?_getD, List.getElem?_map, List.getElem?_range hi]
  rfl

end Verif
