import Verif.Lemmas.Constrained
import Verif.Lemmas.Greedy
import Verif.Model.KruskalApi

namespace Verif
variable {W : Type*}

instance (n : ℕ) (es : List (Edge W)) : Decidable (InRange n es) := by
  unfold InRange; infer_instance

theorem sortEdges_perm [LinearOrder W] (g : List (Edge W)) : (sortEdges g).Perm g :=
  List.perm_insertionSort _ _

theorem sortEdges_sorted [LinearOrder W] (g : List (Edge W)) :
    (sortEdges g).Pairwise (fun a b => a.w ≤ b.w) := by
  have : Std.Total (fun a b : Edge W => a.w ≤ b.w) := ⟨fun a b => le_total _ _⟩
  have : IsTrans (Edge W) (fun a b : Edge W => a.w ≤ b.w) := ⟨fun a b c => le_trans⟩
  exact List.pairwise_insertionSort _ _

theorem InRange.perm {n : ℕ} {es fs : List (Edge W)} (h : InRange n fs) (hp : es.Perm fs) :
    InRange n es := fun e he => h e (hp.mem_iff.1 he)

theorem sortEdges_inRange [LinearOrder W] {n : ℕ} {g : List (Edge W)} (h : InRange n g) :
    InRange n (sortEdges g) := h.perm (sortEdges_perm g)

theorem SpanningForest.perm {g g' f : List (Edge W)} (h : SpanningForest g f) (hp : g.Perm g') :
    SpanningForest g' f :=
  ⟨h.sub.trans hp.subperm, h.acyclic, fun a b => (h.conn a b).trans (Conn.perm hp)⟩

theorem run_none (n : ℕ) (es : List (Edge W)) : runKruskalCore n CLParams.none es = kruskalCore n es :=
  rfl

theorem any_nonempty_iff {n : ℕ} {rows : ℕ → List ℕ} :
    (List.range n).any (fun i => ¬ (rows i).isEmpty) = true ↔ ∃ x y, CLRel n rows x y := by
  simp only [List.any_eq_true, List.mem_range, decide_eq_true_eq]
  constructor
  · rintro ⟨i, hi, h⟩
    cases hr : rows i with
    | nil => simp [hr] at h
    | cons y l => exact ⟨i, y, hi, by simp [hr]⟩
  · rintro ⟨x, y, hx, hy⟩
    refine ⟨x, hx, ?_⟩
    cases hr : rows x with
    | nil => simp [hr] at hy
    | cons => simp

/-- Pairwise constraints: the dispatcher behaves greedily. -/
theorem run_pairwise_inv {n : ℕ} {rows : ℕ → List ℕ}
    (hsym : ∀ x y, CLRel n rows x y → CLRel n rows y x) {es : List (Edge W)} (hr : InRange n es) :
    KInv n (CLRel n rows) es (runKruskalCore n ⟨some rows, none, 0⟩ es) := by
  unfold runKruskalCore
  simp only
  split
  · exact (constrainedCore_inv hsym hr).base
  · rename_i h
    rw [any_nonempty_iff] at h
    have := kruskalCore_inv hr
    refine ⟨this.greedy.congr fun x y _ => ?_, this.rep⟩
    simp only [false_iff]
    exact fun hc => h ⟨x, y, hc⟩

theorem foldl_max_ge (f : ℕ → ℕ) (l : List ℕ) (m : ℕ) :
    m ≤ l.foldl (fun m i => max m (f i)) m ∧ ∀ i ∈ l, f i ≤ l.foldl (fun m i => max m (f i)) m := by
  induction l generalizing m with
  | nil => simp
  | cons a l ih =>
    simp only [List.foldl_cons, List.mem_cons]
    obtain ⟨h1, h2⟩ := ih (max m (f a))
    refine ⟨by omega, ?_⟩
    rintro i (rfl | hi)
    · omega
    · exact h2 i hi

theorem foldl_max_zero (f : ℕ → ℕ) (l : List ℕ) (h : ∀ i ∈ l, f i = 0) :
    l.foldl (fun m i => max m (f i)) 0 = 0 := by
  induction l with
  | nil => rfl
  | cons a l ih =>
    simp only [List.foldl_cons]
    rw [h a (by simp)]
    exact ih fun i hi => h i (by simp [hi])

/-- Group constraints: the dispatcher behaves greedily. -/
theorem run_groups_inv {n : ℕ} {g : ℕ → ℤ} {es : List (Edge W)} (hr : InRange n es) :
    KInv n (GroupRel n g) es (runKruskalCore n
      ⟨none, some g, (List.range n).foldl (fun m i => max m (g i + 1).toNat) 0⟩ es) := by
  unfold runKruskalCore
  simp only
  have hge := (foldl_max_ge (fun i => (g i + 1).toNat) (List.range n) 0).2
  split
  · refine (groupCore_inv (fun x hx => ?_) hr).base
    have := hge x (List.mem_range.2 hx)
    omega
  · rename_i h
    have := kruskalCore_inv hr
    refine ⟨this.greedy.congr fun x y _ => ?_, this.rep⟩
    simp only [false_iff]
    rintro ⟨hx, _, h0, _⟩
    have := hge x (List.mem_range.2 hx)
    omega

theorem validateGroups_ok {n len : ℕ} {g : ℕ → ℤ} {r : (ℕ → ℤ) × ℕ}
    (h : validateGroups n len g = .ok r) :
    len = n ∧ (∀ i < n, -1 ≤ g i) ∧
      r = (g, (List.range n).foldl (fun m i => max m (g i + 1).toNat) 0) := by
  unfold validateGroups at h
  split at h
  · cases h
  · rename_i h1
    split at h
    · cases h
    · rename_i h2
      refine ⟨by simpa using h1, ?_, ?_⟩
      · intro i hi
        simp only [List.any_eq_true, List.mem_range, decide_eq_true_eq, not_exists, not_and, not_lt] at h2
        exact h2 i hi
      · cases h; rfl

theorem resolve_groups_ok {V : Type*} [AddCommMonoid V] [DecidableEq V] {n len : ℕ} {v : Bool}
    {g : ℕ → ℤ} {cl : CLParams}
    (h : resolveCL (V := V) n none v (some (len, g)) = .ok cl) :
    cl = ⟨none, some g, (List.range n).foldl (fun m i => max m (g i + 1).toNat) 0⟩ := by
  unfold resolveCL at h
  simp only at h
  split at h
  · rename_i r hr
    obtain ⟨_, _, rfl⟩ := validateGroups_ok hr
    cases h; rfl
  · cases h

theorem resolve_pairwise_ok {V : Type*} [AddCommMonoid V] [DecidableEq V] {n : ℕ}
    {m : SparseCL V} {cl : CLParams}
    (h : resolveCL n (some m) true none = .ok cl) :
    m.isSparse = true ∧ m.rows = n ∧ m.cols = n ∧
      cl = ⟨some fun i => (List.range n).filter fun j => m.val i j + m.val j i ≠ 0, none, 0⟩ := by
  unfold resolveCL validateCL at h
  simp only [not_true_eq_false, if_false] at h
  split at h
  · rename_i rows hr
    split at hr
    · cases hr
    · rename_i h1
      split at hr
      · cases hr
      · rename_i h2
        cases hr; cases h
        simp only [not_not] at h1 h2
        exact ⟨by simpa using h1, h2.1, h2.2, rfl⟩
  · cases h

end Verif
