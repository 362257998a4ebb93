import Verif.Model.Kruskal
import Verif.Lemmas.UnionFind
import Verif.Lemmas.Greedy

namespace Verif
variable {W : Type*}

theorem chaseRoot_eq (f : ℕ) (p : ℕ → ℕ) (x : ℕ) : chaseRoot f p x = chase p f x := by
  induction f generalizing x with
  | zero => rfl
  | succ f ih => unfold chaseRoot chase; rw [ih]

theorem chaseRoot_root (n : ℕ) (p : ℕ → ℕ) (x : ℕ) : chaseRoot n p x = root n p x :=
  chaseRoot_eq n p x

theorem compressPath_spec {n : ℕ} (f : ℕ) {p : ℕ → ℕ} (hp : PForest n p) (c : ℕ) :
    PForest n (compressPath f p (root n p c) c) ∧
      ∀ y, root n (compressPath f p (root n p c) c) y = root n p y := by
  induction f generalizing p c with
  | zero => exact ⟨hp, fun _ => rfl⟩
  | succ f ih =>
    unfold compressPath
    split
    · obtain ⟨h1, h2⟩ := hp.compress c
      have h3 : root n p c = root n (Function.update p c (root n p c)) (p c) := by
        rw [h2, hp.root_parent]
      obtain ⟨h4, h5⟩ := ih h1 (p c)
      rw [← h3] at h4 h5
      exact ⟨h4, fun y => by rw [h5, h2]⟩
    · exact ⟨hp, fun _ => rfl⟩

theorem findCompress_spec {n : ℕ} {p : ℕ → ℕ} (hp : PForest n p) (x : ℕ) :
    (findCompress n p x).2 = root n p x ∧ PForest n (findCompress n p x).1 ∧
      ∀ y, root n (findCompress n p x).1 y = root n p y := by
  unfold findCompress
  simp only [chaseRoot_root, true_and]
  exact compressPath_spec n hp x

theorem unionRank_spec (rank : ℕ → ℕ) (ru rv : ℕ) :
    ((unionRank rank ru rv).1 = ru ∧ (unionRank rank ru rv).2.1 = rv) ∨
      ((unionRank rank ru rv).1 = rv ∧ (unionRank rank ru rv).2.1 = ru) := by
  unfold unionRank
  split
  · exact Or.inl ⟨rfl, rfl⟩
  · split
    · exact Or.inr ⟨rfl, rfl⟩
    · exact Or.inl ⟨rfl, rfl⟩

/-- Two successive finds. -/
theorem find_two {n : ℕ} {p : ℕ → ℕ} {acc : List (Edge W)} (hr : Represents n p acc) (u v : ℕ) :
    let fu := findCompress n p u
    let fv := findCompress n fu.1 v
    Represents n fv.1 acc ∧ fu.2 = root n fv.1 u ∧ fv.2 = root n fv.1 v := by
  intro fu fv
  obtain ⟨h1, h2, h3⟩ := findCompress_spec hr.forest u
  obtain ⟨h4, h5, h6⟩ := findCompress_spec h2 v
  refine ⟨(hr.of_root_eq h2 h3).of_root_eq h5 h6, ?_, ?_⟩
  · rw [h6, h3, ← h1]
  · rw [h6, ← h4]

/-- The invariant of all three loops. -/
structure KInv (n : ℕ) (cl : ℕ → ℕ → Prop) (es : List (Edge W)) (s : KState W) : Prop where
  greedy : Greedy cl es s.mst
  rep : Represents n s.pred s.mst

/-- Once `n - 1` edges are taken, nothing more is permitted. -/
theorem not_permitted_of_full {n : ℕ} {cl : ℕ → ℕ → Prop} {es acc : List (Edge W)}
    (hg : Greedy cl es acc) (hr : InRange n acc) (hl : acc.length = n - 1) {e : Edge W}
    (hu : e.u < n) (hv : e.v < n) : ¬ Permitted cl acc e := by
  intro hp
  have h1 := hg.acyclic.length_add_compCount hr
  have : compCount n acc ≤ 1 := by omega
  exact hp.1 (conn_of_compCount_le_one this hu hv)

theorem KInv.init (n : ℕ) (cl : ℕ → ℕ → Prop) :
    KInv n cl ([] : List (Edge W)) ⟨fun x => x, fun _ => 0, []⟩ :=
  ⟨Greedy.nil, Represents.id n⟩

theorem kruskalStep_inv {n : ℕ} {es : List (Edge W)} {s : KState W} {e : Edge W}
    (h : KInv n (fun _ _ => False) es s) (hu : e.u < n) (hv : e.v < n) :
    KInv n (fun _ _ => False) (es ++ [e]) (kruskalStep n s e) := by
  unfold kruskalStep
  split
  · rename_i hl
    exact ⟨Greedy.skip h.greedy (not_permitted_of_full h.greedy h.rep.inRange hl hu hv), h.rep⟩
  · split
    · rename_i heq
      refine ⟨Greedy.skip h.greedy fun hp => hp.1 ?_, h.rep⟩
      rw [heq]; exact Conn.refl _ _
    · obtain ⟨hrep, hru, hrv⟩ := find_two h.rep e.u e.v
      simp only
      split
      · rename_i hne
        rw [hru, hrv] at hne
        refine ⟨Greedy.take h.greedy ⟨fun hc => hne ((hrep.conn _ _).2 hc), fun _ _ _ _ h => h⟩, ?_⟩
        apply hrep.link hu hv hne
        have := unionRank_spec s.rank (findCompress n s.pred e.u).2
          (findCompress n (findCompress n s.pred e.u).1 e.v).2
        rw [← hru, ← hrv]
        exact this
      · rename_i hne
        push Not at hne
        rw [hru, hrv] at hne
        exact ⟨Greedy.skip h.greedy fun hp => hp.1 ((hrep.conn _ _).1 hne), hrep⟩

theorem kruskalCore_inv {n : ℕ} {es : List (Edge W)} (hr : InRange n es) :
    KInv n (fun _ _ => False) es (kruskalCore n es) := by
  induction es using List.reverseRecOn with
  | nil => exact KInv.init n _
  | append_singleton es e ih =>
    have hr' : InRange n es := fun x hx => hr x (by simp [hx])
    have he := hr e (by simp)
    have := kruskalStep_inv (ih hr') he.1 he.2
    unfold kruskalCore at this ⊢
    rw [List.foldl_append]
    exact this

theorem componentLabel_eq {n : ℕ} {p : ℕ → ℕ} (hp : PForest n p) (i : ℕ) :
    componentLabel n p i = root n p i := by
  unfold componentLabel
  rw [chaseRoot_root, hp.root_parent]

end Verif
