import Verif.Lemmas.DisjointSet

/-!
# Properties C10, C11: disjoint sets
-/

namespace Verif

/-- **C10**, union by rank. After any sequence of calls, two elements have the same representative exactly when a
chain of performed unions links them; a find ends at an element that is its own parent, and finding leaves the structure
unchanged. -/
theorem C10_rank_closure (n : ℕ) (ops : List DSOp) (hr : OpsInRange n ops) :
    let d := dsRankRun n ops
    (∀ x y, (dsFind n d.parent x).2 = (dsFind n d.parent y).2 ↔ Conn (opEdges ops) x y) ∧
    (∀ x, d.parent (dsFind n d.parent x).2 = (dsFind n d.parent x).2) ∧
    (∀ x, (dsFind n d.parent x).1 = d.parent) := by
  intro d
  have h := dsRankRun_inv hr
  simp only [dsFind_eq]
  exact ⟨h.rep.conn, h.rep.forest.root_fixed, fun _ => trivial⟩

/-- **C10**, union by size, including the size kept at representatives. -/
theorem C10_size_closure (n : ℕ) (ops : List DSOp) (hr : OpsInRange n ops) :
    let d := dsSizeRun n ops
    (∀ x y, (dsFind n d.parent x).2 = (dsFind n d.parent y).2 ↔ Conn (opEdges ops) x y) ∧
    (∀ x, d.parent (dsFind n d.parent x).2 = (dsFind n d.parent x).2) ∧
    (∀ x < n, ∀ s : Finset ℕ, (∀ y, y ∈ s ↔ y < n ∧ Conn (opEdges ops) y x) →
      d.size (dsFind n d.parent x).2 = s.card) := by
  intro d
  have h := dsSizeRun_inv hr
  simp only [dsFind_eq]
  refine ⟨h.rep.conn, h.rep.forest.root_fixed, fun x hx s hs => ?_⟩
  rw [h.size _ (h.rep.forest.root_lt hx) (h.rep.forest.root_fixed x)]
  unfold classSize
  congr 1
  ext y
  rw [hs, Finset.mem_filter, Finset.mem_range, h.rep.conn]

example : OpsInRange 5 [.union 0 1, .union 2 3, .find 3, .union 1 3, .union 0 2] := by
  intro op hop
  simp only [List.mem_cons, List.not_mem_nil, or_false] at hop
  rcases hop with rfl | rfl | rfl | rfl | rfl <;> simp
example : (dsSizeRun 5 [.union 0 1, .union 2 3, .find 3, .union 1 3, .union 0 2]).size 0 = 4 := by decide
example : (dsFind 5 (dsRankRun 5 [.union 0 1, .union 2 3, .find 3, .union 1 3]).parent 3).2 = 0 := by decide

/-! ## C11 -/

/-- **C11**, depth: after any sequence of unions by rank, at most `log2 n` parent steps lead from any element to its
representative. -/
theorem C11_find_depth (n : ℕ) (ops : List DSOp) (hr : OpsInRange n ops) (x : ℕ) (hx : x < n) :
    let p := (dsRankRun n ops).parent
    ∃ k, k ≤ Nat.log 2 n ∧ p^[k] x = (dsFind n p x).2 ∧ p (p^[k] x) = p^[k] x := by
  intro p
  have h := dsRankRun_inv hr
  have hex : ∃ k, p (p^[k] x) = p^[k] x := by
    obtain ⟨k, _, hk⟩ := chase_iterate p n x
    exact ⟨k, by rw [hk]; exact h.rep.forest.root_fixed x⟩
  classical
  refine ⟨Nat.find hex, h.steps_le hx fun i hi => Nat.find_min hex hi, ?_, Nat.find_spec hex⟩
  rw [dsFind_eq]
  show _ = root n p x
  rw [← h.rep.forest.root_iterate x (Nat.find hex)]
  exact (h.rep.forest.root_of_fixed (Nat.find_spec hex)).symm

/-- Where a thread is, relative to its argument `x₀`, after `j` completed loop iterations and `k` steps. -/
def ThreadInv (p : ℕ → ℕ) (x₀ : ℕ) (k : ℕ) (t : FindThread) : Prop :=
  ∃ j, (∀ i < j, p (p^[i] x₀) ≠ p^[i] x₀) ∧
    match t.pc with
    | .test => t.x = p^[j] x₀ ∧ k = 5 * j
    | .read1 => t.x = p^[j] x₀ ∧ p t.x ≠ t.x ∧ k = 5 * j + 1
    | .read2 a => t.x = p^[j] x₀ ∧ p t.x ≠ t.x ∧ a = p t.x ∧ k = 5 * j + 2
    | .read3 a b => t.x = p^[j] x₀ ∧ p t.x ≠ t.x ∧ a = p t.x ∧ b = p t.x ∧ k = 5 * j + 3
    | .write a c => p (p^[j] x₀) ≠ p^[j] x₀ ∧ t.x = p (p^[j] x₀) ∧ a = t.x ∧ c = p a ∧ k = 5 * j + 4
    | .done => t.x = p^[j] x₀ ∧ p t.x = t.x ∧ 5 * j + 1 ≤ k

theorem ThreadInv.step {p : ℕ → ℕ} {x₀ k : ℕ} {t : FindThread} (h : ThreadInv p x₀ k t) :
    (t.step p).1 = p ∧ ThreadInv p x₀ (k + 1) (t.step p).2 := by
  obtain ⟨j, hj, h⟩ := h
  obtain ⟨x, pc⟩ := t
  cases pc with
  | test =>
    obtain ⟨h1, h2⟩ := h
    simp only at h1
    by_cases hne : p x = x
    · simp only [FindThread.step, hne, ne_eq, not_true_eq_false, if_false]
      exact ⟨trivial, j, hj, h1, hne, by omega⟩
    · simp only [FindThread.step, hne, ne_eq, not_false_eq_true, if_true]
      exact ⟨trivial, j, hj, h1, hne, by omega⟩
  | read1 =>
    obtain ⟨h1, h2, h3⟩ := h
    exact ⟨rfl, j, hj, h1, h2, rfl, by omega⟩
  | read2 a =>
    obtain ⟨h1, h2, h3, h4⟩ := h
    exact ⟨rfl, j, hj, h1, h2, h3, rfl, by omega⟩
  | read3 a b =>
    obtain ⟨h1, h2, h3, h4, h5⟩ := h
    simp only at h1 h2 h3 h4
    refine ⟨rfl, j, hj, ?_⟩
    simp only [FindThread.step]
    rw [← h1]
    exact ⟨h2, h3, trivial, by rw [h4, h3], by omega⟩
  | write a c =>
    obtain ⟨h1, h2, h3, h4, h5⟩ := h
    simp only at h2 h3 h4
    refine ⟨?_, j + 1, ?_, ?_⟩
    · simp only [FindThread.step]
      rw [h4, Function.update_eq_self]
    · intro i hi
      rcases Nat.lt_succ_iff_lt_or_eq.1 hi with hi | rfl
      · exact hj i hi
      · exact h1
    · simp only [FindThread.step]
      exact ⟨by rw [Function.iterate_succ_apply']; exact h2, by omega⟩
  | done =>
    obtain ⟨h1, h2, h3⟩ := h
    exact ⟨rfl, j, hj, h1, h2, by omega⟩

theorem concurrent_inv (p : ℕ → ℕ) (args : ℕ → ℕ) (sched : List ℕ) :
    ((FindState.start p args).run sched).parent = p ∧
      ∀ i, ThreadInv p (args i) (sched.count i) (((FindState.start p args).run sched).threads i) := by
  induction sched using List.reverseRecOn with
  | nil => exact ⟨rfl, fun i => ⟨0, by simp, by simp [FindState.run, FindState.start]⟩⟩
  | append_singleton sched m ih =>
    unfold FindState.run at *
    rw [List.foldl_append]
    obtain ⟨h1, h2⟩ := ih
    generalize List.foldl FindState.step (FindState.start p args) sched = s at h1 h2
    simp only [List.foldl_cons, List.foldl_nil, FindState.step]
    obtain ⟨h3, h4⟩ := (h2 m).step
    rw [h1]
    refine ⟨h3, fun i => ?_⟩
    by_cases hi : i = m
    · subst hi
      rw [Function.update_self, List.count_append, List.count_singleton_self]
      exact h4
    · rw [Function.update_of_ne hi, List.count_append, List.count_singleton]
      simpa [Ne.symm hi] using h2 i

/-- **C11**, concurrency: for every schedule of the atomic reads and writes of any number of simultaneous finds, the
parent array keeps its contents throughout, and a thread that has finished returns the representative of its argument. -/
theorem C11_concurrent_finds (n : ℕ) (ops : List DSOp) (hr : OpsInRange n ops) (args : ℕ → ℕ)
    (sched : List ℕ) :
    let p := (dsRankRun n ops).parent
    let s := (FindState.start p args).run sched
    s.parent = p ∧ ∀ i, (s.threads i).pc = .done → (s.threads i).x = (dsFind n p (args i)).2 := by
  intro p s
  obtain ⟨h1, h2⟩ := concurrent_inv p args sched
  have h := dsRankRun_inv hr
  refine ⟨h1, fun i hd => ?_⟩
  obtain ⟨j, _, h3⟩ := h2 i
  change (s.threads i).pc = .done at hd
  change (match (s.threads i).pc with
    | .test => _ | .read1 => _ | .read2 a => _ | .read3 a b => _ | .write a c => _ | .done => _) at h3
  rw [hd] at h3
  obtain ⟨h4, h5, _⟩ := h3
  change (s.threads i).x = _ at h4
  change p (s.threads i).x = (s.threads i).x at h5
  rw [dsFind_eq]
  show _ = root n p (args i)
  rw [← h.rep.forest.root_iterate (args i) j, ← h4]
  exact (h.rep.forest.root_of_fixed h5).symm

/-- **C11**, progress: a thread that has been scheduled more than `5 * log2 n` times has finished, whatever the other
threads did in between. -/
theorem C11_concurrent_finds_finish (n : ℕ) (ops : List DSOp) (hr : OpsInRange n ops) (args : ℕ → ℕ)
    (sched : List ℕ) (i : ℕ) (hi : args i < n) (hc : 5 * Nat.log 2 n < sched.count i) :
    (((FindState.start (dsRankRun n ops).parent args).run sched).threads i).pc = .done := by
  obtain ⟨h1, h2⟩ := concurrent_inv (dsRankRun n ops).parent args sched
  have h := dsRankRun_inv hr
  obtain ⟨j, hj, h3⟩ := h2 i
  have hle := h.steps_le hi hj
  have hle' : (dsRankRun n ops).parent ((dsRankRun n ops).parent^[j] (args i)) ≠
      (dsRankRun n ops).parent^[j] (args i) → j + 1 ≤ Nat.log 2 n := by
    intro hne
    apply h.steps_le hi
    intro k hk
    rcases Nat.lt_succ_iff_lt_or_eq.1 hk with hk | rfl
    · exact hj k hk
    · exact hne
  generalize hst : ((FindState.start (dsRankRun n ops).parent args).run sched).threads i = t at h3
  obtain ⟨x, pc⟩ := t
  cases pc with
  | done => rfl
  | test => obtain ⟨_, h4⟩ := h3; omega
  | read1 =>
    obtain ⟨h5, h6, h4⟩ := h3
    simp only at h5 h6; rw [h5] at h6
    have := hle' h6; omega
  | read2 a =>
    obtain ⟨h5, h6, _, h4⟩ := h3
    simp only at h5 h6; rw [h5] at h6
    have := hle' h6; omega
  | read3 a b =>
    obtain ⟨h5, h6, _, _, h4⟩ := h3
    simp only at h5 h6; rw [h5] at h6
    have := hle' h6; omega
  | write a c =>
    obtain ⟨h6, _, _, _, h4⟩ := h3
    have := hle' h6; omega

/-- Two threads, both looking for the representative of 1, interleaved; both get 0. -/
example : let p := (dsRankRun 2 [.union 0 1]).parent
    let s := (FindState.start p (fun _ => 1)).run [0, 1, 1, 0, 0, 1, 1, 0, 0, 1, 1, 0]
    (s.threads 0).x = 0 ∧ (s.threads 1).x = 0 := by
  decide +kernel

end Verif
