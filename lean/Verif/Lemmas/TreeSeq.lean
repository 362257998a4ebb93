import Verif.Lemmas.TreeExists

/-!
# Threads running one after the other

An executable schedule, used for counterexamples.
-/

namespace Verif
variable {R W α : Type*} [LinearOrder W] [OrderTop W]

/-- A thread run without interruption; the second component is the history of its slot. -/
def runProg : QProg W α → List W → α × List W
  | .ret a, h => (a, h)
  | .read k, h => runProg (k (h.headD ⊤)) h
  | .write w k, h => runProg k (w :: h)

/-- The threads `is` one after the other, with the results so far and the histories. -/
def runSeq (prog : ℕ → QProg W α) (slot : ℕ → ℕ) : List ℕ → (ℕ → Option α) × (ℕ → List W) → (ℕ → Option α) × (ℕ → List W)
  | [], s => s
  | i :: is, s =>
    let r := runProg (prog i) (s.2 (slot i))
    runSeq prog slot is (Function.update s.1 i (some r.1), Function.update s.2 (slot i) r.2)

theorem runProg_steps {slot : ℕ → ℕ} {lo hi i : ℕ} (h1 : lo ≤ i) (h2 : i < hi) (p : QProg W α) (c : QConfig W α) (hp : c.prog i = p) :
    Relation.ReflTransGen (QStep lastVis slot lo hi) c
      ⟨Function.update c.prog i (.ret (runProg p (c.hist (slot i))).1), Function.update c.hist (slot i) (runProg p (c.hist (slot i))).2⟩ := by
  induction p generalizing c with
  | ret a =>
    have : (⟨Function.update c.prog i (.ret (runProg (.ret a : QProg W α) (c.hist (slot i))).1),
        Function.update c.hist (slot i) (runProg (.ret a : QProg W α) (c.hist (slot i))).2⟩ : QConfig W α) = c := by
      simp only [runProg]
      rw [← hp, Function.update_eq_self, Function.update_eq_self]
    rw [this]
  | read k ih =>
    have := ih ((c.hist (slot i)).headD ⊤) ⟨Function.update c.prog i (k ((c.hist (slot i)).headD ⊤)), c.hist⟩ (Function.update_self ..)
    refine Relation.ReflTransGen.head (QStep.read c i k _ h1 h2 hp rfl) ?_
    rw [Function.update_idem] at this
    exact this
  | write w k ih =>
    have := ih ⟨Function.update c.prog i k, Function.update c.hist (slot i) (w :: c.hist (slot i))⟩ (Function.update_self ..)
    refine Relation.ReflTransGen.head (QStep.write c i w k h1 h2 hp) ?_
    simp only [Function.update_idem, Function.update_self] at this
    exact this

theorem runSeq_steps {slot : ℕ → ℕ} {lo hi : ℕ} (prog : ℕ → QProg W α) (is : List ℕ) (his : ∀ i ∈ is, lo ≤ i ∧ i < hi) (hnd : is.Nodup)
    (c : QConfig W α) (hc : ∀ i ∈ is, c.prog i = prog i) (res : ℕ → Option α)
    (hres : ∀ i, lo ≤ i → i < hi → i ∉ is → ∃ a, res i = some a ∧ c.prog i = .ret a) :
    ∃ c', Relation.ReflTransGen (QStep lastVis slot lo hi) c c' ∧ c'.hist = (runSeq prog slot is (res, c.hist)).2 ∧
      ∀ i, lo ≤ i → i < hi → ∃ a, (runSeq prog slot is (res, c.hist)).1 i = some a ∧ c'.prog i = .ret a := by
  induction is generalizing c res with
  | nil => exact ⟨c, Relation.ReflTransGen.refl, rfl, fun i h1 h2 => hres i h1 h2 (by simp)⟩
  | cons i is ih =>
    obtain ⟨hi1, hi2⟩ := his i (by simp)
    have hs := runProg_steps (slot := slot) hi1 hi2 (prog i) c (hc i (by simp))
    have hni : i ∉ is := (List.nodup_cons.1 hnd).1
    obtain ⟨c', s', e', r'⟩ := ih (fun j hj => his j (by simp [hj])) (List.nodup_cons.1 hnd).2
      ⟨Function.update c.prog i (.ret (runProg (prog i) (c.hist (slot i))).1),
        Function.update c.hist (slot i) (runProg (prog i) (c.hist (slot i))).2⟩
      (fun j hj => by
        have : j ≠ i := fun e => hni (e ▸ hj)
        simp only
        rw [Function.update_of_ne this]
        exact hc j (by simp [hj]))
      (Function.update res i (some (runProg (prog i) (c.hist (slot i))).1))
      (fun j h1 h2 h3 => by
        by_cases hj : j = i
        · subst hj
          exact ⟨_, Function.update_self .., Function.update_self ..⟩
        · simp only
          rw [Function.update_of_ne hj, Function.update_of_ne hj]
          exact hres j h1 h2 (by simp [hj, h3]))
    exact ⟨c', hs.trans s', e', r'⟩

/-- The result of the query when the threads run one after the other in the order `is`. -/
theorem queryResult_seq [LinearOrder R] (x : QCtx R W) (n : ℕ) (is : List ℕ) (his : is.Perm (List.range n)) (cand : ℕ → W × Option ℕ)
    (hcand : ∀ i < n, (runSeq (pointProg x) x.comp is (fun _ => none, fun _ => [])).1 i = some (cand i)) : QueryResult lastVis x n cand := by
  obtain ⟨c', s, _, r⟩ := runSeq_steps (slot := x.comp) (lo := 0) (hi := n) (pointProg x) is (fun i hi => by simpa using his.mem_iff.1 hi)
    (his.nodup_iff.2 List.nodup_range) ⟨pointProg x, fun _ => []⟩ (fun _ _ => rfl) (fun _ => none)
    (fun i _ h2 h3 => absurd (his.mem_iff.2 (by simpa using h2)) h3)
  refine ⟨c', ⟨s, fun i h1 h2 => ?_⟩, fun i hi => ?_⟩
  · obtain ⟨a, _, h⟩ := r i h1 h2
    exact ⟨a, h⟩
  · obtain ⟨a, h1, h2⟩ := r i (Nat.zero_le _) hi
    rw [hcand i hi] at h1
    cases h1
    exact h2

/-- The same for `reproducible=True` when all points fit in one block. -/
theorem reproResult_seq [LinearOrder R] (x : QCtx R W) (n size : ℕ) (hn : 0 < n) (hsize : n ≤ size) (is : List ℕ)
    (his : is.Perm (List.range n)) (cand : ℕ → W × Option ℕ)
    (hcand : ∀ i < n, ((runSeq (reproProg x) x.comp is (fun _ => none, fun _ => [])).1 i).map Prod.fst = some (cand i)) :
    ReproResult lastVis x n size cand := by
  obtain ⟨c', s, _, r⟩ := runSeq_steps (slot := x.comp) (lo := 0) (hi := n) (reproProg x) is (fun i hi => by simpa using his.mem_iff.1 hi)
    (his.nodup_iff.2 List.nodup_range) ⟨reproProg x, fun _ => []⟩ (fun _ _ => rfl) (fun _ => none)
    (fun i _ h2 h3 => absurd (his.mem_iff.2 (by simpa using h2)) h3)
  set res := (runSeq (reproProg x) x.comp is (fun _ => none, fun _ => [])).1 with hr
  obtain ⟨h', hp⟩ := exists_publish x.comp (fun i => ((res i).getD ((⊤, none), ⊤)).2)
    (List.range' 0 (min (0 + size) n - 0)) c'.hist
  have hmin : min (0 + size) n = n := by rw [Nat.zero_add]; exact min_eq_right hsize
  refine ⟨⟨c'.prog, h'⟩, Blocks.block 0 _ c' _ (fun i => (res i).getD ((⊤, none), ⊤)) h' hn ⟨?_, ?_⟩ ?_ hp
    (Blocks.done _ _ (by omega)), fun i hi => ?_⟩
  · rw [hmin]; exact s
  · intro i h1 h2
    obtain ⟨a, _, h⟩ := r i h1 (by omega)
    exact ⟨a, h⟩
  · intro i h1 h2
    obtain ⟨a, ha, h⟩ := r i h1 (by omega)
    rw [ha]; exact h
  · obtain ⟨a, h1, h2⟩ := r i (Nat.zero_le _) hi
    have := hcand i hi
    rw [h1] at this
    simp only [Option.map_some, Option.some.injEq] at this
    exact ⟨a.2, by rw [← this]; exact h2⟩

end Verif
