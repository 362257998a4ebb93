import Verif.Lemmas.TreeBoruvka

/-!
# The tree-based Borůvka routine always gives a result
-/

namespace Verif
variable {R W α : Type*} [LinearOrder W] [OrderTop W]

/-- One thread can run to its end. -/
theorem run_thread {slot : ℕ → ℕ} {lo hi i : ℕ} (h1 : lo ≤ i) (h2 : i < hi) (p : QProg W α) (c : QConfig W α) (hp : c.prog i = p) :
    ∃ c' a, Relation.ReflTransGen (QStep lastVis slot lo hi) c c' ∧ c'.prog i = .ret a ∧ ∀ j, j ≠ i → c'.prog j = c.prog j := by
  induction p generalizing c with
  | ret a => exact ⟨c, a, Relation.ReflTransGen.refl, hp, fun _ _ => rfl⟩
  | read k ih =>
    obtain ⟨c', a, s, r, o⟩ := ih ((c.hist (slot i)).headD ⊤)
      ⟨Function.update c.prog i (k ((c.hist (slot i)).headD ⊤)), c.hist⟩ (Function.update_self ..)
    refine ⟨c', a, Relation.ReflTransGen.head (QStep.read c i k _ h1 h2 hp rfl) s, r, fun j hj => ?_⟩
    rw [o j hj]; exact Function.update_of_ne hj _ _
  | write w k ih =>
    obtain ⟨c', a, s, r, o⟩ := ih ⟨Function.update c.prog i k, Function.update c.hist (slot i) (w :: c.hist (slot i))⟩
      (Function.update_self ..)
    refine ⟨c', a, Relation.ReflTransGen.head (QStep.write c i w k h1 h2 hp) s, r, fun j hj => ?_⟩
    rw [o j hj]; exact Function.update_of_ne hj _ _

theorem exists_phase (slot : ℕ → ℕ) (lo hi : ℕ) (c : QConfig W α) :
    ∃ c', QPhase lastVis slot lo hi c c' ∧ ∀ j, (j < lo ∨ hi ≤ j) → c'.prog j = c.prog j := by
  have main : ∀ m, lo + m ≤ hi → ∃ c', Relation.ReflTransGen (QStep lastVis slot lo hi) c c' ∧
      (∀ i, lo ≤ i → i < lo + m → ∃ a, c'.prog i = .ret a) ∧ ∀ j, (j < lo ∨ lo + m ≤ j) → c'.prog j = c.prog j := by
    intro m
    induction m with
    | zero => intro _; exact ⟨c, Relation.ReflTransGen.refl, fun i h1 h2 => by omega, fun _ _ => rfl⟩
    | succ m ih =>
      intro hm
      obtain ⟨c1, s1, r1, o1⟩ := ih (by omega)
      obtain ⟨c2, a, s2, r2, o2⟩ := run_thread (slot := slot) (lo := lo) (hi := hi) (i := lo + m) (by omega) (by omega) _ c1 rfl
      refine ⟨c2, s1.trans s2, fun i h1 h2 => ?_, fun j hj => ?_⟩
      · by_cases hi' : i = lo + m
        · subst hi'; exact ⟨a, r2⟩
        · rw [o2 i hi']; exact r1 i h1 (by omega)
      · rw [o2 j (by omega)]; exact o1 j (by omega)
  rcases Nat.lt_or_ge lo hi with h | h
  · obtain ⟨c', s, r, o⟩ := main (hi - lo) (by omega)
    exact ⟨c', ⟨s, fun i h1 h2 => r i h1 (by omega)⟩, fun j hj => o j (by omega)⟩
  · exact ⟨c, ⟨Relation.ReflTransGen.refl, fun i h1 h2 => by omega⟩, fun _ _ => rfl⟩

theorem exists_publish (slot : ℕ → ℕ) (b : ℕ → W) (is : List ℕ) (h : ℕ → List W) : ∃ h', Publish lastVis slot b is h h' := by
  induction is generalizing h with
  | nil => exact ⟨h, Publish.nil h⟩
  | cons i is ih =>
    by_cases hb : b i < (h (slot i)).headD ⊤
    · obtain ⟨h', hp⟩ := ih (Function.update h (slot i) (b i :: h (slot i)))
      exact ⟨h', Publish.lower i is h h' _ rfl hb hp⟩
    · obtain ⟨h', hp⟩ := ih h
      exact ⟨h', Publish.keep i is h h' _ rfl hb hp⟩

theorem exists_blocks (slot : ℕ → ℕ) (n size : ℕ) (hs : 0 < size) (start : ℕ) (c : QConfig W ((W × Option ℕ) × W))
    (hdone : ∀ i < start, i < n → ∃ a, c.prog i = .ret a) :
    ∃ c', Blocks lastVis slot n size start c c' ∧ ∀ i < n, ∃ a, c'.prog i = .ret a := by
  have key : ∀ (k : ℕ) (start : ℕ) (c : QConfig W ((W × Option ℕ) × W)), n ≤ start + k → (∀ i < start, i < n → ∃ a, c.prog i = .ret a) →
      ∃ c', Blocks lastVis slot n size start c c' ∧ ∀ i < n, ∃ a, c'.prog i = .ret a := by
    intro k
    induction k with
    | zero => intro start c hk hd; exact ⟨c, Blocks.done start c (by omega), fun i hi => hd i (by omega) hi⟩
    | succ k ih =>
      intro start c hk hd
      by_cases hlt : start < n
      · obtain ⟨c1, hph, ho⟩ := exists_phase slot start (min (start + size) n) c
        classical
        have hret : ∀ i, ∃ a, start ≤ i → i < min (start + size) n → c1.prog i = .ret a := by
          intro i
          by_cases hi : start ≤ i ∧ i < min (start + size) n
          · obtain ⟨a, ha⟩ := hph.2 i hi.1 hi.2
            exact ⟨a, fun _ _ => ha⟩
          · exact ⟨((⊤, none), ⊤), fun h1 h2 => absurd ⟨h1, h2⟩ hi⟩
        choose r hr using hret
        obtain ⟨h, hpub⟩ := exists_publish slot (fun i => (r i).2) (List.range' start (min (start + size) n - start)) c1.hist
        obtain ⟨c2, hb, hall⟩ := ih (start + size) ⟨c1.prog, h⟩ (by omega) (fun i hi hin => by
          by_cases hs : start ≤ i
          · exact hph.2 i hs (lt_min hi hin)
          · simp only
            rw [ho i (by omega)]
            exact hd i (by omega) hin)
        exact ⟨c2, Blocks.block start c c1 c2 r h hlt hph hr hpub hb, hall⟩
      · exact ⟨c, Blocks.done start c (by omega), fun i hi => hd i (by omega) hi⟩
  exact key n start c (by omega) hdone

theorem blockSize_pos (nComp n : ℕ) {threads : ℕ} (h : 0 < threads) : 0 < blockSize nComp n threads := by
  unfold blockSize
  exact lt_of_lt_of_le h (le_max_left _ _)

theorem exists_loopQuery [LinearOrder R] (ar : Arith R W) (dims : ℕ) (pts : ℕ → ℕ → R) (t : KdTree R) (nNodes n : ℕ) (core : ℕ → W)
    (repro : Option ℕ) (hrepro : ∀ th, repro = some th → 0 < th) (s : TState W) :
    ∃ cand, loopQuery lastVis ar dims pts t nNodes n core repro s cand := by
  classical
  cases repro with
  | none =>
    obtain ⟨c, hph, _⟩ := exists_phase (W := W) s.comp 0 n
      ⟨pointProg ⟨ar, dims, pts, t, nNodes, core, s.comp, s.nodeComp⟩, fun _ => []⟩
    have : ∀ i, ∃ a, i < n → c.prog i = .ret a := fun i => by
      by_cases hi : i < n
      · obtain ⟨a, ha⟩ := hph.2 i (Nat.zero_le _) hi
        exact ⟨a, fun _ => ha⟩
      · exact ⟨(⊤, none), fun h => absurd h hi⟩
    choose cand hcand using this
    exact ⟨cand, c, hph, hcand⟩
  | some th =>
    obtain ⟨c, hb, hall⟩ := exists_blocks (W := W) s.comp n (blockSize s.nComp n th) (blockSize_pos _ _ (hrepro th rfl)) 0
      ⟨reproProg ⟨ar, dims, pts, t, nNodes, core, s.comp, s.nodeComp⟩, fun _ => []⟩ (fun i hi => by omega)
    have : ∀ i, ∃ a, i < n → ∃ b, c.prog i = .ret (a, b) := fun i => by
      by_cases hi : i < n
      · obtain ⟨a, ha⟩ := hall i hi
        exact ⟨a.1, fun _ => ⟨a.2, ha⟩⟩
      · exact ⟨(⊤, none), fun h => absurd h hi⟩
    choose cand hcand using this
    exact ⟨cand, c, hb, hcand⟩

/-- There is a result: neither the queries nor the loop runs forever. -/
theorem exists_treeBoruvka [LinearOrder R] {ar : Arith R W} (ha : ar.Lawful) (rt : W → W) {dims : ℕ} {pts : ℕ → ℕ → R} {t : KdTree R}
    {nNodes n ms : ℕ} (ht : t.Valid pts dims n nNodes) (hn : 2 ≤ n) (hms : ms < n) (hbig : ms < 32768)
    (hfin : ∀ i < n, ∀ j < n, rdist ar dims (pts i) (pts j) < ⊤) (repro : Option ℕ) (hrepro : ∀ th, repro = some th → 0 < th) :
    ∃ edges core, TreeBoruvka lastVis ar rt dims pts t nNodes n ms repro edges core := by
  classical
  have hk1 : treeK ms ≤ 32768 := by unfold treeK; split <;> omega
  have hk2 : 0 < treeK ms := by unfold treeK; split <;> omega
  have hk3 : treeK ms ≤ n := by unfold treeK; split <;> omega
  have hq : ∀ i, ∃ row, treeQuery ar id dims pts t nNodes (treeK ms) (pts i) = some row := fun i => by
    obtain ⟨out, e, _⟩ := treeQuery_spec ha (rt := id) (fun _ _ h => h) dims pts ht hk1 hk2 (pts i)
    exact ⟨out, e⟩
  choose rows hrows using hq
  have hknn : ∀ i < n, KnnRow n (treeK ms) (fun q => rdist ar dims (pts i) (pts q)) (rows i) := fun i hi =>
    knnRow_of_query ha dims pts ht hk1 hk2 hk3 (pts i) (hfin i hi) (hrows i)
  set c2 := treeCore ar.zero ms rows with hc2
  have hsym := mreach_comm ha dims pts c2
  have hwfin : ∀ i < n, ∀ j < n, i ≠ j → mreach ar dims pts c2 i j < ⊤ := treeCore_finite ha hknn hfin
  have h0 : TInv t pts dims nNodes n (mreach ar dims pts c2) (treeStart t nNodes n c2 rows) :=
    treeStart_inv fun i hi e he => init_good ha dims pts hn hknn hi he
  have loop : ∀ k (s : TState W), s.nComp ≤ k → TInv t pts dims nNodes n (mreach ar dims pts c2) s →
      ∃ s', TreeLoop t nNodes n (loopQuery lastVis ar dims pts t nNodes n c2 repro) s s' := by
    intro k
    induction k with
    | zero => intro s hs _; exact ⟨s, TreeLoop.done s (by omega)⟩
    | succ k ih =>
      intro s hs hi
      by_cases h1 : 1 < s.nComp
      · obtain ⟨cand, hcand⟩ := exists_loopQuery ar dims pts t nNodes n c2 repro hrepro s
        have hex : ExactCandidates n s.comp (mreach ar dims pts c2) cand := by
          have hsound := hi.nodes.sound ht
          cases repro with
          | none =>
            obtain ⟨c, hph, hc⟩ := hcand
            exact queryResult_exact ⟨ar, dims, pts, t, nNodes, c2, s.comp, s.nodeComp⟩ ha ht hsound
              ⟨c, hph.weaken fun _ _ => lastVis_anyVis, hc⟩
          | some th =>
            obtain ⟨c, hb, hc⟩ := hcand
            exact reproResult_exact ⟨ar, dims, pts, t, nNodes, c2, s.comp, s.nodeComp⟩ ha ht hsound (size := blockSize s.nComp n th)
              ⟨c, hb.weaken fun _ _ => lastVis_anyVis, hc⟩
        obtain ⟨hi', hlt⟩ := hi.round hsym hwfin h1 hex
        obtain ⟨s', hs'⟩ := ih _ (by omega) hi'
        exact ⟨s', TreeLoop.round s s' cand h1 hcand hs'⟩
      · exact ⟨s, TreeLoop.done s h1⟩
  obtain ⟨s', hs'⟩ := loop _ _ (le_refl _) h0
  exact ⟨_, _, rows, fun i _ => hrows i, s', hs', rfl, fun i => rfl⟩

end Verif
