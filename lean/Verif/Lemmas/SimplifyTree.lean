import Verif.Lemmas.Simplify
import Verif.Spec.Simplify
import Mathlib.Algebra.Order.Group.Basic
import Mathlib.Algebra.Order.Sub.Defs

/-!
# The tree that `simplify_hierarchy` returns
-/

namespace Verif
variable {L S : Type*}

/-- Everything known after the first loop. -/
structure SimpCtx [LinearOrder L] [Sub L] (thr : L) (n k : ℕ) (rows : List (CRow L S)) (ps : List (CPair L S)) (I F : SimpState L) : Prop where
  ct : CondTree n k rows
  pl : PairList n k (rows.filter fun row => decide (n ≤ row.child)) ps
  mono : CMono rows
  fx : SimpFix thr ps I F
  leaf : ∀ c, I.leaf c = true ↔ ∀ q ∈ ps, q.p ≠ c
  init : ∀ c, n ≤ c → c < n + k → ∃ row ∈ rows, row.parent = c ∧ row.lam = I.births c

section
variable [LinearOrder L] [Sub L] {thr : L} {n k : ℕ} {rows : List (CRow L S)} {ps : List (CPair L S)} {I F : SimpState L}

theorem SimpCtx.child_pair (h : SimpCtx thr n k rows ps I F) {row : CRow L S} (hr : row ∈ rows) (hc : n ≤ row.child) :
    ∃ q ∈ ps, row = q.r1 ∨ row = q.r2 := by
  have : row ∈ rows.filter fun row => decide (n ≤ row.child) := List.mem_filter.2 ⟨hr, decide_eq_true hc⟩
  rw [h.pl.eq] at this
  obtain ⟨q, hq, hm⟩ := List.mem_flatMap.1 this
  exact ⟨q, hq, by simpa using hm⟩

theorem SimpCtx.pair_mem (h : SimpCtx thr n k rows ps I F) {q : CPair L S} (hq : q ∈ ps) : q.r1 ∈ rows ∧ q.r2 ∈ rows := by
  have h1 : ∀ r ∈ [q.r1, q.r2], r ∈ rows.filter fun row => decide (n ≤ row.child) := by
    intro r hr
    rw [h.pl.eq]; exact List.mem_flatMap.2 ⟨q, hq, hr⟩
  exact ⟨(List.mem_filter.1 (h1 q.r1 (by simp))).1, (List.mem_filter.1 (h1 q.r2 (by simp))).1⟩

theorem SimpCtx.pair_of (h : SimpCtx thr n k rows ps I F) {c : ℕ} (h1 : n < c) (h2 : c < n + k) : ∃ q ∈ ps, c = q.a ∨ c = q.a + 1 := by
  obtain ⟨row, hr, rfl⟩ := List.mem_map.1 ((h.ct.children c).2 (Or.inr ⟨h1, h2⟩))
  obtain ⟨q, hq, rfl | rfl⟩ := h.child_pair hr (by omega)
  · exact ⟨q, hq, Or.inl rfl⟩
  · exact ⟨q, hq, Or.inr rfl⟩

theorem PairList.unique_p {ct : List (CRow L S)} (h : PairList n k ct ps) {q q' : CPair L S} (hq : q ∈ ps) (hq' : q' ∈ ps) (he : q.p = q'.p) : q = q' := by
  by_contra hne
  have key := List.Pairwise.forall_of_forall_of_flip (R := fun q q' => q = q' ∨ q.p ≠ q'.p) (l := ps) (fun _ _ => Or.inl rfl)
    (h.pw.imp fun h => Or.inr h.2) (h.pw.imp fun h => Or.inr fun e => h.2 e.symm)
  rcases key hq hq' with h | h
  · exact hne h
  · exact h he

theorem PairList.unique_a {ct : List (CRow L S)} (h : PairList n k ct ps) {q q' : CPair L S} (hq : q ∈ ps) (hq' : q' ∈ ps) {c : ℕ}
    (h1 : c = q.a ∨ c = q.a + 1) (h2 : c = q'.a ∨ c = q'.a + 1) : q = q' := by
  by_contra hne
  have key := List.Pairwise.forall_of_forall_of_flip (R := fun q q' => q = q' ∨ (q.a + 1 < q'.a ∨ q'.a + 1 < q.a)) (l := ps)
    (fun _ _ => Or.inl rfl) (h.pw.imp fun h => Or.inr (Or.inl h.1)) (h.pw.imp fun h => Or.inr (Or.inr h.1))
  rcases key hq hq' with h | h
  · exact hne h
  · omega

theorem SimpCtx.pmap_child (h : SimpCtx thr n k rows ps I F) {q : CPair L S} (hq : q ∈ ps) {c : ℕ} (hc : c = q.a ∨ c = q.a + 1) :
    (PairKept thr F q → F.pmap c = c) ∧ (¬ PairKept thr F q → F.pmap c = q.p) := by
  constructor
  · intro hk
    obtain ⟨h1, h2, _⟩ := h.fx.kept q hq hk
    rcases hc with rfl | rfl
    · exact h1
    · exact h2
  · intro hk
    obtain ⟨h1, h2, _⟩ := h.fx.merged q hq hk
    rcases hc with rfl | rfl
    · exact h1
    · exact h2

theorem SimpCtx.pmap_top (h : SimpCtx thr n k rows ps I F) : F.pmap n = n ∧ F.lmap n = none :=
  h.fx.childO n fun q hq => by
    have := h.pl.par q hq
    omega

/-- Where a merged cluster goes. -/
theorem SimpCtx.pmap_cases (h : SimpCtx thr n k rows ps I F) (c : ℕ) :
    F.pmap c = c ∨ ∃ q ∈ ps, (c = q.a ∨ c = q.a + 1) ∧ ¬ PairKept thr F q ∧ F.pmap c = q.p := by
  by_cases hex : ∃ q ∈ ps, c = q.a ∨ c = q.a + 1
  · obtain ⟨q, hq, hc⟩ := hex
    by_cases hk : PairKept thr F q
    · exact Or.inl ((h.pmap_child hq hc).1 hk)
    · exact Or.inr ⟨q, hq, hc, hk, (h.pmap_child hq hc).2 hk⟩
  · left
    refine (h.fx.childO c fun q hq => ?_).1
    constructor
    · intro he; exact hex ⟨q, hq, Or.inl he⟩
    · intro he; exact hex ⟨q, hq, Or.inr he⟩

theorem SimpCtx.pmap_le (h : SimpCtx thr n k rows ps I F) (c : ℕ) : F.pmap c ≤ c := by
  rcases h.pmap_cases c with h1 | ⟨q, hq, hc, _, h1⟩
  · omega
  · have := h.pl.par q hq; omega

theorem SimpCtx.pmap_ge (h : SimpCtx thr n k rows ps I F) (c : ℕ) (hc : n ≤ c) : n ≤ F.pmap c := by
  rcases h.pmap_cases c with h1 | ⟨q, hq, _, _, h1⟩
  · omega
  · have := h.pl.par q hq; omega

/-- One merge: `y` goes into `x`. -/
def MStep (F : SimpState L) (x y : ℕ) : Prop := F.pmap y = x ∧ y ≠ x

def MChain (F : SimpState L) : ℕ → ℕ → Prop := Relation.ReflTransGen (MStep F)

omit [Sub L] in
theorem MStep.def' {x y : ℕ} : MStep F x y ↔ F.pmap y = x ∧ y ≠ x := Iff.rfl

theorem SimpCtx.mstep (h : SimpCtx thr n k rows ps I F) {x y : ℕ} (hs : MStep F x y) :
    ∃ q ∈ ps, q.p = x ∧ (y = q.a ∨ y = q.a + 1) ∧ ¬ PairKept thr F q := by
  obtain ⟨h1, h2⟩ := hs
  rcases h.pmap_cases y with h3 | ⟨q, hq, hc, hk, h3⟩
  · omega
  · exact ⟨q, hq, by omega, hc, hk⟩

theorem SimpCtx.mstep_cstep (h : SimpCtx thr n k rows ps I F) {x y : ℕ} (hs : MStep F x y) : CStep rows x y := by
  obtain ⟨q, hq, rfl, hc, _⟩ := h.mstep hs
  obtain ⟨g1, g2⟩ := h.pair_mem hq
  rcases hc with rfl | rfl
  · exact ⟨_, g1, rfl, rfl⟩
  · exact ⟨_, g2, rfl, rfl⟩

theorem SimpCtx.mchain_desc (h : SimpCtx thr n k rows ps I F) {x y : ℕ} (hs : MChain F x y) : CDesc rows x y := by
  induction hs with
  | refl => exact .refl
  | tail _ h2 ih => exact ih.tail (h.mstep_cstep h2)

theorem SimpCtx.births_child (h : SimpCtx thr n k rows ps I F) {q : CPair L S} (hq : q ∈ ps) {c : ℕ} (hc : c = q.a ∨ c = q.a + 1) :
    F.births c ≤ F.births q.p := by
  rw [h.fx.births q hq]
  rcases hc with rfl | rfl
  · exact (le_max_left _ _).trans (le_max_right _ _)
  · exact (le_max_right _ _).trans (le_max_right _ _)

theorem SimpCtx.births_chain (h : SimpCtx thr n k rows ps I F) {x y : ℕ} (hs : MChain F x y) : F.births y ≤ F.births x := by
  induction hs with
  | refl => exact le_refl _
  | tail _ h2 ih =>
    obtain ⟨q, hq, rfl, hc, _⟩ := h.mstep h2
    exact (h.births_child hq hc).trans ih

/-- Lambdas do not decrease on the way down. -/
theorem CMono.desc (hm : CMono rows) {c d : ℕ} (hs : CDesc rows c d) {rc r : CRow L S} (h1 : rc ∈ rows) (h2 : rc.child = c)
    (h3 : r ∈ rows) (h4 : r.parent = d) : rc.lam ≤ r.lam := by
  induction hs generalizing r with
  | refl => exact hm rc h1 r h3 (by rw [h4, h2])
  | tail _ hs ih =>
    obtain ⟨r0, g1, g2, g3⟩ := hs
    exact (ih g1 g2).trans (hm r0 g1 r h3 (by rw [h4, g3]))

theorem SimpCtx.row_of (h : SimpCtx thr n k rows ps I F) {q : CPair L S} (hq : q ∈ ps) {c : ℕ} (hc : c = q.a ∨ c = q.a + 1) :
    ∃ r ∈ rows, r.child = c ∧ r.parent = q.p ∧ r.lam = q.lv := by
  obtain ⟨h1, h2⟩ := h.pair_mem hq
  rcases hc with rfl | rfl
  · exact ⟨_, h1, rfl, rfl, rfl⟩
  · exact ⟨_, h2, rfl, rfl, rfl⟩

/-- The density the loop ascribes to a cluster is that of a sample below it, one that keeps its lambda. -/
theorem SimpCtx.attained (h : SimpCtx thr n k rows ps I F) (c : ℕ) (h1 : n ≤ c) (h2 : c < n + k) :
    ∃ s ∈ rows, s.child < n ∧ CDesc rows c s.parent ∧ s.lam = F.births c ∧ (s.parent = c ∨ F.lmap s.parent = none) := by
  obtain ⟨m, hm⟩ : ∃ m, m = n + k - c := ⟨_, rfl⟩
  induction m using Nat.strong_induction_on generalizing c with
  | _ m ih =>
    obtain ⟨r0, hr0, hp0, hl0⟩ := h.init c h1 h2
    by_cases hex : ∃ q ∈ ps, q.p = c
    · obtain ⟨q, hq, rfl⟩ := hex
      obtain ⟨p1, p2, p3⟩ := h.pl.par q hq
      -- the denser child
      have key : ∀ d, (d = q.a ∨ d = q.a + 1) → F.lmap d = none → F.births d = F.births q.p →
          ∃ s ∈ rows, s.child < n ∧ CDesc rows q.p s.parent ∧ s.lam = F.births q.p ∧ (s.parent = q.p ∨ F.lmap s.parent = none) := by
        intro d hd hl hb
        obtain ⟨s, s1, s2, s3, s4, s5⟩ := ih (n + k - d) (by omega) d (by omega) (by omega) rfl
        obtain ⟨rd, rd1, rd2, rd3, _⟩ := h.row_of hq hd
        refine ⟨s, s1, s2, (Relation.ReflTransGen.single ⟨rd, rd1, rd3, rd2⟩).trans s3, by rw [s4, hb], Or.inr ?_⟩
        rcases s5 with s5 | s5
        · rw [s5]; exact hl
        · exact s5
      have hbirths := h.fx.births q hq
      have hso := sibOth_cases F q
      have hsc : sibOf F q = q.a ∨ sibOf F q = q.a + 1 := by rcases hso with ⟨g, _⟩ | ⟨g, _⟩ <;> simp [g]
      have hmax : max (F.births q.a) (F.births (q.a + 1)) = F.births (sibOf F q) := by
        rcases hso with ⟨g, _, g'⟩ | ⟨g, _, g'⟩ <;> rw [g]
        · exact max_eq_left g'
        · exact max_eq_right g'
      have hls : F.lmap (sibOf F q) = none := by
        by_cases hk : PairKept thr F q
        · obtain ⟨_, _, _, k4, k5⟩ := h.fx.kept q hq hk
          rcases hsc with g | g <;> rw [g] <;> assumption
        · exact (h.fx.merged q hq hk).2.2.2.1
      rw [hmax] at hbirths
      -- a row of the cluster itself
      by_cases hc0 : n ≤ r0.child
      · -- the split: not denser than the child
        have hle : I.births q.p ≤ F.births (sibOf F q) := by
          obtain ⟨q', hq', he⟩ := h.child_pair hr0 hc0
          have hqq : q' = q := h.pl.unique_p hq' hq (by rcases he with rfl | rfl <;> exact hp0)
          subst hqq
          have hlv : r0.lam = q'.lv := by rcases he with rfl | rfl <;> rfl
          obtain ⟨s, s1, s2, s3, s4, s5⟩ := ih (n + k - sibOf F q') (by omega) (sibOf F q') (by omega) (by omega) rfl
          obtain ⟨rd, rd1, rd2, rd3, rd4⟩ := h.row_of hq' hsc
          rw [← hl0, hlv, ← rd4, ← s4]
          exact h.mono.desc s3 rd1 rd2 s1 rfl
        rw [max_eq_right hle] at hbirths
        exact key _ hsc hls hbirths.symm
      · rcases le_total (I.births q.p) (F.births (sibOf F q)) with hle | hle
        · rw [max_eq_right hle] at hbirths
          exact key _ hsc hls hbirths.symm
        · rw [max_eq_left hle] at hbirths
          exact ⟨r0, hr0, by omega, by rw [hp0]; exact .refl, by rw [hl0, hbirths], Or.inl hp0⟩
    · have hno : ∀ q ∈ ps, q.p ≠ c := fun q hq he => hex ⟨q, hq, he⟩
      refine ⟨r0, hr0, ?_, by rw [hp0]; exact .refl, by rw [hl0, h.fx.birthsO c hno], Or.inl hp0⟩
      by_contra hc
      obtain ⟨q, hq, he⟩ := h.child_pair hr0 (by omega)
      exact hno q hq (by rcases he with rfl | rfl <;> exact hp0)

end

section
variable [AddCommGroup L] [LinearOrder L] [IsOrderedAddMonoid L] {thr : L} {n k : ℕ} {rows : List (CRow L S)} {ps : List (CPair L S)}
  {I F : SimpState L}

/-- `leaf` after the loop: no pair is left in the clusters merged into `c`; otherwise exactly one. -/
def LeafSpec (thr : L) (ps : List (CPair L S)) (F : SimpState L) (c : ℕ) : Prop :=
  (F.leaf c = true → ∀ q ∈ ps, PairKept thr F q → ¬ MChain F c q.p) ∧
  (F.leaf c = false → ∃ q ∈ ps, PairKept thr F q ∧ MChain F c q.p ∧ ∀ q' ∈ ps, PairKept thr F q' → MChain F c q'.p → q' = q)

theorem SimpCtx.oth_leaf_of (h : SimpCtx thr n k rows ps I F) {q : CPair L S} (hq : q ∈ ps) (hk : ¬ PairKept thr F q)
    (hs : LeafSpec thr ps F (othOf F q)) : F.leaf (othOf F q) = true := by
  by_contra hl
  rw [Bool.not_eq_true] at hl
  obtain ⟨q', hq', hk', hc, _⟩ := hs.2 hl
  apply hk
  have hso := sibOth_cases F q
  have hoc : othOf F q = q.a ∨ othOf F q = q.a + 1 := by rcases hso with ⟨_, g, _⟩ | ⟨_, g, _⟩ <;> simp [g]
  have hmin : min (F.births q.a) (F.births (q.a + 1)) = F.births (othOf F q) := by
    rcases hso with ⟨_, g, g'⟩ | ⟨_, g, g'⟩ <;> rw [g]
    · exact min_eq_right g'
    · exact min_eq_left g'
  unfold PairKept at hk' ⊢
  rw [hmin]
  obtain ⟨rd, rd1, rd2, rd3, rd4⟩ := h.row_of hq hoc
  have h1 : q.lv ≤ q'.lv := by
    rw [← rd4]
    exact h.mono.desc (h.mchain_desc hc) rd1 rd2 (h.pair_mem hq').1 rfl
  have h2 : F.births q'.a ≤ F.births (othOf F q) := (h.births_child hq' (Or.inl rfl)).trans (h.births_chain hc)
  have h3 : thr ≤ F.births q'.a - q'.lv := hk'.trans (sub_le_sub_right (min_le_left _ _) _)
  exact h3.trans (sub_le_sub h2 h1)

theorem SimpCtx.leaf_spec (h : SimpCtx thr n k rows ps I F) (c : ℕ) : LeafSpec thr ps F c := by
  obtain ⟨m, hm⟩ : ∃ m, m = n + k - c := ⟨_, rfl⟩
  induction m using Nat.strong_induction_on generalizing c with
  | _ m ih =>
    by_cases hex : ∃ q ∈ ps, q.p = c
    · obtain ⟨q, hq, rfl⟩ := hex
      obtain ⟨p1, p2, p3⟩ := h.pl.par q hq
      have hI : I.leaf q.p = false := by
        rw [← Bool.not_eq_true, h.leaf]
        exact fun hn => hn q hq rfl
      by_cases hk : PairKept thr F q
      · obtain ⟨k1, k2, k3, _⟩ := h.fx.kept q hq hk
        have hstop : ∀ d, MChain F q.p d → d = q.p := by
          intro d hd
          rcases Relation.ReflTransGen.cases_head hd with h1 | ⟨y, h1, _⟩
          · exact h1.symm
          · obtain ⟨q', hq', he, _, hk'⟩ := h.mstep h1
            rw [h.pl.unique_p hq' hq he] at hk'
            exact absurd hk hk'
        refine ⟨fun hl => ?_, fun _ => ⟨q, hq, hk, .refl, fun q' hq' _ hc => h.pl.unique_p hq' hq (hstop _ hc)⟩⟩
        rw [k3, hI] at hl; cases hl
      · obtain ⟨k1, k2, k3, _, _⟩ := h.fx.merged q hq hk
        have hso := sibOth_cases F q
        have hoc : othOf F q = q.a ∨ othOf F q = q.a + 1 := by rcases hso with ⟨_, g, _⟩ | ⟨_, g, _⟩ <;> simp [g]
        have hsc : sibOf F q = q.a ∨ sibOf F q = q.a + 1 := by rcases hso with ⟨g, _⟩ | ⟨g, _⟩ <;> simp [g]
        have ihs := ih (n + k - sibOf F q) (by omega) (sibOf F q) rfl
        have iho := ih (n + k - othOf F q) (by omega) (othOf F q) rfl
        have hol := h.oth_leaf_of hq hk iho
        rw [hI, Bool.or_false] at k3
        have hsplit : ∀ q' ∈ ps, PairKept thr F q' → MChain F q.p q'.p → MChain F (sibOf F q) q'.p := by
          intro q' hq' hk' hc
          rcases Relation.ReflTransGen.cases_head hc with h1 | ⟨y, h1, h2⟩
          · rw [h.pl.unique_p hq hq' h1] at hk
            exact absurd hk' hk
          · obtain ⟨q'', hq'', he, hy, _⟩ := h.mstep h1
            rw [h.pl.unique_p hq'' hq he] at hy
            have : y = sibOf F q ∨ y = othOf F q := by
              rcases hso with ⟨g, g', _⟩ | ⟨g, g', _⟩ <;> rw [g, g'] <;> tauto
            rcases this with rfl | rfl
            · exact h2
            · exact absurd h2 (iho.1 hol q' hq' hk')
        have hdown : MStep F q.p (sibOf F q) := ⟨(h.pmap_child hq hsc).2 hk, by omega⟩
        refine ⟨fun hl q' hq' hk' hc => ?_, fun hl => ?_⟩
        · rw [k3] at hl
          exact ihs.1 hl q' hq' hk' (hsplit q' hq' hk' hc)
        · rw [k3] at hl
          obtain ⟨q', g1, g2, g3, g4⟩ := ihs.2 hl
          exact ⟨q', g1, g2, Relation.ReflTransGen.head hdown g3, fun q'' a b c => g4 q'' a b (hsplit q'' a b c)⟩
    · have hno : ∀ q ∈ ps, q.p ≠ c := fun q hq he => hex ⟨q, hq, he⟩
      have hl : F.leaf c = true := by rw [h.fx.leafO c hno]; exact (h.leaf c).2 hno
      refine ⟨fun _ q hq _ hc => ?_, fun hf => ?_⟩
      · rcases Relation.ReflTransGen.cases_head hc with h1 | ⟨y, h1, _⟩
        · exact hno q hq h1.symm
        · obtain ⟨q', hq', he, _⟩ := h.mstep h1
          exact hno q' hq' he
      · rw [hl] at hf; cases hf

/-- Only merged clusters without a pair have their samples moved. -/
theorem SimpCtx.lmap_some (h : SimpCtx thr n k rows ps I F) {d : ℕ} {lv : L} (hl : F.lmap d = some lv) :
    ∃ q ∈ ps, ¬ PairKept thr F q ∧ (d = q.a ∨ d = q.a + 1) ∧ lv = q.lv ∧ F.leaf d = true := by
  by_cases hex : ∃ q ∈ ps, d = q.a ∨ d = q.a + 1
  · obtain ⟨q, hq, hc⟩ := hex
    by_cases hk : PairKept thr F q
    · obtain ⟨_, _, _, k4, k5⟩ := h.fx.kept q hq hk
      rcases hc with rfl | rfl
      · rw [k4] at hl; cases hl
      · rw [k5] at hl; cases hl
    · obtain ⟨_, _, _, k4, k5⟩ := h.fx.merged q hq hk
      have hd : d = sibOf F q ∨ d = othOf F q := by
        rcases sibOth_cases F q with ⟨g, g', _⟩ | ⟨g, g', _⟩ <;> rw [g, g'] <;> tauto
      rcases hd with rfl | rfl
      · rw [k4] at hl; cases hl
      · rw [k5] at hl
        split at hl
        · cases hl
        · cases hl
          exact ⟨q, hq, hk, hc, rfl, h.oth_leaf_of hq hk (h.leaf_spec _)⟩
  · have := (h.fx.childO d fun q hq => ⟨fun he => hex ⟨q, hq, Or.inl he⟩, fun he => hex ⟨q, hq, Or.inr he⟩⟩).2
    rw [this] at hl; cases hl

/-! ## The nearest cluster that stays -/

theorem SimpCtx.rep (h : SimpCtx thr n k rows ps I F) {g : ℕ → ℕ} (hg : ∀ i, n ≤ i → i < n + k → g i = if F.pmap i = i then i else g (F.pmap i))
    (d : ℕ) (h1 : n ≤ d) (h2 : d < n + k) : n ≤ g d ∧ g d ≤ d ∧ F.pmap (g d) = g d ∧ MChain F (g d) d := by
  induction d using Nat.strong_induction_on with
  | _ d ih =>
    rw [hg d h1 h2]
    split
    · rename_i he; exact ⟨h1, le_refl _, he, .refl⟩
    · rename_i he
      have h3 := h.pmap_le d
      have h4 := h.pmap_ge d h1
      obtain ⟨g1, g2, g3, g4⟩ := ih (F.pmap d) (by omega) h4 (by omega)
      exact ⟨g1, by omega, g3, g4.tail ⟨rfl, fun he' => he he'.symm⟩⟩

theorem SimpCtx.rep_fix (h : SimpCtx thr n k rows ps I F) {g : ℕ → ℕ} (hg : ∀ i, n ≤ i → i < n + k → g i = if F.pmap i = i then i else g (F.pmap i))
    {d : ℕ} (h1 : n ≤ d) (h2 : d < n + k) : g d = d ↔ F.pmap d = d := by
  constructor
  · intro he
    have := (h.rep hg d h1 h2).2.2.1
    rwa [he] at this
  · intro he
    rw [hg d h1 h2, if_pos he]

theorem SimpCtx.rep_eq (h : SimpCtx thr n k rows ps I F) {g : ℕ → ℕ} (hg : ∀ i, n ≤ i → i < n + k → g i = if F.pmap i = i then i else g (F.pmap i))
    {c d : ℕ} (h1 : n ≤ c) (h2 : c < n + k) (hc : g c = c) (hm : MChain F c d) : n ≤ d ∧ d < n + k ∧ g d = c := by
  induction hm with
  | refl => exact ⟨h1, h2, hc⟩
  | @tail x y _ hs ih =>
    obtain ⟨q, hq, hp, hy, _⟩ := h.mstep hs
    have := h.pl.par q hq
    have h3 : n ≤ y := by omega
    have h4 : y < n + k := by omega
    refine ⟨h3, h4, ?_⟩
    rw [hg y h3 h4, if_neg (by rw [hs.1]; exact fun he => hs.2 he.symm), hs.1]
    exact ih.2.2

end

end Verif
