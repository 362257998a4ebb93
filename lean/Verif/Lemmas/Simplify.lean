import Verif.Model.Simplify
import Verif.Lemmas.ClTree
import Mathlib.Algebra.Order.Group.Defs
import Mathlib.Order.MinMax

/-!
# The first loop of `simplify_hierarchy`
-/

namespace Verif
variable {L S : Type*}

/-- Two sibling clusters `a`, `a + 1` below `p`. -/
structure CPair (L S : Type*) where
  p : ℕ
  a : ℕ
  lv : L
  s : S
  t : S

def CPair.r1 (q : CPair L S) : CRow L S := ⟨q.p, q.a, q.lv, q.s⟩
def CPair.r2 (q : CPair L S) : CRow L S := ⟨q.p, q.a + 1, q.lv, q.t⟩

/-- The table of cluster rows as a list of pairs. -/
structure PairList (n k : ℕ) (ct : List (CRow L S)) (ps : List (CPair L S)) : Prop where
  eq : ct = ps.flatMap fun q => [q.r1, q.r2]
  odd : ∀ q ∈ ps, (q.a - n) % 2 = 1
  par : ∀ q ∈ ps, n ≤ q.p ∧ q.p < q.a ∧ q.a + 1 < n + k
  pw : ps.Pairwise fun q q' => q.a + 1 < q'.a ∧ q.p ≠ q'.p

theorem pairs_aux {n k : ℕ} {rows : List (CRow L S)} (hb : CBinary n k rows) (l : List (CRow L S)) (x m : ℕ)
    (hc : l.map CRow.child = List.range' x m) (hx : (x - n) % 2 = 1)
    (hpar : ∀ r ∈ l, n ≤ r.parent ∧ r.parent < r.child ∧ r.child < n + k ∧ r ∈ rows)
    (hall : ∀ r ∈ rows, x ≤ r.child → r ∈ l) :
    ∃ ps : List (CPair L S), l = (ps.flatMap fun q => [q.r1, q.r2]) ∧ (∀ q ∈ ps, (q.a - n) % 2 = 1) ∧
      (∀ q ∈ ps, x ≤ q.a ∧ n ≤ q.p ∧ q.p < q.a ∧ q.a + 1 < n + k) ∧ ps.Pairwise fun q q' => q.a + 1 < q'.a ∧ q.p ≠ q'.p := by
  induction m using Nat.strong_induction_on generalizing l x with
  | _ m ih =>
    match l, hc with
    | [], _ => exact ⟨[], rfl, by simp, by simp, List.Pairwise.nil⟩
    | r :: l', hc =>
      obtain ⟨m', rfl⟩ : ∃ m', m = m' + 1 := by
        cases m with
        | zero => simp at hc
        | succ m' => exact ⟨m', rfl⟩
      rw [List.map_cons, List.range'_succ, List.cons.injEq] at hc
      obtain ⟨hrx, hc'⟩ := hc
      obtain ⟨h1, h2, h3, hr⟩ := hpar r (by simp)
      have hrf : r ∈ rows.filter fun row => decide (n ≤ row.child ∧ row.parent = r.parent) :=
        List.mem_filter.2 ⟨hr, decide_eq_true ⟨by omega, rfl⟩⟩
      rcases hb r.parent h1 (by omega) with he | ⟨a, lv, s, t, hodd, he⟩
      · rw [he] at hrf; cases hrf
      have h2f : (⟨r.parent, a + 1, lv, t⟩ : CRow L S) ∈ rows.filter fun row => decide (n ≤ row.child ∧ row.parent = r.parent) := by
        rw [he]; simp
      rw [he] at hrf
      have hr1 : r = ⟨r.parent, a, lv, s⟩ := by
        simp only [List.mem_cons, List.not_mem_nil, or_false] at hrf
        rcases hrf with h | h
        · exact h
        · exfalso
          have : r.child = a + 1 := by rw [h]
          omega
      have hax : a = x := by rw [← hrx, hr1]
      subst hax
      have h2m := (List.mem_filter.1 h2f).1
      have h2l : (⟨r.parent, a + 1, lv, t⟩ : CRow L S) ∈ r :: l' := hall _ h2m (by simp only; omega)
      have h2l' : (⟨r.parent, a + 1, lv, t⟩ : CRow L S) ∈ l' := by
        rcases List.mem_cons.1 h2l with h | h
        · have : a + 1 = r.child := by rw [← h]
          omega
        · exact h
      match l', hc', h2l' with
      | r' :: l'', hc', h2l' =>
        obtain ⟨m'', rfl⟩ : ∃ m'', m' = m'' + 1 := by
          cases m' with
          | zero => simp at hc'
          | succ m' => exact ⟨m', rfl⟩
        rw [List.map_cons, List.range'_succ, List.cons.injEq] at hc'
        obtain ⟨hrx', hc''⟩ := hc'
        have hge : ∀ q ∈ l'', a + 1 + 1 ≤ q.child := by
          intro q hq
          have : q.child ∈ l''.map CRow.child := List.mem_map_of_mem hq
          rw [hc'', List.mem_range'_1] at this
          omega
        have hr2 : r' = ⟨r.parent, a + 1, lv, t⟩ := by
          rcases List.mem_cons.1 h2l' with h | h
          · exact h.symm
          · have := hge _ h
            simp only at this; omega
        obtain ⟨ps, g1, g2, g3, g4⟩ := ih m'' (by omega) l'' (a + 1 + 1) hc'' (by omega) (fun q hq => hpar q (by simp [hq]))
          (fun q hq hle => by
            have := hall q hq (by omega)
            simp only [List.mem_cons] at this
            rcases this with rfl | rfl | h
            · omega
            · omega
            · exact h)
        have h3' := (hpar r' (by simp)).2.2.1
        refine ⟨⟨r.parent, a, lv, s, t⟩ :: ps, ?_, ?_, ?_, ?_⟩
        · rw [List.flatMap_cons, ← g1]
          simp only [CPair.r1, CPair.r2, List.cons_append, List.nil_append]
          rw [← hr1, ← hr2]
        · intro q hq
          rcases List.mem_cons.1 hq with rfl | hq
          · exact hx
          · exact g2 q hq
        · intro q hq
          rcases List.mem_cons.1 hq with rfl | hq
          · exact ⟨le_refl _, h1, by simp only; omega, by simp only; omega⟩
          · obtain ⟨q1, q2⟩ := g3 q hq
            exact ⟨by omega, q2⟩
        · refine List.pairwise_cons.2 ⟨fun q hq => ⟨?_, ?_⟩, g4⟩
          · have := (g3 q hq).1
            simp only; omega
          · intro hpp
            simp only at hpp
            have hq1 : q.r1 ∈ l'' := by rw [g1]; exact List.mem_flatMap.2 ⟨q, hq, by simp⟩
            have hq2 := (hpar q.r1 (by simp [hq1])).2.2.2
            have : q.r1 ∈ rows.filter fun row => decide (n ≤ row.child ∧ row.parent = r.parent) :=
              List.mem_filter.2 ⟨hq2, decide_eq_true ⟨by have := (g3 q hq).1; simp only [CPair.r1]; omega, hpp.symm⟩⟩
            rw [he] at this
            have hq3 := (g3 q hq).1
            simp only [List.mem_cons, List.not_mem_nil, or_false] at this
            rcases this with h | h
            · have := congrArg CRow.child h; simp only [CPair.r1] at this; omega
            · have := congrArg CRow.child h; simp only [CPair.r1] at this; omega

theorem CondTree.clRows_child {n k : ℕ} {rows : List (CRow L S)} (h : CondTree n k rows) :
    (rows.filter fun row => decide (n ≤ row.child)).map CRow.child = List.range' (n + 1) (k - 1) := by
  rw [← h.asc, List.filter_map]; rfl

theorem exists_pairs {n k : ℕ} {rows : List (CRow L S)} (h : CondTree n k rows) (hb : CBinary n k rows) :
    ∃ ps, PairList n k (rows.filter fun row => decide (n ≤ row.child)) ps := by
  obtain ⟨ps, h1, h2, h3, h4⟩ := pairs_aux hb (rows.filter fun row => decide (n ≤ row.child)) (n + 1) (k - 1) h.clRows_child (by omega)
    (fun r hr => by
      obtain ⟨g1, g2⟩ := List.mem_filter.1 hr
      have g2 := of_decide_eq_true g2
      have g3 := (h.children r.child).1 (List.mem_map_of_mem g1)
      exact ⟨(h.parents r g1).1, h.down r g1 g2, by omega, g1⟩)
    (fun r hr hle => List.mem_filter.2 ⟨hr, decide_eq_true (by omega)⟩)
  exact ⟨ps, h1, h2, fun q hq => (h3 q hq).2, h4⟩

/-! ## The loop over pairs -/

section
variable [LinearOrder L] [Sub L]

theorem simpLoop_pairs (thr : L) (qs : List (CPair L S)) (st : SimpState L) :
    simpLoop thr st (qs.flatMap fun q => [q.r2, q.r1]) = qs.foldl (fun st q => simpStep thr st q.r1 q.r2) st := by
  induction qs generalizing st with
  | nil => rfl
  | cons q qs ih =>
    rw [List.flatMap_cons, List.foldl_cons, ← ih]
    rfl

theorem simpLoop_eq (thr : L) (ps : List (CPair L S)) (st : SimpState L) :
    simpLoop thr st (ps.flatMap fun q => [q.r1, q.r2]).reverse = ps.foldr (fun q st => simpStep thr st q.r1 q.r2) st := by
  rw [List.reverse_flatMap, ← List.foldl_reverse, ← simpLoop_pairs]
  rfl

/-- Both siblings persist, as the loop sees it. -/
def PairKept (thr : L) (F : SimpState L) (q : CPair L S) : Prop := thr ≤ min (F.births q.a) (F.births (q.a + 1)) - q.lv

/-- The more and the less persistent sibling. -/
def sibOf (F : SimpState L) (q : CPair L S) : ℕ := if F.births q.a ≤ F.births (q.a + 1) then q.a + 1 else q.a
def othOf (F : SimpState L) (q : CPair L S) : ℕ := if F.births q.a ≤ F.births (q.a + 1) then q.a else q.a + 1

/-- The values at the end of the loop. -/
structure SimpFix (thr : L) (ps : List (CPair L S)) (I F : SimpState L) : Prop where
  births : ∀ q ∈ ps, F.births q.p = max (I.births q.p) (max (F.births q.a) (F.births (q.a + 1)))
  birthsO : ∀ c, (∀ q ∈ ps, q.p ≠ c) → F.births c = I.births c
  kept : ∀ q ∈ ps, PairKept thr F q → F.pmap q.a = q.a ∧ F.pmap (q.a + 1) = q.a + 1 ∧ F.leaf q.p = I.leaf q.p ∧
    F.lmap q.a = none ∧ F.lmap (q.a + 1) = none
  merged : ∀ q ∈ ps, ¬ PairKept thr F q → F.pmap q.a = q.p ∧ F.pmap (q.a + 1) = q.p ∧
    F.leaf q.p = (F.leaf (sibOf F q) || I.leaf q.p) ∧ F.lmap (sibOf F q) = none ∧
    F.lmap (othOf F q) = if F.leaf (sibOf F q) then none else some q.lv
  childO : ∀ c, (∀ q ∈ ps, c ≠ q.a ∧ c ≠ q.a + 1) → F.pmap c = c ∧ F.lmap c = none
  leafO : ∀ c, (∀ q ∈ ps, q.p ≠ c) → F.leaf c = I.leaf c

/-- One turn of the loop, when the siblings persist. -/
theorem simpStep_kept {thr : L} {st : SimpState L} {q : CPair L S} (h : PairKept thr st q) : simpStep thr st q.r1 q.r2 =
    { st with births := Function.update st.births q.p (max (st.births q.p) (max (st.births q.a) (st.births (q.a + 1)))) } := by
  unfold simpStep
  exact if_pos h

/-- One turn of the loop, when they do not. -/
theorem simpStep_merged {thr : L} {st : SimpState L} {q : CPair L S} (h : ¬ PairKept thr st q) : simpStep thr st q.r1 q.r2 =
    ⟨if st.leaf (sibOf st q) then Function.update st.leaf q.p true else st.leaf,
      Function.update st.births q.p (max (st.births q.p) (max (st.births q.a) (st.births (q.a + 1)))),
      Function.update (Function.update st.pmap q.a q.p) (q.a + 1) q.p,
      if st.leaf (sibOf st q) then st.lmap else Function.update st.lmap (othOf st q) (some q.lv)⟩ := by
  unfold simpStep
  have e : (if st.births q.r1.child ≤ st.births q.r2.child then q.r2.child else q.r1.child) = sibOf st q := rfl
  have e' : (if st.births q.r1.child ≤ st.births q.r2.child then q.r1.child else q.r2.child) = othOf st q := rfl
  simp only [e, e']
  refine (if_neg h).trans ?_
  split <;> rfl

theorem sibOth_cases (F : SimpState L) (q : CPair L S) : (sibOf F q = q.a ∧ othOf F q = q.a + 1 ∧ F.births (q.a + 1) ≤ F.births q.a) ∨
    (sibOf F q = q.a + 1 ∧ othOf F q = q.a ∧ F.births q.a ≤ F.births (q.a + 1)) := by
  unfold sibOf othOf
  split
  · rename_i h; exact Or.inr ⟨rfl, rfl, h⟩
  · rename_i h; exact Or.inl ⟨rfl, rfl, le_of_lt (not_le.1 h)⟩

theorem simpLoop_fix (thr : L) (ps : List (CPair L S)) (I : SimpState L) (hI : ∀ c, I.pmap c = c ∧ I.lmap c = none)
    (hp : ∀ q ∈ ps, q.p < q.a) (hpw : ps.Pairwise fun q q' => q.a + 1 < q'.a ∧ q.p ≠ q'.p) :
    SimpFix thr ps I (ps.foldr (fun q st => simpStep thr st q.r1 q.r2) I) := by
  induction ps with
  | nil =>
    refine ⟨by simp, fun _ _ => rfl, by simp, by simp, fun c _ => hI c, fun _ _ => rfl⟩
  | cons q ps ih =>
    obtain ⟨h1, h2⟩ := List.pairwise_cons.1 hpw
    have fx := ih (fun q' hq' => hp q' (by simp [hq'])) h2
    rw [List.foldr_cons]
    generalize ps.foldr (fun q st => simpStep thr st q.r1 q.r2) I = st at fx
    have hqp := hp q (by simp)
    have hps : ∀ q' ∈ ps, q'.a ≠ q.p ∧ q'.a + 1 ≠ q.p ∧ q'.p ≠ q.p ∧ q'.a ≠ q.a ∧ q'.a ≠ q.a + 1 ∧ q'.a + 1 ≠ q.a ∧ q'.a + 1 ≠ q.a + 1 := by
      intro q' hq'
      obtain ⟨a1, a2⟩ := h1 q' hq'
      exact ⟨by omega, by omega, fun h => a2 h.symm, by omega, by omega, by omega, by omega⟩
    have hqa : q.a ≠ q.p := by omega
    have hqa1 : q.a + 1 ≠ q.p := by omega
    have hnp : ∀ q' ∈ ps, q'.p ≠ q.p := fun q' hq' => (hps q' hq').2.2.1
    have hna : st.pmap q.a = q.a ∧ st.lmap q.a = none := fx.childO q.a fun q' hq' => ⟨fun h => (hps q' hq').2.2.2.1 h.symm, fun h => (hps q' hq').2.2.2.2.2.1 h.symm⟩
    have hna1 : st.pmap (q.a + 1) = q.a + 1 ∧ st.lmap (q.a + 1) = none :=
      fx.childO (q.a + 1) fun q' hq' => ⟨fun h => (hps q' hq').2.2.2.2.1 h.symm, fun h => (hps q' hq').2.2.2.2.2.2 h.symm⟩
    -- what both cases have in common
    obtain ⟨F, hF⟩ : ∃ F, F = simpStep thr st q.r1 q.r2 := ⟨_, rfl⟩
    have hb : F.births = Function.update st.births q.p (max (st.births q.p) (max (st.births q.a) (st.births (q.a + 1)))) := by
      rw [hF]
      by_cases hk : PairKept thr st q
      · rw [simpStep_kept hk]
      · rw [simpStep_merged hk]
    have hb1 : ∀ c, c ≠ q.p → F.births c = st.births c := fun c hc => by rw [hb, Function.update_of_ne hc]
    have hbp : F.births q.p = max (I.births q.p) (max (F.births q.a) (F.births (q.a + 1))) := by
      rw [hb1 _ hqa, hb1 _ hqa1, hb, Function.update_self, fx.birthsO q.p hnp]
    have hl1 : ∀ c, c ≠ q.p → F.leaf c = st.leaf c := by
      intro c hc
      rw [hF]
      by_cases hk : PairKept thr st q
      · rw [simpStep_kept hk]
      · rw [simpStep_merged hk]
        simp only
        split
        · rw [Function.update_of_ne hc]
        · rfl
    have hm1 : ∀ c, c ≠ q.a → c ≠ q.a + 1 → F.pmap c = st.pmap c ∧ F.lmap c = st.lmap c := by
      intro c hc hc'
      rw [hF]
      by_cases hk : PairKept thr st q
      · rw [simpStep_kept hk]; exact ⟨rfl, rfl⟩
      · rw [simpStep_merged hk]
        simp only
        refine ⟨by rw [Function.update_of_ne hc', Function.update_of_ne hc], ?_⟩
        split
        · rfl
        · rw [Function.update_of_ne]
          rcases sibOth_cases st q with ⟨_, h, _⟩ | ⟨_, h, _⟩ <;> rw [h] <;> assumption
    have hkq : PairKept thr F q ↔ PairKept thr st q := by
      unfold PairKept; rw [hb1 _ hqa, hb1 _ hqa1]
    have hkq' : ∀ q' ∈ ps, (PairKept thr F q' ↔ PairKept thr st q') := by
      intro q' hq'
      obtain ⟨a1, a2, _⟩ := hps q' hq'
      unfold PairKept; rw [hb1 _ a1, hb1 _ a2]
    have hsib : sibOf F q = sibOf st q ∧ othOf F q = othOf st q := by
      unfold sibOf othOf; rw [hb1 _ hqa, hb1 _ hqa1]; exact ⟨rfl, rfl⟩
    have hsib' : ∀ q' ∈ ps, sibOf F q' = sibOf st q' ∧ othOf F q' = othOf st q' := by
      intro q' hq'
      obtain ⟨a1, a2, _⟩ := hps q' hq'
      unfold sibOf othOf; rw [hb1 _ a1, hb1 _ a2]; exact ⟨rfl, rfl⟩
    rw [← hF]
    refine ⟨fun q' hq' => ?_, fun c hc => ?_, fun q' hq' hk => ?_, fun q' hq' hk => ?_, fun c hc => ?_, fun c hc => ?_⟩
    · rcases List.mem_cons.1 hq' with rfl | hq'
      · exact hbp
      · obtain ⟨a1, a2, a3, _⟩ := hps q' hq'
        rw [hb1 _ a1, hb1 _ a2, hb1 _ a3]
        exact fx.births q' hq'
    · rw [hb1 _ fun h => hc q (by simp) h.symm]
      exact fx.birthsO c fun q' hq' => hc q' (by simp [hq'])
    · rcases List.mem_cons.1 hq' with rfl | hq'
      · rw [hkq] at hk
        rw [hF, simpStep_kept hk]
        exact ⟨hna.1, hna1.1, fx.leafO _ hnp, hna.2, hna1.2⟩
      · rw [hkq' q' hq'] at hk
        obtain ⟨_, _, a3, a4, a5, a6, a7⟩ := hps q' hq'
        obtain ⟨g1, g2, g3, g4, g5⟩ := fx.kept q' hq' hk
        rw [(hm1 _ a4 a5).1, (hm1 _ a6 a7).1, (hm1 _ a4 a5).2, (hm1 _ a6 a7).2, hl1 _ a3]
        exact ⟨g1, g2, g3, g4, g5⟩
    · rcases List.mem_cons.1 hq' with rfl | hq'
      · rw [hkq] at hk
        rw [hsib.1, hsib.2]
        have hso := sibOth_cases st q'
        have hsp : sibOf st q' ≠ q'.p := by rcases hso with ⟨h, _, _⟩ | ⟨h, _, _⟩ <;> rw [h] <;> assumption
        have hls : F.leaf (sibOf st q') = st.leaf (sibOf st q') := hl1 _ hsp
        rw [hls]
        rw [hF, simpStep_merged hk]
        simp only
        refine ⟨?_, Function.update_self .., ?_, ?_, ?_⟩
        · rw [Function.update_of_ne (by omega), Function.update_self]
        · by_cases hl : st.leaf (sibOf st q') = true
          · rw [if_pos hl, hl, Function.update_self]; rfl
          · rw [if_neg hl, fx.leafO _ hnp]
            rw [Bool.not_eq_true] at hl
            rw [hl]; rfl
        · have hn : st.lmap (sibOf st q') = none := by
            rcases hso with ⟨h, _, _⟩ | ⟨h, _, _⟩ <;> rw [h]
            · exact hna.2
            · exact hna1.2
          split
          · exact hn
          · rw [Function.update_of_ne]
            · exact hn
            · rcases hso with ⟨h, h', _⟩ | ⟨h, h', _⟩ <;> rw [h, h'] <;> omega
        · split
          · rcases hso with ⟨_, h', _⟩ | ⟨_, h', _⟩ <;> rw [h']
            · exact hna1.2
            · exact hna.2
          · exact Function.update_self ..
      · rw [hkq' q' hq'] at hk
        obtain ⟨a1, a2, a3, a4, a5, a6, a7⟩ := hps q' hq'
        obtain ⟨g1, g2, g3, g4, g5⟩ := fx.merged q' hq' hk
        rw [(hsib' q' hq').1, (hsib' q' hq').2, (hm1 _ a4 a5).1, (hm1 _ a6 a7).1, hl1 _ a3]
        have hso := sibOth_cases st q'
        have e1 : F.leaf (sibOf st q') = st.leaf (sibOf st q') := hl1 _ (by
          rcases hso with ⟨h, _, _⟩ | ⟨h, _, _⟩ <;> rw [h] <;> assumption)
        have e2 : F.lmap (sibOf st q') = st.lmap (sibOf st q') := by
          rcases hso with ⟨h, _, _⟩ | ⟨h, _, _⟩ <;> rw [h]
          · exact (hm1 _ a4 a5).2
          · exact (hm1 _ a6 a7).2
        have e3 : F.lmap (othOf st q') = st.lmap (othOf st q') := by
          rcases hso with ⟨_, h, _⟩ | ⟨_, h, _⟩ <;> rw [h]
          · exact (hm1 _ a6 a7).2
          · exact (hm1 _ a4 a5).2
        rw [e1, e2, e3]
        exact ⟨g1, g2, g3, g4, g5⟩
    · obtain ⟨c1, c2⟩ := hc q (by simp)
      rw [(hm1 c c1 c2).1, (hm1 c c1 c2).2]
      exact fx.childO c fun q' hq' => hc q' (by simp [hq'])
    · rw [hl1 c fun h => hc q (by simp) h.symm]
      exact fx.leafO c fun q' hq' => hc q' (by simp [hq'])

end

/-! ## Propagation and numbering -/

/-- The nearest cluster that stays. -/
theorem simpPropagate_spec (n k : ℕ) (pm : ℕ → ℕ) (h1 : ∀ i, n ≤ i → n ≤ pm i) (h2 : ∀ i, pm i ≤ i) :
    ∀ i, n ≤ i → i < n + k → simpPropagate n k pm i = if pm i = i then i else simpPropagate n k pm (pm i) := by
  have key : ∀ j, j ≤ k → ∃ g, (List.range' n j).foldl (fun pm i => Function.update pm i (pm (pm i))) pm = g ∧
      (∀ i, n + j ≤ i → g i = pm i) ∧ (∀ i, n ≤ i → i < n + j → g i = if pm i = i then i else g (pm i)) := by
    intro j
    induction j with
    | zero => exact fun _ => ⟨pm, rfl, fun _ _ => rfl, fun i a b => by omega⟩
    | succ j ih =>
      intro hj
      obtain ⟨g, e, g1, g2⟩ := ih (by omega)
      rw [List.range'_1_concat, List.foldl_append, e]
      refine ⟨Function.update g (n + j) (g (g (n + j))), rfl, fun i hi => ?_, fun i hi1 hi2 => ?_⟩
      · rw [Function.update_of_ne (by omega)]; exact g1 i (by omega)
      · have hpi := h2 i
        by_cases hij : i = n + j
        · subst hij
          rw [Function.update_self, g1 _ (le_refl _)]
          split
          · rename_i he; rw [he, g1 _ (le_refl _), he]
          · rename_i he; rw [Function.update_of_ne (by omega)]
        · rw [Function.update_of_ne hij, g2 i hi1 (by omega), Function.update_of_ne (by omega)]
  obtain ⟨g, e, _, g2⟩ := key k (le_refl k)
  intro i a b
  unfold simpPropagate
  rw [e]
  exact g2 i a b

/-- How many clusters from `n` to below `e` stay. -/
def keptBelow (n : ℕ) (g : ℕ → ℕ) (e : ℕ) : ℕ := ((List.range' n (e - n)).filter fun j => decide (g j = j)).length

theorem keptBelow_succ {n : ℕ} {g : ℕ → ℕ} {e : ℕ} (he : n ≤ e) : keptBelow n g (e + 1) = keptBelow n g e + if g e = e then 1 else 0 := by
  unfold keptBelow
  rw [show e + 1 - n = (e - n) + 1 by omega, List.range'_1_concat, List.filter_append, List.length_append, show n + (e - n) = e by omega]
  congr 1
  by_cases h : g e = e <;> simp [h]

theorem simpNumber_spec (n k : ℕ) (g : ℕ → ℕ) (h1 : ∀ i, n ≤ i → i < n + k → n ≤ g i) (h2 : ∀ i, n ≤ i → i < n + k → g i ≤ i) :
    (∀ i, n ≤ i → i < n + k → (simpNumber n k g).1 i = n + keptBelow n g (g i)) ∧
    (∀ i, n ≤ i → i < n + k → (simpNumber n k g).2 i = decide (g i ≠ i)) := by
  have key : ∀ j, j ≤ k → ∃ s, (List.range' n j).foldl (fun (st : (ℕ → ℕ) × (ℕ → Bool)) i =>
      let parent := st.1 i
      let skipped := Function.update st.2 i (decide (parent ≠ i))
      (Function.update st.1 i (parent - ((List.range' n (parent - n)).filter fun j => skipped j).length), skipped))
      (g, fun _ => false) = s ∧ (∀ i, n + j ≤ i → s.1 i = g i) ∧
      (∀ i, n ≤ i → i < n + j → s.1 i = n + keptBelow n g (g i)) ∧ (∀ i, n ≤ i → i < n + j → s.2 i = decide (g i ≠ i)) := by
    intro j
    induction j with
    | zero => exact fun _ => ⟨_, rfl, fun _ _ => rfl, fun i a b => by omega, fun i a b => by omega⟩
    | succ j ih =>
      intro hj
      obtain ⟨s, e, s1, s2, s3⟩ := ih (by omega)
      rw [List.range'_1_concat, List.foldl_append, e]
      refine ⟨_, rfl, fun i hi => ?_, fun i hi1 hi2 => ?_, fun i hi1 hi2 => ?_⟩
      · simp only [List.foldl_cons, List.foldl_nil]
        rw [Function.update_of_ne (by omega)]; exact s1 i (by omega)
      · simp only [List.foldl_cons, List.foldl_nil]
        by_cases hij : i = n + j
        · subst hij
          rw [Function.update_self, s1 _ (le_refl _)]
          have hge := h1 (n + j) hi1 (by omega)
          have hle := h2 (n + j) hi1 (by omega)
          have hf : ((List.range' n (g (n + j) - n)).filter fun i => Function.update s.2 (n + j) (decide (g (n + j) ≠ n + j)) i) =
              (List.range' n (g (n + j) - n)).filter fun i => !decide (g i = i) := by
            refine List.filter_congr fun i hi => ?_
            rw [List.mem_range'_1] at hi
            rw [Function.update_of_ne (by omega), s3 i hi.1 (by omega)]
            simp
          rw [hf]
          have hlen := List.length_eq_length_filter_add (l := List.range' n (g (n + j) - n)) fun i => decide (g i = i)
          rw [List.length_range'] at hlen
          unfold keptBelow
          omega
        · rw [Function.update_of_ne hij]; exact s2 i hi1 (by omega)
      · simp only [List.foldl_cons, List.foldl_nil]
        by_cases hij : i = n + j
        · subst hij
          rw [Function.update_self, s1 _ (le_refl _)]
        · rw [Function.update_of_ne hij]; exact s3 i hi1 (by omega)
  obtain ⟨s, e, _, s2, s3⟩ := key k (le_refl k)
  unfold simpNumber
  rw [e]
  exact ⟨s2, s3⟩

theorem keptBelow_mono {n : ℕ} {g : ℕ → ℕ} {e f : ℕ} (he : n ≤ e) (hef : e ≤ f) : keptBelow n g e ≤ keptBelow n g f := by
  induction f with
  | zero => have : e = 0 := by omega
            rw [this]
  | succ f ih =>
    rcases Nat.eq_or_lt_of_le hef with rfl | h
    · exact le_refl _
    · rw [keptBelow_succ (by omega)]
      have := ih (by omega)
      omega

theorem keptBelow_lt {n : ℕ} {g : ℕ → ℕ} {e f : ℕ} (he : n ≤ e) (hg : g e = e) (hef : e < f) : keptBelow n g e < keptBelow n g f := by
  have h1 := keptBelow_mono (g := g) (n := n) (e := e + 1) (f := f) (by omega) hef
  rw [keptBelow_succ he, if_pos hg] at h1
  omega

theorem keptBelow_inj {n : ℕ} {g : ℕ → ℕ} {e f : ℕ} (he : n ≤ e) (hf : n ≤ f) (hg : g e = e) (hg' : g f = f)
    (h : keptBelow n g e = keptBelow n g f) : e = f := by
  rcases Nat.lt_trichotomy e f with h1 | h1 | h1
  · have := keptBelow_lt he hg h1; omega
  · exact h1
  · have := keptBelow_lt hf hg' h1; omega

/-- The numbers given to the clusters that stay are consecutive. -/
theorem keptBelow_range (n : ℕ) (g : ℕ → ℕ) (j : ℕ) : ((List.range' n j).filter fun e => decide (g e = e)).map (fun e => n + keptBelow n g e) =
    List.range' n (keptBelow n g (n + j)) := by
  induction j with
  | zero => simp [keptBelow]
  | succ j ih =>
    rw [List.range'_1_concat, List.filter_append, List.map_append, ih, show n + (j + 1) = n + j + 1 by omega, keptBelow_succ (by omega)]
    by_cases h : g (n + j) = n + j
    · rw [if_pos h, List.range'_1_concat]; simp [h]
    · rw [if_neg h]; simp [h]

end Verif
