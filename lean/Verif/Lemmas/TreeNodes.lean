import Verif.Lemmas.TreeQuery
import Verif.Lemmas.CoreGraph

/-!
# `update_component_vectors` and `merge_components` of the tree-based Borůvka routine
-/

namespace Verif
variable {R W : Type*} [LinearOrder R]

/-! ## Components of nodes -/

/-- The component stored for a node of the tree is known exactly if all points of the node are in it. -/
def NodesExact (t : KdTree R) (pts : ℕ → ℕ → R) (dims nNodes : ℕ) (comp : ℕ → ℕ) (nc : ℕ → Option ℕ) : Prop :=
  ∀ v s e, t.Covers pts dims nNodes v s e → ∀ c, nc v = some c ↔ ∀ j, s ≤ j → j < e → comp (t.idx j) = c

theorem updateNodes_exact {t : KdTree R} {pts : ℕ → ℕ → R} {dims nNodes : ℕ} (comp : ℕ → ℕ) (nc : ℕ → Option ℕ)
    (hstale : ∀ v s e, t.Covers pts dims nNodes v s e → ∀ c, nc v = some c → ∃ c', ∀ j, s ≤ j → j < e → comp (t.idx j) = c') :
    NodesExact t pts dims nNodes comp (updateNodes t nNodes comp nc) := by
  have main : ∀ m (nc : ℕ → Option ℕ),
      (∀ v s e, t.Covers pts dims nNodes v s e → m ≤ v → ∀ c, nc v = some c ↔ ∀ j, s ≤ j → j < e → comp (t.idx j) = c) →
      (∀ v s e, t.Covers pts dims nNodes v s e → v < m → ∀ c, nc v = some c → ∃ c', ∀ j, s ≤ j → j < e → comp (t.idx j) = c') →
      NodesExact t pts dims nNodes comp ((List.range m).reverse.foldl (nodeCompStep t comp) nc) := by
    intro m
    induction m with
    | zero => intro nc h _ v s e hv c; exact h v s e hv (Nat.zero_le _) c
    | succ m ih =>
      intro nc h1 h2
      rw [List.range_succ, List.reverse_append, List.reverse_singleton, List.singleton_append, List.foldl_cons]
      have hother : ∀ v, v ≠ m → nodeCompStep t comp nc m v = nc v := by
        intro v hv
        unfold nodeCompStep
        split
        · simp only; split
          · exact Function.update_of_ne hv _ _
          · rfl
        · split
          · exact Function.update_of_ne hv _ _
          · rfl
      refine ih _ (fun v s e hv hm c => ?_) (fun v s e hv hm c hc => ?_)
      · by_cases hvm : v = m
        · subst hvm
          have hlt := hv.lt
          -- nothing is stored for a node whose points lie in several components
          have hnone : (¬ ∃ c', ∀ j, s ≤ j → j < e → comp (t.idx j) = c') → nc v = none := by
            intro hno
            cases hx : nc v with
            | none => rfl
            | some x => exact absurd (h2 v s e hv (Nat.lt_succ_self _) x hx) hno
          cases hv with
          | leaf _ _ _ hvn hse hst hsp hl hbox hroom =>
            unfold nodeCompStep
            rw [if_pos hl, hst, hsp]
            by_cases hall : (List.range' (s + 1) (e - (s + 1))).all (fun j => decide (comp (t.idx j) = comp (t.idx s))) = true
            · rw [if_pos hall, Function.update_self]
              have hun : ∀ j, s ≤ j → j < e → comp (t.idx j) = comp (t.idx s) := by
                intro j h3 h4
                rcases Nat.eq_or_lt_of_le h3 with rfl | h3
                · rfl
                · rw [List.all_eq_true] at hall
                  have := hall j (List.mem_range'_1.2 ⟨h3, by omega⟩)
                  simpa using this
              constructor
              · intro hc j h3 h4
                rw [← Option.some.inj hc]; exact hun j h3 h4
              · intro hc
                rw [hc s (le_refl _) hse]
            · rw [if_neg hall]
              have hno : ¬ ∃ c', ∀ j, s ≤ j → j < e → comp (t.idx j) = c' := by
                rintro ⟨c', hc'⟩
                apply hall
                rw [List.all_eq_true]
                intro j hj
                rw [List.mem_range'_1] at hj
                simp only [decide_eq_true_eq]
                rw [hc' j (by omega) (by omega), hc' s (le_refl _) hse]
              rw [hnone hno]
              constructor
              · intro hc; exact absurd hc (by simp)
              · intro hc; exact absurd ⟨c, hc⟩ hno
          | node _ _ m _ hvn hst hsp hl hbox hm hsplit c1 c2 =>
            have l1 := c1.lt
            have l2 := c2.lt
            have e1 := h1 _ _ _ c1 (by omega)
            have e2 := h1 _ _ _ c2 (by omega)
            unfold nodeCompStep
            rw [if_neg (by simp [hl])]
            have hboth : (∀ j, s ≤ j → j < e → comp (t.idx j) = c) ↔ nc (2 * v + 1) = some c ∧ nc (2 * v + 2) = some c := by
              rw [e1, e2]
              constructor
              · intro hc; exact ⟨fun j _ _ => hc j (by omega) (by omega), fun j _ _ => hc j (by omega) (by omega)⟩
              · rintro ⟨ha, hb⟩ j h3 h4
                rcases Nat.lt_or_ge j m with h5 | h5
                · exact ha j h3 h5
                · exact hb j h5 h4
            by_cases heq : nc (2 * v + 1) = nc (2 * v + 1 + 1)
            · rw [if_pos heq, Function.update_self, hboth]
              have heq' : nc (2 * v + 1) = nc (2 * v + 2) := heq
              rw [← heq', and_self]
            · rw [if_neg heq]
              have hno : ¬ ∃ c', ∀ j, s ≤ j → j < e → comp (t.idx j) = c' := by
                rintro ⟨c', hc'⟩
                apply heq
                have ha := (e1 c').2 fun j _ _ => hc' j (by omega) (by omega)
                have hb := (e2 c').2 fun j _ _ => hc' j (by omega) (by omega)
                rw [ha]; exact hb.symm
              rw [hnone hno]
              constructor
              · intro hc; exact absurd hc (by simp)
              · intro hc; exact absurd ⟨c, hc⟩ hno
        · rw [hother v hvm]
          exact h1 v s e hv (by omega) c
      · rw [hother v (by omega)] at hc
        exact h2 v s e hv (by omega) c hc
  unfold updateNodes
  refine main nNodes nc (fun v s e hv hm => ?_) (fun v s e hv _ => hstale v s e hv)
  have : v < nNodes := by cases hv <;> assumption
  omega

theorem NodesExact.sound {t : KdTree R} {pts : ℕ → ℕ → R} {dims n nNodes : ℕ} (ht : t.Valid pts dims n nNodes) {comp : ℕ → ℕ}
    {nc : ℕ → Option ℕ} (h : NodesExact t pts dims nNodes comp nc) : NodesSound t comp nc := by
  intro v d hv c hc j h1 h2
  obtain ⟨s, e, hcov, _⟩ := Node_covers ht hv
  have hse : t.start v = s ∧ t.stop v = e := by cases hcov <;> exact ⟨by assumption, by assumption⟩
  exact (h v s e hcov c).1 hc j (by omega) (by omega)

/-! ## Merging -/

/-- An entry of the dictionary as an edge. -/
def entryEdge (n : ℕ) (q : ℕ × TEdge W) : ℕ × Edge W := (q.1, q.2.toEdge n)

omit [LinearOrder R] in
theorem dictMinT_map [LinearOrder W] (n : ℕ) (D : List (ℕ × TEdge W)) (k : ℕ) (e : TEdge W) :
    (dictMinT D k e).map (entryEdge n) = dictMin (D.map (entryEdge n)) k (e.toEdge n) := by
  induction D with
  | nil => rfl
  | cons p D ih =>
    unfold dictMinT dictMin
    rw [List.map_cons]
    simp only [entryEdge, TEdge.toEdge] at *
    by_cases h1 : p.1 = k
    · by_cases h2 : e.w < p.2.w
      · simp [h1, h2, entryEdge, TEdge.toEdge]
      · simp [h1, h2, entryEdge, TEdge.toEdge]
    · simp [h1, ih, entryEdge, TEdge.toEdge]

omit [LinearOrder R] in
theorem dictMinT_mem [LinearOrder W] (D : List (ℕ × TEdge W)) (k : ℕ) (e : TEdge W) {q : ℕ × TEdge W} (hq : q ∈ dictMinT D k e) :
    q ∈ D ∨ q = (k, e) := by
  induction D with
  | nil => simpa [dictMinT] using hq
  | cons p D ih =>
    unfold dictMinT at hq
    by_cases hp : p.1 = k
    · rw [if_pos hp] at hq
      split at hq
      · rcases List.mem_cons.1 hq with rfl | hq
        · exact Or.inr rfl
        · exact Or.inl (List.mem_cons_of_mem _ hq)
      · exact Or.inl hq
    · rw [if_neg hp] at hq
      rcases List.mem_cons.1 hq with rfl | hq
      · exact Or.inl (by simp)
      · rcases ih hq with h | h
        · exact Or.inl (List.mem_cons_of_mem _ h)
        · exact Or.inr h

theorem selectT_spec [LinearOrder W] (n : ℕ) (comp : ℕ → ℕ) (cand : ℕ → W × Option ℕ) :
    let D := selectT n comp cand
    (D.map Prod.fst).Nodup ∧ (∀ q ∈ D, q.1 = comp q.2.u ∧ q.2.u < n ∧ q.2 = ⟨q.2.u, (cand q.2.u).2, (cand q.2.u).1⟩) ∧
      ∀ i < n, ∃ q ∈ D, q.1 = comp i ∧ q.2.w ≤ (cand i).1 := by
  unfold selectT
  simp only
  have main : ∀ m, let D := (List.range m).foldl (fun D i => dictMinT D (comp i) ⟨i, (cand i).2, (cand i).1⟩) []
      (D.map Prod.fst).Nodup ∧ (∀ q ∈ D, q.1 = comp q.2.u ∧ q.2.u < m ∧ q.2 = ⟨q.2.u, (cand q.2.u).2, (cand q.2.u).1⟩) ∧
      ∀ i < m, ∃ q ∈ D, q.1 = comp i ∧ q.2.w ≤ (cand i).1 := by
    intro m
    induction m with
    | zero => simp
    | succ m ih =>
      obtain ⟨h1, h2, h3⟩ := ih
      simp only at h1 h2 h3 ⊢
      rw [List.range_succ, List.foldl_append]
      simp only [List.foldl_cons, List.foldl_nil]
      generalize (List.range m).foldl (fun D i => dictMinT D (comp i) ⟨i, (cand i).2, (cand i).1⟩) [] = D at *
      have hfst : ∀ L : List (ℕ × TEdge W), L.map Prod.fst = (L.map (entryEdge n)).map Prod.fst := fun L => by
        rw [List.map_map]; rfl
      have hkeys := dictMin_keys (D.map (entryEdge n)) (comp m) ((⟨m, (cand m).2, (cand m).1⟩ : TEdge W).toEdge n) (by rw [← hfst]; exact h1)
      have hle := dictMin_le (D.map (entryEdge n)) (comp m) ((⟨m, (cand m).2, (cand m).1⟩ : TEdge W).toEdge n)
      rw [← dictMinT_map, ← hfst] at hkeys
      rw [← dictMinT_map] at hle
      refine ⟨hkeys.1, fun q hq => ?_, fun i hi => ?_⟩
      · rcases dictMinT_mem _ _ _ hq with hq | rfl
        · exact ⟨(h2 q hq).1, by have := (h2 q hq).2.1; omega, (h2 q hq).2.2⟩
        · exact ⟨rfl, by simp, rfl⟩
      · rcases Nat.lt_succ_iff_lt_or_eq.1 hi with hi | rfl
        · obtain ⟨q, h5, h6, h7⟩ := h3 i hi
          obtain ⟨q', h8, h9, h10⟩ := hle.2 (entryEdge n q) (List.mem_map.2 ⟨q, h5, rfl⟩)
          obtain ⟨q'', h11, rfl⟩ := List.mem_map.1 h8
          exact ⟨q'', h11, h9.trans h6, h10.trans h7⟩
        · obtain ⟨q', h8, h9, h10⟩ := hle.1
          obtain ⟨q'', h11, rfl⟩ := List.mem_map.1 h8
          exact ⟨q'', h11, h9, h10⟩
  exact main n

/-- Merging rows is merging the edges they stand for. -/
theorem mergeStepT_map (n : ℕ) (D : List (ℕ × TEdge W)) (d : RankDS) (acc : List (TEdge W)) :
    let r := (D.map Prod.snd).foldl (mergeStepT n) (d, acc)
    let r' := (D.map (entryEdge n)).foldl (mergeStep n) (d, acc.map (TEdge.toEdge n))
    r.1 = r'.1 ∧ r.2.map (TEdge.toEdge n) = r'.2 ∧ ∀ e ∈ r.2, e ∈ acc ∨ e ∈ D.map Prod.snd := by
  induction D generalizing d acc with
  | nil => exact ⟨rfl, rfl, fun e he => Or.inl he⟩
  | cons p D ih =>
    simp only [List.map_cons, List.foldl_cons]
    have hstep : (mergeStepT n (d, acc) p.2).1 = (mergeStep n (d, acc.map (TEdge.toEdge n)) (entryEdge n p)).1 ∧
        (mergeStepT n (d, acc) p.2).2.map (TEdge.toEdge n) = (mergeStep n (d, acc.map (TEdge.toEdge n)) (entryEdge n p)).2 ∧
        ∀ e ∈ (mergeStepT n (d, acc) p.2).2, e ∈ acc ∨ e = p.2 := by
      unfold mergeStepT mergeStep entryEdge
      simp only
      split
      · exact ⟨rfl, by simp, fun e he => by simpa using he⟩
      · exact ⟨rfl, rfl, fun e he => Or.inl he⟩
    obtain ⟨s1, s2, s3⟩ := hstep
    obtain ⟨i1, i2, i3⟩ := ih (mergeStepT n (d, acc) p.2).1 (mergeStepT n (d, acc) p.2).2
    rw [s1, s2] at i1 i2
    rw [s1] at i3
    have e1 : mergeStepT n (d, acc) p.2 = ((mergeStep n (d, acc.map (TEdge.toEdge n)) (entryEdge n p)).1, (mergeStepT n (d, acc) p.2).2) := by
      rw [← s1]
    refine ⟨by rw [e1]; exact i1, by rw [e1]; exact i2, fun e he => ?_⟩
    rw [e1] at he
    rcases i3 e he with h | h
    · rcases s3 e h with h | h
      · exact Or.inl h
      · exact Or.inr (by rw [h]; simp)
    · exact Or.inr (List.mem_cons_of_mem _ h)

end Verif
