import Verif.Lemmas.SubClusters
import Verif.Lemmas.Graph

/-!
# Propagation of labels
-/

namespace Verif
variable {W V : Type*}

/-! ## The undirected graph -/

theorem mem_dictSet {D : List (ℕ × V)} {k j : ℕ} {v : V} : j ∈ (dictSet D k v).map Prod.fst ↔ j = k ∨ j ∈ D.map Prod.fst := by
  unfold dictSet
  split_ifs with h
  · rw [List.any_eq_true] at h
    obtain ⟨p, hp, hk⟩ := h
    simp only [decide_eq_true_eq] at hk
    have : ((D.map fun p => if p.1 = k then (k, v) else p).map Prod.fst) = D.map Prod.fst := by
      rw [List.map_map]
      refine List.map_congr_left fun q _ => ?_
      simp only [Function.comp]
      split_ifs with hq
      · exact hq.symm
      · rfl
    rw [this]
    constructor
    · exact Or.inr
    · rintro (rfl | h)
      · exact List.mem_map.2 ⟨p, hp, hk⟩
      · exact h
  · simp only [List.map_append, List.map_cons, List.map_nil, List.mem_append, List.mem_singleton]
    exact or_comm

/-- After reading all entries, the dictionary of a noise sample has all its neighbours. -/
theorem undirected_spec {inv : W → Option V} {lab : ℕ → ℤ} (es : List (Edge W))
    (hinv : ∀ e ∈ es, lab e.u = -1 ∨ lab e.v = -1 → ∃ v, inv e.w = some v) (U : ℕ → List (ℕ × V)) :
    ∃ U', undirected inv lab es U = some U' ∧ ∀ i, lab i = -1 → ∀ j, (j ∈ (U' i).map Prod.fst ↔
      j ∈ (U i).map Prod.fst ∨ ∃ e ∈ es, (e.u = i ∧ e.v = j) ∨ (e.v = i ∧ e.u = j)) := by
  induction es generalizing U with
  | nil => exact ⟨U, rfl, fun i _ j => by simp⟩
  | cons e es ih =>
    have step : ∃ U1, undirStep inv lab U e = some U1 ∧ ∀ i, lab i = -1 → ∀ j, (j ∈ (U1 i).map Prod.fst ↔
        j ∈ (U i).map Prod.fst ∨ (e.u = i ∧ e.v = j) ∨ (e.v = i ∧ e.u = j)) := by
      unfold undirStep
      by_cases hv : lab e.v = -1
      · obtain ⟨x, hx⟩ := hinv e (by simp) (Or.inr hv)
        simp only [hv, if_true, hx, Option.map_some, Option.bind_some]
        by_cases hu : lab e.u = -1
        · simp only [hu, if_true]
          refine ⟨_, rfl, fun i hi j => ?_⟩
          by_cases h1 : e.u = i
          · subst h1
            rw [Function.update_self, mem_dictSet]
            by_cases h2 : e.u = e.v
            · rw [h2, Function.update_self, mem_dictSet]
              constructor
              · rintro (rfl | rfl | h)
                · exact Or.inr (Or.inl ⟨rfl, rfl⟩)
                · exact Or.inr (Or.inl ⟨rfl, rfl⟩)
                · exact Or.inl h
              · rintro (h | ⟨_, rfl⟩ | ⟨_, rfl⟩)
                · exact Or.inr (Or.inr h)
                · exact Or.inl rfl
                · exact Or.inl rfl
            · rw [Function.update_of_ne h2]
              constructor
              · rintro (rfl | h)
                · exact Or.inr (Or.inl ⟨rfl, rfl⟩)
                · exact Or.inl h
              · rintro (h | ⟨_, rfl⟩ | ⟨h, _⟩)
                · exact Or.inr h
                · exact Or.inl rfl
                · exact absurd h.symm h2
          · rw [Function.update_of_ne (Ne.symm h1)]
            by_cases h2 : e.v = i
            · subst h2
              rw [Function.update_self, mem_dictSet]
              constructor
              · rintro (rfl | h)
                · exact Or.inr (Or.inr ⟨rfl, rfl⟩)
                · exact Or.inl h
              · rintro (h | ⟨h, _⟩ | ⟨_, rfl⟩)
                · exact Or.inr h
                · exact absurd h h1
                · exact Or.inl rfl
            · rw [Function.update_of_ne (Ne.symm h2)]
              simp [h1, h2]
        · simp only [hu, if_false]
          refine ⟨_, rfl, fun i hi j => ?_⟩
          have h1 : e.u ≠ i := fun h => hu (h ▸ hi)
          by_cases h2 : e.v = i
          · subst h2
            rw [Function.update_self, mem_dictSet]
            constructor
            · rintro (rfl | h)
              · exact Or.inr (Or.inr ⟨rfl, rfl⟩)
              · exact Or.inl h
            · rintro (h | ⟨h, _⟩ | ⟨_, rfl⟩)
              · exact Or.inr h
              · exact absurd h h1
              · exact Or.inl rfl
          · rw [Function.update_of_ne (Ne.symm h2)]
            simp [h1, h2]
      · simp only [hv, if_false, Option.bind_some]
        by_cases hu : lab e.u = -1
        · obtain ⟨x, hx⟩ := hinv e (by simp) (Or.inl hu)
          simp only [hu, if_true, hx, Option.map_some]
          refine ⟨_, rfl, fun i hi j => ?_⟩
          have h2 : e.v ≠ i := fun h => hv (h ▸ hi)
          by_cases h1 : e.u = i
          · subst h1
            rw [Function.update_self, mem_dictSet]
            constructor
            · rintro (rfl | h)
              · exact Or.inr (Or.inl ⟨rfl, rfl⟩)
              · exact Or.inl h
            · rintro (h | ⟨_, rfl⟩ | ⟨h, _⟩)
              · exact Or.inr h
              · exact Or.inl rfl
              · exact absurd h h2
          · rw [Function.update_of_ne (Ne.symm h1)]
            simp [h1, h2]
        · simp only [hu, if_false]
          refine ⟨_, rfl, fun i hi j => ?_⟩
          have h1 : e.u ≠ i := fun h => hu (h ▸ hi)
          have h2 : e.v ≠ i := fun h => hv (h ▸ hi)
          simp [h1, h2]
    obtain ⟨U1, e1, s1⟩ := step
    obtain ⟨U2, e2, s2⟩ := ih (fun e he => hinv e (by simp [he])) U1
    refine ⟨U2, ?_, fun i hi j => ?_⟩
    · unfold undirected
      rw [e1, Option.bind_some, e2]
    · rw [s2 i hi j, s1 i hi j]
      constructor
      · rintro ((h | h) | ⟨e', he', h⟩)
        · exact Or.inl h
        · exact Or.inr ⟨e, by simp, h⟩
        · exact Or.inr ⟨e', by simp [he'], h⟩
      · rintro (h | ⟨e', he', h⟩)
        · exact Or.inl (Or.inl h)
        · rcases List.mem_cons.1 he' with rfl | he'
          · exact Or.inl (Or.inr h)
          · exact Or.inr ⟨e', he', h⟩

/-! ## Votes -/

/-- The total weight of the neighbours with label `l`. -/
def voteTotal [Add V] (zero : V) (lab : ℕ → ℤ) (nb : List (ℕ × V)) (l : ℤ) : V :=
  ((nb.filter fun p => lab p.1 = l).map Prod.snd).foldl (· + ·) zero

theorem voteTotal_snoc [Add V] (zero : V) (lab : ℕ → ℤ) (nb : List (ℕ × V)) (p : ℕ × V) (l : ℤ) :
    voteTotal zero lab (nb ++ [p]) l = if lab p.1 = l then voteTotal zero lab nb l + p.2 else voteTotal zero lab nb l := by
  unfold voteTotal
  rw [List.filter_append]
  by_cases h : lab p.1 = l
  · rw [if_pos h, List.filter_cons_of_pos (by simpa using h), List.filter_nil, List.map_append, List.foldl_append]
    rfl
  · rw [if_neg h, List.filter_cons_of_neg (by simpa using h), List.filter_nil, List.append_nil]

theorem mem_votes [Add V] (zero : V) (lab : ℕ → ℤ) (nb : List (ℕ × V)) (l : ℤ) (v : V) :
    (l, v) ∈ votes zero lab nb ↔ l ≠ -1 ∧ (∃ p ∈ nb, lab p.1 = l) ∧ v = voteTotal zero lab nb l := by
  induction nb using List.reverseRecOn generalizing l v with
  | nil => simp [votes]
  | append_singleton nb p ih =>
    have hf : votes zero lab (nb ++ [p]) = if lab p.1 = -1 then votes zero lab nb else voteAdd zero (votes zero lab nb) (lab p.1) p.2 := by
      unfold votes; rw [List.foldl_append]; rfl
    rw [hf, voteTotal_snoc]
    by_cases hp : lab p.1 = -1
    · rw [if_pos hp, ih]
      constructor
      · rintro ⟨h1, ⟨q, hq, h2⟩, h3⟩
        exact ⟨h1, ⟨q, by simp [hq], h2⟩, by rw [if_neg (fun h => h1 (h.symm.trans hp))]; exact h3⟩
      · rintro ⟨h1, ⟨q, hq, h2⟩, h3⟩
        have hne : lab p.1 ≠ l := fun h => h1 (h.symm.trans hp)
        rw [if_neg hne] at h3
        refine ⟨h1, ?_, h3⟩
        rcases List.mem_append.1 hq with hq | hq
        · exact ⟨q, hq, h2⟩
        · rw [List.mem_singleton.1 hq] at h2; exact absurd h2 hne
    · rw [if_neg hp]
      unfold voteAdd
      by_cases hany : (votes zero lab nb).any fun q => decide (q.1 = lab p.1)
      · rw [if_pos hany]
        rw [List.any_eq_true] at hany
        obtain ⟨⟨l0, v0⟩, hq, hq2⟩ := hany
        simp only [decide_eq_true_eq] at hq2
        subst hq2
        obtain ⟨_, hex, hv0⟩ := (ih _ _).1 hq
        rw [List.mem_map]
        constructor
        · rintro ⟨⟨l1, v1⟩, h1, h2⟩
          obtain ⟨a1, a2, a3⟩ := (ih _ _).1 h1
          by_cases he : l1 = lab p.1
          · simp only [he, if_true, Prod.mk.injEq] at h2
            obtain ⟨rfl, rfl⟩ := h2
            refine ⟨hp, ⟨p, by simp, rfl⟩, ?_⟩
            rw [if_pos rfl, a3, he]
          · simp only [he, if_false, Prod.mk.injEq] at h2
            obtain ⟨rfl, rfl⟩ := h2
            obtain ⟨q, hq, hql⟩ := a2
            exact ⟨a1, ⟨q, by simp [hq], hql⟩, by rw [if_neg (Ne.symm he)]; exact a3⟩
        · rintro ⟨h1, ⟨q, hq', h2⟩, h3⟩
          by_cases he : lab p.1 = l
          · rw [if_pos he] at h3
            refine ⟨(lab p.1, v0), hq, ?_⟩
            simp only [if_true]
            rw [h3, hv0, he]
          · rw [if_neg he] at h3
            refine ⟨(l, v), (ih _ _).2 ⟨h1, ?_, h3⟩, ?_⟩
            · rcases List.mem_append.1 hq' with hq' | hq'
              · exact ⟨q, hq', h2⟩
              · rw [List.mem_singleton.1 hq'] at h2; exact absurd h2 he
            · simp only [Ne.symm he, if_false]
      · rw [if_neg hany]
        have hno : ∀ q ∈ nb, lab q.1 ≠ lab p.1 := by
          intro q hq he
          refine hany (List.any_eq_true.2 ⟨(lab p.1, voteTotal zero lab nb (lab p.1)), (ih _ _).2 ⟨hp, ⟨q, hq, he⟩, rfl⟩, by simp⟩)
        have hz : voteTotal zero lab nb (lab p.1) = zero := by
          unfold voteTotal
          rw [List.filter_eq_nil_iff.2 (fun q hq => by simpa using hno q hq)]
          rfl
        rw [List.mem_append, List.mem_singleton, Prod.mk.injEq]
        constructor
        · rintro (h | ⟨rfl, rfl⟩)
          · obtain ⟨a1, ⟨q, hq, a2⟩, a3⟩ := (ih _ _).1 h
            exact ⟨a1, ⟨q, by simp [hq], a2⟩, by rw [if_neg (fun h => hno q hq (a2.trans h.symm))]; exact a3⟩
          · exact ⟨hp, ⟨p, by simp, rfl⟩, by rw [if_pos rfl, hz]⟩
        · rintro ⟨h1, ⟨q, hq, h2⟩, h3⟩
          by_cases he : lab p.1 = l
          · subst he
            rw [if_pos rfl, hz] at h3
            exact Or.inr ⟨rfl, h3⟩
          · rw [if_neg he] at h3
            rcases List.mem_append.1 hq with hq | hq
            · exact Or.inl ((ih _ _).2 ⟨h1, ⟨q, hq, h2⟩, h3⟩)
            · rw [List.mem_singleton.1 hq] at h2; exact absurd h2 he

theorem argmaxVote_spec [LinearOrder V] {C : List (ℤ × V)} (h : C ≠ []) :
    ∃ c ∈ C, argmaxVote C = some c ∧ ∀ d ∈ C, d.2 ≤ c.2 := by
  obtain ⟨c0, cs, rfl⟩ := List.exists_cons_of_ne_nil h
  have key : ∀ (cs : List (ℤ × V)) (c0 : ℤ × V), ∃ c ∈ c0 :: cs, cs.foldl (fun m c => if m.2 < c.2 then c else m) c0 = c ∧
      ∀ d ∈ c0 :: cs, d.2 ≤ c.2 := by
    intro cs
    induction cs with
    | nil => intro c0; exact ⟨c0, by simp, rfl, by simp⟩
    | cons c cs ih =>
      intro c0
      rw [List.foldl_cons]
      obtain ⟨m, hm, he, hmax⟩ := ih (if c0.2 < c.2 then c else c0)
      refine ⟨m, ?_, he, fun d hd => ?_⟩
      · rcases List.mem_cons.1 hm with rfl | hm
        · split_ifs <;> simp
        · simp [hm]
      · have h1 := hmax (if c0.2 < c.2 then c else c0) (by simp)
        rcases List.mem_cons.1 hd with rfl | hd
        · split_ifs at h1 with hlt
          · exact hlt.le.trans h1
          · exact h1
        · rcases List.mem_cons.1 hd with rfl | hd
          · split_ifs at h1 with hlt
            · exact h1
            · exact (not_lt.1 hlt).trans h1
          · exact hmax d (by simp [hd])
  obtain ⟨c, hc, he, hmax⟩ := key cs c0
  exact ⟨c, hc, congrArg some he, hmax⟩

/-- One vote: nothing happens without labelled neighbours; otherwise the sample gets the label with the largest total weight. -/
theorem voteStep_spec [LinearOrder V] [Add V] (zero : V) (U : ℕ → List (ℕ × V)) (lab : ℕ → ℤ) (i : ℕ) :
    ((∀ p ∈ U i, lab p.1 = -1) ∧ voteStep zero U lab i = lab) ∨
      ∃ l, l ≠ -1 ∧ (∃ p ∈ U i, lab p.1 = l) ∧ voteStep zero U lab i = Function.update lab i l ∧
        ∀ p ∈ U i, lab p.1 ≠ -1 → voteTotal zero lab (U i) (lab p.1) ≤ voteTotal zero lab (U i) l := by
  unfold voteStep
  by_cases h : votes zero lab (U i) = []
  · left
    refine ⟨fun p hp => ?_, by rw [h]; rfl⟩
    by_contra hc
    have := (mem_votes zero lab (U i) (lab p.1) _).2 ⟨hc, ⟨p, hp, rfl⟩, rfl⟩
    rw [h] at this
    simp at this
  · right
    obtain ⟨⟨l, v⟩, hc, he, hmax⟩ := argmaxVote_spec h
    obtain ⟨h1, h2, h3⟩ := (mem_votes zero lab (U i) l v).1 hc
    refine ⟨l, h1, h2, by rw [he], fun p hp hne => ?_⟩
    have := hmax _ ((mem_votes zero lab (U i) (lab p.1) _).2 ⟨hne, ⟨p, hp, rfl⟩, rfl⟩)
    rw [← h3]
    exact this

/-! ## Sweeps -/

/-- One sweep over the noise samples. -/
theorem sweep_spec [LinearOrder V] [Add V] (zero : V) {U : ℕ → List (ℕ × V)} {n : ℕ} {S : ℤ → Prop} (is : List ℕ) (hnd : is.Nodup)
    (hU : ∀ i ∈ is, ∀ p ∈ U i, p.1 < n) (lab : ℕ → ℤ) (hlab : ∀ j < n, lab j = -1 ∨ S (lab j)) (hn : ∀ i ∈ is, i < n) (hnoise : ∀ i ∈ is, lab i = -1) :
    let lab' := is.foldl (voteStep zero U) lab
    (∀ j < n, lab' j = -1 ∨ S (lab' j)) ∧ (∀ j, lab j ≠ -1 → lab' j = lab j) ∧ (∀ j, j ∉ is → lab' j = lab j) ∧
      ∀ i ∈ is, (∃ p ∈ U i, lab p.1 ≠ -1) → lab' i ≠ -1 := by
  induction is generalizing lab with
  | nil => exact ⟨hlab, fun _ _ => rfl, fun _ _ => rfl, fun i hi => by simp at hi⟩
  | cons i is ih =>
    obtain ⟨hi, hnd'⟩ := List.nodup_cons.1 hnd
    have hs := voteStep_spec zero U lab i
    have h1 : (∀ j < n, voteStep zero U lab i j = -1 ∨ S (voteStep zero U lab i j)) ∧ (∀ j, lab j ≠ -1 → voteStep zero U lab i j = lab j) ∧
        (∀ j, j ≠ i → voteStep zero U lab i j = lab j) ∧ ((∃ p ∈ U i, lab p.1 ≠ -1) → voteStep zero U lab i i ≠ -1) := by
      rcases hs with ⟨ha, hb⟩ | ⟨l, hl, ⟨p, hp, hpl⟩, hb, _⟩
      · rw [hb]
        exact ⟨hlab, fun _ _ => rfl, fun _ _ => rfl, fun ⟨p, hp, hc⟩ => absurd (ha p hp) hc⟩
      · rw [hb]
        refine ⟨fun j hj => ?_, fun j hj => ?_, fun j hj => ?_, fun _ => ?_⟩
        · by_cases hji : j = i
          · subst hji
            rw [Function.update_self]
            right
            rcases hlab p.1 (hU j (by simp) p hp) with h | h
            · exact absurd (hpl.symm.trans h) hl
            · rw [← hpl]; exact h
          · rw [Function.update_of_ne hji]; exact hlab j hj
        · have : j ≠ i := fun e => hj (e ▸ hnoise i (by simp))
          rw [Function.update_of_ne this]
        · rw [Function.update_of_ne hj]
        · rw [Function.update_self]; exact hl
    obtain ⟨a1, a2, a3, a4⟩ := h1
    obtain ⟨b1, b2, b3, b4⟩ := ih hnd' (fun j hj => hU j (by simp [hj])) (voteStep zero U lab i) a1 (fun j hj => hn j (by simp [hj]))
      (fun j hj => by rw [a3 j (fun e => hi (e ▸ hj))]; exact hnoise j (by simp [hj]))
    rw [List.foldl_cons]
    refine ⟨b1, fun j hj => ?_, fun j hj => ?_, fun j hj hex => ?_⟩
    · rw [b2 j (by rw [a2 j hj]; exact hj), a2 j hj]
    · rw [List.mem_cons, not_or] at hj
      rw [b3 j hj.2, a3 j hj.1]
    · rcases List.mem_cons.1 hj with rfl | hj
      · rw [b3 j hi]; exact a4 hex
      · obtain ⟨p, hp, hc⟩ := hex
        exact b4 j hj ⟨p, hp, by rw [a2 _ hc]; exact hc⟩

/-- A connected graph with labelled and unlabelled samples has an edge between them. -/
theorem exists_crossing {n : ℕ} {es : List (Edge W)} (hconn : ∀ a < n, ∀ b < n, Conn es a b) {lab : ℕ → ℤ} (h1 : ∃ i < n, lab i = -1)
    (h2 : ∃ j < n, lab j ≠ -1) :
    ∃ e ∈ es, (lab e.u = -1 ∧ lab e.v ≠ -1) ∨ (lab e.v = -1 ∧ lab e.u ≠ -1) := by
  by_contra hc
  push Not at hc
  obtain ⟨i, hi, hli⟩ := h1
  obtain ⟨j, hj, hlj⟩ := h2
  have := conn_invariant (es := es) (fun i : ℕ => decide (lab i = -1)) (fun e he => by
    have := hc e he
    by_cases hu : lab e.u = -1 <;> by_cases hv : lab e.v = -1 <;> simp_all) (hconn i hi j hj)
  simp only [hli, decide_true] at this
  exact hlj (by simpa using this.symm)

theorem propagateLoop_spec [LinearOrder V] [Add V] (zero : V) {n : ℕ} {es : List (Edge W)} {S : ℤ → Prop}
    (hconn : ∀ a < n, ∀ b < n, Conn es a b) (hr : ∀ e ∈ es, e.u < n ∧ e.v < n) {U : ℕ → List (ℕ × V)} {lab0 : ℕ → ℤ}
    (hU : ∀ i, lab0 i = -1 → ∀ j, (j ∈ (U i).map Prod.fst ↔ ∃ e ∈ es, (e.u = i ∧ e.v = j) ∨ (e.v = i ∧ e.u = j)))
    (k : ℕ) (lab : ℕ → ℤ) (hk : (clusterPoints n lab (-1)).length ≤ k) (hlab : ∀ j < n, lab j = -1 ∨ S (lab j))
    (h0 : ∀ j, lab0 j ≠ -1 → lab j = lab0 j) (hex : ∃ j < n, lab j ≠ -1) :
    ∃ lab', (∀ fuel, k < fuel → propagateLoop zero n U fuel lab = some lab') ∧ (∀ j, lab j ≠ -1 → lab' j = lab j) ∧
      (∀ j < n, lab' j ≠ -1 ∧ S (lab' j)) ∧ ∀ j, n ≤ j → lab' j = lab j := by
  induction k generalizing lab with
  | zero =>
    have hnil : clusterPoints n lab (-1) = [] := List.length_eq_zero_iff.1 (by omega)
    refine ⟨lab, fun fuel hf => ?_, fun _ _ => rfl, fun j hj => ?_, fun _ _ => rfl⟩
    · obtain ⟨f, rfl⟩ := Nat.exists_eq_succ_of_ne_zero (by omega : fuel ≠ 0)
      unfold propagateLoop
      rw [if_pos hnil]
    · have : lab j ≠ -1 := fun h => by
        have := mem_clusterPoints.2 ⟨hj, h⟩
        rw [hnil] at this; simp at this
      exact ⟨this, (hlab j hj).resolve_left this⟩
  | succ k ih =>
    by_cases hnil : clusterPoints n lab (-1) = []
    · refine ⟨lab, fun fuel hf => ?_, fun _ _ => rfl, fun j hj => ?_, fun _ _ => rfl⟩
      · obtain ⟨f, rfl⟩ := Nat.exists_eq_succ_of_ne_zero (by omega : fuel ≠ 0)
        unfold propagateLoop
        rw [if_pos hnil]
      · have : lab j ≠ -1 := fun h => by
          have := mem_clusterPoints.2 ⟨hj, h⟩
          rw [hnil] at this; simp at this
        exact ⟨this, (hlab j hj).resolve_left this⟩
    · have hnoise0 : ∀ i, lab i = -1 → lab0 i = -1 := fun i hi => by
        by_contra hc
        rw [h0 i hc] at hi; exact hc hi
      obtain ⟨a1, a2, a3, a4⟩ := sweep_spec zero (U := U) (n := n) (S := S) (clusterPoints n lab (-1)) (clusterPoints_nodup _ _ _)
        (fun i hi p hp => by
          obtain ⟨_, hli⟩ := mem_clusterPoints.1 hi
          obtain ⟨e, he, h⟩ := (hU i (hnoise0 i hli) p.1).1 (List.mem_map.2 ⟨p, hp, rfl⟩)
          have := hr e he
          rcases h with ⟨_, h⟩ | ⟨_, h⟩
          · rw [← h]; exact this.2
          · rw [← h]; exact this.1) lab hlab (fun i hi => (mem_clusterPoints.1 hi).1) (fun i hi => (mem_clusterPoints.1 hi).2)
      set lab1 := (clusterPoints n lab (-1)).foldl (voteStep zero U) lab with hlab1
      -- one sample at least is labelled
      obtain ⟨i, hi⟩ := List.exists_mem_of_ne_nil _ hnil
      obtain ⟨e, he, hcross⟩ := exists_crossing hconn ⟨i, mem_clusterPoints.1 hi⟩ hex
      have hprog : ∃ i ∈ clusterPoints n lab (-1), lab1 i ≠ -1 := by
        have hre := hr e he
        rcases hcross with ⟨h1, h2⟩ | ⟨h1, h2⟩
        · have hm := mem_clusterPoints.2 ⟨hre.1, h1⟩
          refine ⟨e.u, hm, a4 e.u hm ?_⟩
          obtain ⟨p, hp, hpe⟩ := List.mem_map.1 ((hU e.u (hnoise0 _ h1) e.v).2 ⟨e, he, Or.inl ⟨rfl, rfl⟩⟩)
          exact ⟨p, hp, by rw [hpe]; exact h2⟩
        · have hm := mem_clusterPoints.2 ⟨hre.2, h1⟩
          refine ⟨e.v, hm, a4 e.v hm ?_⟩
          obtain ⟨p, hp, hpe⟩ := List.mem_map.1 ((hU e.v (hnoise0 _ h1) e.u).2 ⟨e, he, Or.inr ⟨rfl, rfl⟩⟩)
          exact ⟨p, hp, by rw [hpe]; exact h2⟩
      have hlt : (clusterPoints n lab1 (-1)).length < (clusterPoints n lab (-1)).length := by
        have hsub : clusterPoints n lab1 (-1) = (clusterPoints n lab (-1)).filter fun i => lab1 i = -1 := by
          unfold clusterPoints
          rw [List.filter_filter]
          refine List.filter_congr fun j hj => ?_
          by_cases hj1 : lab1 j = -1
          · have : lab j = -1 := by
              by_contra hc
              rw [a2 j hc] at hj1; exact hc hj1
            simp [hj1, this]
          · simp [hj1]
        rw [hsub, List.length_filter_lt_length_iff_exists]
        obtain ⟨i, hi, hne⟩ := hprog
        exact ⟨i, hi, by simpa using hne⟩
      obtain ⟨lab', b1, b2, b3, b4⟩ := ih lab1 (by omega) a1 (fun j hj => by
          rw [a2 j (by rw [h0 j hj]; exact hj), h0 j hj]) (by
          obtain ⟨j, hj, hne⟩ := hex
          exact ⟨j, hj, by rw [a2 j hne]; exact hne⟩)
      refine ⟨lab', fun fuel hf => ?_, fun j hj => ?_, b3, fun j hj => ?_⟩
      · obtain ⟨f, rfl⟩ := Nat.exists_eq_succ_of_ne_zero (by omega : fuel ≠ 0)
        unfold propagateLoop
        simp only [hnil, if_false]
        exact b1 f (by omega)
      · rw [b2 j (by rw [a2 j hj]; exact hj), a2 j hj]
      · rw [b4 j hj]
        exact a3 j fun h => by have := (mem_clusterPoints.1 h).1; omega

end Verif
