import Verif.Lemmas.CondFacts

/-!
# Facts about `condense_tree` that need no assumption on sizes, weights or thresholds
-/

namespace Verif
variable {W S L : Type*}

section
variable [LinearOrder S] [One S] {H : Hier W S} {wt : ℕ → S} {mcs : S} {mx : Option S}

/-- Leaves of the branch below `c`, in the order they are written. -/
def Hier.leavesOf (H : Hier W S) (c : ℕ) : List ℕ := (H.bfs c).filter fun u => decide (u < H.n)

/-- Every iteration eliminates a set `E` of children and writes one more row for each child in `F`. -/
theorem condenseStep_shape {lam : W → L} {st : CondState L S} {v : ℕ} (hv : H.Valid)
    (hi : st.ignore v = false) (hn : H.n ≤ v) (hr : v ≤ H.root) :
    ∃ (E F : List ℕ) (new : List (CRow L S)) (nx : ℕ),
      (E ++ F).Sublist [H.l (v - H.n), H.r (v - H.n)] ∧
      (condenseStep H wt mcs mx lam st v).rows = st.rows ++ new ∧
      (condenseStep H wt mcs mx lam st v).next = st.next + nx ∧
      (∀ u, (condenseStep H wt mcs mx lam st v).ignore u =
        (st.ignore u || decide (H.n ≤ u ∧ ∃ c ∈ E, u ∈ H.bfs c))) ∧
      ((new.map CRow.child = E.flatMap H.leavesOf ++ F ∧ nx = 0 ∧ ∀ c ∈ F, c < H.n) ∨
        (E = [] ∧ F = [H.l (v - H.n), H.r (v - H.n)] ∧ nx = 2 ∧
          new.map CRow.child = [st.next, st.next + 1])) := by
  have hre := H.root_eq
  have hlt := hv.lt (v - H.n) (by omega)
  have hel : ∀ (p : ℕ) (lv : L) (c : ℕ), (elimRows (S := S) H p lv c).map CRow.child = H.leavesOf c :=
    fun p lv c => elimRows_children
  unfold condenseStep
  rw [if_neg (by rw [hi]; simp; omega)]
  simp only []
  by_cases h1 : H.l (v - H.n) < H.n ∧ mcs ≤ H.count wt (H.r (v - H.n))
  · rw [if_pos h1]
    exact ⟨[], [H.l (v - H.n)], _, 0, by simp, rfl, rfl, by simp, Or.inl ⟨by simp, rfl, by simpa using h1.1⟩⟩
  rw [if_neg h1]
  by_cases h2 : H.count wt (H.l (v - H.n)) < mcs ∧ mcs ≤ H.count wt (H.r (v - H.n))
  · rw [if_pos h2, eliminateBranch_eq]
    exact ⟨[H.l (v - H.n)], [], _, 0, by simp, rfl, rfl, by simp, Or.inl ⟨by simp [hel], rfl, by simp⟩⟩
  rw [if_neg h2]
  by_cases h3 : mcs ≤ H.count wt (H.l (v - H.n)) ∧ H.count wt (H.r (v - H.n)) < mcs
  · rw [if_pos h3, eliminateBranch_eq]
    exact ⟨[H.r (v - H.n)], [], _, 0, by simp, rfl, rfl, by simp, Or.inl ⟨by simp [hel], rfl, by simp⟩⟩
  rw [if_neg h3]
  by_cases h4 : H.count wt (H.l (v - H.n)) < mcs ∧ H.count wt (H.r (v - H.n)) < mcs
  · rw [if_pos h4, eliminateBranch_eq, eliminateBranch_eq]
    refine ⟨[H.l (v - H.n), H.r (v - H.n)], [],
      elimRows H (st.relabel v) (lam (H.d (v - H.n))) (H.l (v - H.n)) ++
        elimRows H (st.relabel v) (lam (H.d (v - H.n))) (H.r (v - H.n)), 0, by simp, by simp, rfl, ?_,
      Or.inl ⟨by simp [hel], rfl, by simp⟩⟩
    intro u
    simp only [List.mem_cons, List.not_mem_nil, or_false, exists_eq_or_imp, exists_eq_left]
    rw [Bool.or_assoc, ← Bool.decide_or]
    congr 1
    exact decide_eq_decide.2 and_or_left.symm
  rw [if_neg h4]
  by_cases h5 : (mx.any fun x => decide (x < H.count wt (H.l (v - H.n)) ∧ x < H.count wt (H.r (v - H.n)))) = true
  · rw [if_pos h5]
    exact ⟨[], [], [], 0, by simp, by simp, rfl, by simp, Or.inl ⟨by simp, rfl, by simp⟩⟩
  · rw [if_neg h5]
    exact ⟨[], [H.l (v - H.n), H.r (v - H.n)], _, 2, by simp, rfl, rfl, by simp, Or.inr ⟨rfl, rfl, rfl, rfl⟩⟩

/-- Each written row is charged to a node `U` of the hierarchy other than the root. -/
structure BufInv (H : Hier W S) (P : List ℕ) (st : CondState L S) (U : List ℕ) : Prop where
  len : st.rows.length = U.length
  nodup : U.Nodup
  par : ∀ u ∈ U, ∃ w, H.IsKid w u ∧ (w ∈ P ∨ st.ignore w = true)
  pts : (((st.rows.map CRow.child).filter fun c => decide (c < H.n)).Sublist U)
  next_ge : H.n + 1 ≤ st.next
  seq : (st.rows.map CRow.child).filter (fun c => decide (H.n ≤ c)) =
    List.range' (H.n + 1) (st.next - (H.n + 1))
  ign : ∀ w, st.ignore w = true → H.n ≤ w ∧ ∃ u ∈ P, ∃ c, H.IsKid u c ∧ H.Sub c w ∧
    ∀ w', H.Sub c w' → H.n ≤ w' → st.ignore w' = true

omit [One S] [LinearOrder S] in
theorem mem_leavesOf (hv : H.Valid) {c x : ℕ} (hc : c ≤ H.root) : x ∈ H.leavesOf c ↔ x < H.n ∧ H.Sub c x := by
  unfold Hier.leavesOf
  rw [List.mem_filter, Hier.mem_bfs hv hc, decide_eq_true_eq, and_comm]

theorem BufInv.step (hv : H.Valid) {lam : W → L} {P : List ℕ} {st : CondState L S} {U : List ℕ}
    (h : BufInv H P st U) {v : ℕ} (hi : st.ignore v = false) (hn : H.n ≤ v) (hr : v ≤ H.root) (hvP : v ∉ P)
    (hup : ∀ w ∈ P, w = H.root ∨ ∃ u ∈ P, H.IsKid u w) :
    ∃ U', BufInv H (P ++ [v]) (condenseStep H wt mcs mx lam st v) U' := by
  obtain ⟨E, F, new, nx, hEF, hrows, hnext, hign, hcase⟩ :=
    condenseStep_shape (wt := wt) (mcs := mcs) (mx := mx) (lam := lam) hv hi hn hr
  have hre := H.root_eq
  have hlt := hv.lt (v - H.n) (by omega)
  have hnd2 : (E ++ F).Nodup := hEF.nodup (by simp; omega)
  have hkid : ∀ c ∈ E ++ F, H.IsKid v c := by
    intro c hc
    have := hEF.subset hc
    exact ⟨hn, by omega, by simpa using this⟩
  have hkE : ∀ c ∈ E, H.IsKid v c := fun c hc => hkid c (by simp [hc])
  have hkF : ∀ c ∈ F, H.IsKid v c := fun c hc => hkid c (by simp [hc])
  have hcr : ∀ c, H.IsKid v c → c ≤ H.root := fun c hc => by have := hc.lt hv; omega
  -- processed nodes are never below `v`
  have hnotP : ∀ w, H.Sub v w → w ∉ P := by
    intro w hw
    have hw' : Relation.ReflTransGen H.IsKid v w := hw
    induction hw' with
    | refl => exact hvP
    | @tail w x hvw hk ih =>
      intro hxP
      rcases hup x hxP with h1 | ⟨u, hu, hk'⟩
      · exact hk.ne_root hv h1
      · have := hk.unique hv hk'
        subst this
        exact ih hvw hu
  have hnotI : ∀ w, H.Sub v w → st.ignore w = false := by
    intro w hw
    by_contra hc
    rw [Bool.not_eq_false] at hc
    obtain ⟨_, u, hu, c, hk, hcw, hall⟩ := h.ign w hc
    rcases hcw.comparable hv hw with h1 | h1
    · have := hall v h1 hn
      rw [hi] at this; cases this
    · rcases h1.cases_tail with h2 | ⟨x, h2, h3⟩
      · subst h2
        have := hall c (Hier.Sub.refl _) hn
        rw [hi] at this; cases this
      · have := h3.unique hv hk
        subst this
        exact hnotP _ h2 hu
  -- nodes newly charged
  have hfresh : ∀ x w, H.IsKid w x → H.Sub v w → x ∉ U := by
    intro x w hk hs hx
    obtain ⟨w', hk', h1⟩ := h.par x hx
    have := hk.unique hv hk'
    subst this
    rcases h1 with h1 | h1
    · exact hnotP _ hs h1
    · rw [hnotI _ hs] at h1; cases h1
  have hpar : ∀ x c, c ∈ E → H.Sub c x → ∃ w, H.IsKid w x ∧ H.Sub v w ∧ (w = v ∨ H.Sub c w) := by
    intro x c hc hs
    rcases hs.cases_tail with h1 | ⟨w, h1, h2⟩
    · subst h1; exact ⟨v, hkE _ hc, Hier.Sub.refl _, Or.inl rfl⟩
    · exact ⟨w, h2, (Hier.Sub.kid (hkE _ hc)).trans h1, Or.inr h1⟩
  have hign' : ∀ w, st.ignore w = true → (condenseStep H wt mcs mx lam st v).ignore w = true := by
    intro w hw; rw [hign, hw]; rfl
  have hNmem : ∀ x ∈ E.flatMap H.leavesOf ++ F, ∃ w, H.IsKid w x ∧ H.Sub v w ∧
      (w = v ∨ (condenseStep H wt mcs mx lam st v).ignore w = true) := by
    intro x hx
    rw [List.mem_append, List.mem_flatMap] at hx
    rcases hx with ⟨c, hc, hx⟩ | hx
    · rw [mem_leavesOf hv (hcr c (hkE c hc))] at hx
      obtain ⟨w, h1, h2, h3⟩ := hpar x c hc hx.2
      refine ⟨w, h1, h2, ?_⟩
      rcases h3 with h3 | h3
      · exact Or.inl h3
      · right
        rw [hign]
        have : H.n ≤ w ∧ ∃ c ∈ E, w ∈ H.bfs c :=
          ⟨h1.1, c, hc, (Hier.mem_bfs hv (hcr c (hkE c hc))).2 h3⟩
        simp [this]
    · exact ⟨v, hkF x hx, Hier.Sub.refl _, Or.inl rfl⟩
  have hNnodup : (E.flatMap H.leavesOf ++ F).Nodup := by
    rw [List.nodup_append] at hnd2 ⊢
    refine ⟨?_, hnd2.2.1, ?_⟩
    · rw [List.nodup_flatMap]
      refine ⟨fun c hc => (Hier.nodup_bfs hv (hcr c (hkE c hc))).filter _, ?_⟩
      refine List.Pairwise.imp_of_mem ?_ hnd2.1
      intro a b ha hb hne x hx hx'
      rw [mem_leavesOf hv (hcr _ (hkE _ ha))] at hx
      rw [mem_leavesOf hv (hcr _ (hkE _ hb))] at hx'
      exact hne (Hier.kids_disjoint hv (hkE _ ha) (hkE _ hb) hx.2 hx'.2)
    · intro x hx y hy hxy
      subst hxy
      rw [List.mem_flatMap] at hx
      obtain ⟨c, hc, hx⟩ := hx
      rw [mem_leavesOf hv (hcr c (hkE c hc))] at hx
      have := Hier.kids_disjoint hv (hkE c hc) (hkF x hy) hx.2 (Hier.Sub.refl x)
      exact hnd2.2.2 c hc x hy this
  have hnewlen : new.length = (E.flatMap H.leavesOf ++ F).length := by
    rcases hcase with ⟨h1, _, _⟩ | ⟨h1, h2, _, h3⟩
    · rw [← h1, List.length_map]
    · rw [h1, h2, ← List.length_map (f := CRow.child), h3]; simp
  have hleaf : ∀ x ∈ E.flatMap H.leavesOf, x < H.n := by
    intro x hx
    rw [List.mem_flatMap] at hx
    obtain ⟨c, hc, hx⟩ := hx
    rw [mem_leavesOf hv (hcr c (hkE c hc))] at hx
    exact hx.1
  have hng := h.next_ge
  refine ⟨U ++ (E.flatMap H.leavesOf ++ F), ?_⟩
  constructor
  · rw [hrows, List.length_append, List.length_append, h.len, hnewlen]
  · rw [List.nodup_append]
    refine ⟨h.nodup, hNnodup, ?_⟩
    intro x hx y hy hxy
    subst hxy
    obtain ⟨w, h1, h2, _⟩ := hNmem x hy
    exact hfresh x w h1 h2 hx
  · intro u hu
    rw [List.mem_append] at hu
    rcases hu with hu | hu
    · obtain ⟨w, h1, h2⟩ := h.par u hu
      refine ⟨w, h1, ?_⟩
      rcases h2 with h2 | h2
      · exact Or.inl (by simp [h2])
      · exact Or.inr (hign' w h2)
    · obtain ⟨w, h1, _, h3⟩ := hNmem u hu
      refine ⟨w, h1, ?_⟩
      rcases h3 with h3 | h3
      · exact Or.inl (by simp [h3])
      · exact Or.inr h3
  · rw [hrows, List.map_append, List.filter_append]
    refine h.pts.append ?_
    rcases hcase with ⟨h1, _, h3⟩ | ⟨h1, h2, _, h3⟩
    · rw [h1]; exact List.filter_sublist
    · rw [h3]
      have : [st.next, st.next + 1].filter (fun c => decide (c < H.n)) = [] := by
        simp; omega
      rw [this]; exact List.nil_sublist _
  · omega
  · rw [hrows, hnext, List.map_append, List.filter_append, h.seq]
    rcases hcase with ⟨h1, h2, h3⟩ | ⟨h1, h2, h3, h4⟩
    · have : (new.map CRow.child).filter (fun c => decide (H.n ≤ c)) = [] := by
        rw [h1, List.filter_eq_nil_iff]
        intro x hx
        have : x < H.n := by
          rw [List.mem_append] at hx
          rcases hx with hx | hx
          · exact hleaf x hx
          · exact h3 x hx
        simp; omega
      rw [this, h2, List.append_nil]
      rfl
    · have : (new.map CRow.child).filter (fun c => decide (H.n ≤ c)) = [st.next, st.next + 1] := by
        rw [h4, List.filter_eq_self]
        intro x hx
        simp only [List.mem_cons, List.not_mem_nil, or_false] at hx
        rw [decide_eq_true_eq]; omega
      rw [this, h3, show st.next + 2 - (H.n + 1) = (st.next - (H.n + 1)) + 2 by omega, ← List.range'_append]
      congr 1
      rw [show H.n + 1 + 1 * (st.next - (H.n + 1)) = st.next by omega]
      rfl
  · intro w hw
    rw [hign, Bool.or_eq_true, decide_eq_true_eq] at hw
    rcases hw with hw | ⟨h1, c, hc, hw⟩
    · obtain ⟨h1, u, hu, c, h2, h3, h4⟩ := h.ign w hw
      exact ⟨h1, u, by simp [hu], c, h2, h3, fun w' h5 h6 => hign' w' (h4 w' h5 h6)⟩
    · rw [Hier.mem_bfs hv (hcr c (hkE c hc))] at hw
      refine ⟨h1, v, by simp, c, hkE c hc, hw, fun w' h5 h6 => ?_⟩
      rw [hign]
      have : H.n ≤ w' ∧ ∃ c ∈ E, w' ∈ H.bfs c :=
        ⟨h6, c, hc, (Hier.mem_bfs hv (hcr c (hkE c hc))).2 h5⟩
      simp [this]

omit [LinearOrder S] [One S] in
theorem BufInv.skip {P : List ℕ} {st : CondState L S} {U : List ℕ} (h : BufInv H P st U) (v : ℕ) :
    BufInv H (P ++ [v]) st U := by
  refine ⟨h.len, h.nodup, fun u hu => ?_, h.pts, h.next_ge, h.seq, fun w hw => ?_⟩
  · obtain ⟨w, h1, h2⟩ := h.par u hu
    refine ⟨w, h1, ?_⟩
    rcases h2 with h2 | h2
    · exact Or.inl (by simp [h2])
    · exact Or.inr h2
  · obtain ⟨h1, u, hu, h2⟩ := h.ign w hw
    exact ⟨h1, u, by simp [hu], h2⟩

theorem condense_buf (hv : H.Valid) (lam : W → L) :
    ∃ st U, condenseTree H wt mcs mx lam = st.rows ∧ BufInv H (H.bfs H.root) st U := by
  have key : ∀ R P, H.bfs H.root = P ++ R → ∀ (st : CondState L S) U, BufInv H P st U →
      ∃ U', BufInv H (P ++ R) (R.foldl (condenseStep H wt mcs mx lam) st) U' := by
    intro R
    induction R with
    | nil => intro P _ st U h; exact ⟨U, by simpa using h⟩
    | cons v R ih =>
      intro P hP st U h
      have hnd := Hier.nodup_bfs hv (le_refl H.root)
      rw [hP] at hnd
      have hvP : v ∉ P := by
        intro hc
        rw [List.nodup_append] at hnd
        exact hnd.2.2 v hc v (by simp) rfl
      have hup : ∀ w ∈ P, w = H.root ∨ ∃ u ∈ P, H.IsKid u w := by
        intro u hu
        obtain ⟨P1, P2, rfl⟩ := List.append_of_mem hu
        have := Hier.bfs_order hv le_rfl (P := P1) (w := u) (R := P2 ++ v :: R) (by rw [hP]; simp)
        rcases this with h1 | ⟨w, h1, h2⟩
        · exact Or.inl h1
        · exact Or.inr ⟨w, by simp [h1], h2⟩
      have hvr : v ≤ H.root := by
        have : v ∈ H.bfs H.root := by rw [hP]; simp
        rw [Hier.mem_bfs hv le_rfl] at this
        exact this.le hv
      have hnew : ∃ U', BufInv H (P ++ [v]) (condenseStep H wt mcs mx lam st v) U' := by
        by_cases hs : st.ignore v = true ∨ v < H.n
        · have : condenseStep H wt mcs mx lam st v = st := by
            unfold condenseStep; rw [if_pos hs]
          rw [this]
          exact ⟨U, h.skip v⟩
        · push Not at hs
          exact h.step hv (by simpa using hs.1) hs.2 hvr hvP hup
      obtain ⟨U1, h1⟩ := hnew
      obtain ⟨U2, h2⟩ := ih (P ++ [v]) (by rw [hP]; simp) _ _ h1
      exact ⟨U2, by rw [List.append_assoc] at h2; exact h2⟩
  have hinit : BufInv H [] (condenseInit H : CondState L S) [] := by
    refine ⟨rfl, List.nodup_nil, by simp, by simp [condenseInit], le_rfl, by simp [condenseInit], ?_⟩
    intro w hw; simp [condenseInit] at hw
  obtain ⟨U, h⟩ := key (H.bfs H.root) [] rfl _ _ hinit
  exact ⟨_, U, rfl, h⟩

theorem condense_length_le (hv : H.Valid) (lam : W → L) :
    (condenseTree H wt mcs mx lam).length ≤ 2 * H.m := by
  obtain ⟨st, U, hrows, h⟩ := condense_buf (wt := wt) (mcs := mcs) (mx := mx) hv lam
  have hre := H.root_eq
  rw [hrows, h.len]
  have hsub : U ⊆ List.range H.root := by
    intro u hu
    obtain ⟨w, h1, _⟩ := h.par u hu
    have h2 := h1.lt hv
    have h3 := h1.2.1
    rw [List.mem_range]; omega
  have := (h.nodup.subperm hsub).length_le
  rw [List.length_range] at this
  exact this

theorem condense_nodup (hv : H.Valid) (lam : W → L) :
    ((condenseTree H wt mcs mx lam).map CRow.child).Nodup := by
  obtain ⟨st, U, hrows, h⟩ := condense_buf (wt := wt) (mcs := mcs) (mx := mx) hv lam
  rw [hrows, List.nodup_iff_count_le_one]
  intro c
  by_cases hc : c < H.n
  · rw [← List.count_filter (p := fun c => decide (c < H.n)) (by simpa using hc)]
    exact List.nodup_iff_count_le_one.1 (h.pts.nodup h.nodup) c
  · rw [← List.count_filter (p := fun c => decide (H.n ≤ c)) (by simpa using hc), h.seq]
    exact List.nodup_iff_count_le_one.1 ((List.pairwise_lt_range' (s := _) (n := _)).imp Nat.ne_of_lt) c

/-! ### Lambdas -/

/-- Labels handed out and rows written by one iteration. -/
theorem condenseStep_labels {lam : W → L} {st : CondState L S} {v : ℕ} (hv : H.Valid)
    (hi : st.ignore v = false) (hn : H.n ≤ v) (hr : v ≤ H.root) :
    ∃ new : List (CRow L S), (condenseStep H wt mcs mx lam st v).rows = st.rows ++ new ∧
      (∀ row ∈ new, row.parent = st.relabel v ∧ row.lam = lam (H.d (v - H.n))) ∧
      (∀ u, ¬ H.IsKid v u → (condenseStep H wt mcs mx lam st v).relabel u = st.relabel u) ∧
      (∀ u, st.ignore u = true → (condenseStep H wt mcs mx lam st v).ignore u = true) ∧
      ∀ c, H.IsKid v c → H.n ≤ c → (condenseStep H wt mcs mx lam st v).ignore c = true ∨
        (condenseStep H wt mcs mx lam st v).relabel c = st.relabel v ∨
        ∃ row ∈ new, row.child = (condenseStep H wt mcs mx lam st v).relabel c := by
  have hre := H.root_eq
  have hlt := hv.lt (v - H.n) (by omega)
  have hka : H.IsKid v (H.l (v - H.n)) := ⟨hn, by omega, Or.inl rfl⟩
  have hkb : H.IsKid v (H.r (v - H.n)) := ⟨hn, by omega, Or.inr rfl⟩
  have hupd : ∀ (f : ℕ → ℕ) (c x : ℕ), H.IsKid v c → ∀ u, ¬ H.IsKid v u → Function.update f c x u = f u := by
    intro f c x hc u hu
    have hne : u ≠ c := fun he => hu (by rw [he]; exact hc)
    exact Function.update_of_ne hne _ _
  have hself : ∀ c, H.IsKid v c → c ∈ H.bfs c := fun c hc =>
    (Hier.mem_bfs hv (by have := hc.lt hv; omega)).2 (Hier.Sub.refl c)
  have helim : ∀ (p : ℕ) (lv : L) (c : ℕ) (row : CRow L S), row ∈ elimRows H p lv c →
      row.parent = p ∧ row.lam = lv := by
    intro p lv c row hrow
    unfold elimRows at hrow
    rw [List.mem_map] at hrow
    obtain ⟨_, _, rfl⟩ := hrow
    exact ⟨rfl, rfl⟩
  unfold condenseStep
  rw [if_neg (by rw [hi]; simp; omega)]
  simp only []
  by_cases h1 : H.l (v - H.n) < H.n ∧ mcs ≤ H.count wt (H.r (v - H.n))
  · rw [if_pos h1]
    refine ⟨_, rfl, by simp, hupd _ _ _ hkb, fun u hu => hu, fun c hc hcn => ?_⟩
    rcases hc.2.2 with rfl | rfl
    · omega
    · exact Or.inr (Or.inl (Function.update_self _ _ _))
  rw [if_neg h1]
  by_cases h2 : H.count wt (H.l (v - H.n)) < mcs ∧ mcs ≤ H.count wt (H.r (v - H.n))
  · rw [if_pos h2, eliminateBranch_eq]
    refine ⟨_, rfl, fun row hrow => helim _ _ _ row hrow, hupd _ _ _ hkb, fun u hu => by simp [hu],
      fun c hc hcn => ?_⟩
    rcases hc.2.2 with rfl | rfl
    · left; simp [hcn, hself _ hka]
    · exact Or.inr (Or.inl (Function.update_self _ _ _))
  rw [if_neg h2]
  by_cases h3 : mcs ≤ H.count wt (H.l (v - H.n)) ∧ H.count wt (H.r (v - H.n)) < mcs
  · rw [if_pos h3, eliminateBranch_eq]
    refine ⟨_, rfl, fun row hrow => helim _ _ _ row hrow, hupd _ _ _ hka, fun u hu => by simp [hu],
      fun c hc hcn => ?_⟩
    rcases hc.2.2 with rfl | rfl
    · exact Or.inr (Or.inl (Function.update_self _ _ _))
    · left; simp [hcn, hself _ hkb]
  rw [if_neg h3]
  by_cases h4 : H.count wt (H.l (v - H.n)) < mcs ∧ H.count wt (H.r (v - H.n)) < mcs
  · rw [if_pos h4, eliminateBranch_eq, eliminateBranch_eq]
    refine ⟨elimRows H (st.relabel v) (lam (H.d (v - H.n))) (H.l (v - H.n)) ++
        elimRows H (st.relabel v) (lam (H.d (v - H.n))) (H.r (v - H.n)), by simp, fun row hrow => ?_,
        fun u _ => rfl, fun u hu => by simp [hu], fun c hc hcn => ?_⟩
    · rw [List.mem_append] at hrow
      rcases hrow with hrow | hrow
      · exact helim _ _ _ row hrow
      · exact helim _ _ _ row hrow
    · left
      rcases hc.2.2 with rfl | rfl
      · simp [hcn, hself _ hka]
      · simp [hcn, hself _ hkb]
  rw [if_neg h4]
  by_cases h5 : (mx.any fun x => decide (x < H.count wt (H.l (v - H.n)) ∧ x < H.count wt (H.r (v - H.n)))) = true
  · rw [if_pos h5]
    refine ⟨[], by simp, by simp, fun u hu => ?_, fun u hu => hu, fun c hc hcn => ?_⟩
    · simp only; rw [hupd _ _ _ hkb u hu, hupd _ _ _ hka u hu]
    · right; left
      rcases hc.2.2 with rfl | rfl
      · simp only; rw [Function.update_of_ne (by omega), Function.update_self]
      · exact Function.update_self _ _ _
  · rw [if_neg h5]
    refine ⟨_, rfl, by simp, fun u hu => ?_, fun u hu => hu, fun c hc hcn => ?_⟩
    · simp only; rw [hupd _ _ _ hkb u hu, hupd _ _ _ hka u hu]
    · right; right
      rcases hc.2.2 with rfl | rfl
      · refine ⟨_, List.mem_cons_self, ?_⟩
        simp only; rw [Function.update_of_ne (by omega), Function.update_self]
      · refine ⟨_, List.mem_cons_of_mem _ List.mem_cons_self, ?_⟩
        simp only; rw [Function.update_self]

/-- Everything listed under a cluster is listed at a lambda at least that of the cluster's own row. -/
structure MonoInv [LE L] (H : Hier W S) (lam : W → L) (P : List ℕ) (st : CondState L S) : Prop where
  lab : ∀ w, H.n ≤ w → w ≤ H.root → st.ignore w = false → H.Ready P w → st.relabel w = H.n ∨
    ∃ row ∈ st.rows, row.child = st.relabel w ∧ row.lam ≤ lam (H.d (w - H.n))
  row : ∀ row ∈ st.rows, row.parent = H.n ∨ ∃ row' ∈ st.rows, row'.child = row.parent ∧ row'.lam ≤ row.lam

theorem MonoInv.step [Preorder W] [Preorder L] (hv : H.Valid) {lam : W → L} (hlam : Antitone lam)
    (hd : ∀ i j, i ≤ j → j < H.m → H.d i ≤ H.d j) {P : List ℕ} {st : CondState L S}
    (h : MonoInv H lam P st) {v : ℕ} (hi : st.ignore v = false) (hn : H.n ≤ v) (hr : v ≤ H.root) (hvP : v ∉ P)
    (hready : H.Ready P v) : MonoInv H lam (P ++ [v]) (condenseStep H wt mcs mx lam st v) := by
  obtain ⟨new, hrows, hnew, hre, hig, hlab⟩ :=
    condenseStep_labels (wt := wt) (mcs := mcs) (mx := mx) (lam := lam) hv hi hn hr
  have hroot := H.root_eq
  have hpv : st.relabel v = H.n ∨
      ∃ row ∈ st.rows, row.child = st.relabel v ∧ row.lam ≤ lam (H.d (v - H.n)) := h.lab v hn hr hi hready
  constructor
  · intro w hwn hwr hwi hwready
    by_cases hk : H.IsKid v w
    · have hlt := hk.lt hv
      have hdw : lam (H.d (v - H.n)) ≤ lam (H.d (w - H.n)) := hlam (hd _ _ (by omega) (by omega))
      rcases hlab w hk hwn with h1 | h1 | ⟨row, h1, h2⟩
      · rw [hwi] at h1; cases h1
      · rw [h1]
        rcases hpv with h2 | ⟨row, h2, h3, h4⟩
        · exact Or.inl h2
        · exact Or.inr ⟨row, by rw [hrows]; simp [h2], h3, h4.trans hdw⟩
      · refine Or.inr ⟨row, by rw [hrows]; simp [h1], h2, ?_⟩
        rw [(hnew row h1).2]; exact hdw
    · rw [hre w hk]
      have hwi' : st.ignore w = false := by
        by_contra hc
        rw [Bool.not_eq_false] at hc
        rw [hig w hc] at hwi; cases hwi
      have hwready' : H.Ready P w := by
        rcases hwready with h1 | ⟨u, hu, hk'⟩
        · exact Or.inl h1
        · rw [List.mem_append, List.mem_singleton] at hu
          rcases hu with hu | rfl
          · exact Or.inr ⟨u, hu, hk'⟩
          · exact absurd hk' hk
      rcases h.lab w hwn hwr hwi' hwready' with h1 | ⟨row, h1, h2⟩
      · exact Or.inl h1
      · exact Or.inr ⟨row, by rw [hrows]; simp [h1], h2⟩
  · intro row hrow
    rw [hrows, List.mem_append] at hrow
    rcases hrow with hrow | hrow
    · rcases h.row row hrow with h1 | ⟨row', h1, h2⟩
      · exact Or.inl h1
      · exact Or.inr ⟨row', by rw [hrows]; simp [h1], h2⟩
    · obtain ⟨h1, h2⟩ := hnew row hrow
      rw [h1, h2]
      rcases hpv with h3 | ⟨row', h3, h4⟩
      · exact Or.inl h3
      · exact Or.inr ⟨row', by rw [hrows]; simp [h3], h4⟩

theorem condense_mono [Preorder W] [Preorder L] (hv : H.Valid) {lam : W → L} (hlam : Antitone lam)
    (hd : ∀ i j, i ≤ j → j < H.m → H.d i ≤ H.d j) : CMono (condenseTree H wt mcs mx lam) := by
  have key : ∀ R P, H.bfs H.root = P ++ R → ∀ (st : CondState L S) U, BufInv H P st U → MonoInv H lam P st →
      ∃ U', BufInv H (P ++ R) (R.foldl (condenseStep H wt mcs mx lam) st) U' ∧
        MonoInv H lam (P ++ R) (R.foldl (condenseStep H wt mcs mx lam) st) := by
    intro R
    induction R with
    | nil => intro P _ st U h h'; exact ⟨U, by simpa using h, by simpa using h'⟩
    | cons v R ih =>
      intro P hP st U h h'
      have hnd := Hier.nodup_bfs hv (le_refl H.root)
      rw [hP] at hnd
      have hvP : v ∉ P := by
        intro hc
        rw [List.nodup_append] at hnd
        exact hnd.2.2 v hc v (by simp) rfl
      have hready : H.Ready P v := Hier.bfs_order hv le_rfl hP
      have hup : ∀ w ∈ P, w = H.root ∨ ∃ u ∈ P, H.IsKid u w := by
        intro u hu
        obtain ⟨P1, P2, rfl⟩ := List.append_of_mem hu
        have := Hier.bfs_order hv le_rfl (P := P1) (w := u) (R := P2 ++ v :: R) (by rw [hP]; simp)
        rcases this with h1 | ⟨w, h1, h2⟩
        · exact Or.inl h1
        · exact Or.inr ⟨w, by simp [h1], h2⟩
      have hvr : v ≤ H.root := by
        have : v ∈ H.bfs H.root := by rw [hP]; simp
        rw [Hier.mem_bfs hv le_rfl] at this
        exact this.le hv
      have hnew : ∃ U', BufInv H (P ++ [v]) (condenseStep H wt mcs mx lam st v) U' ∧
          MonoInv H lam (P ++ [v]) (condenseStep H wt mcs mx lam st v) := by
        by_cases hs : st.ignore v = true ∨ v < H.n
        · have : condenseStep H wt mcs mx lam st v = st := by
            unfold condenseStep; rw [if_pos hs]
          rw [this]
          refine ⟨U, h.skip v, fun w hwn hwr hwi hwready => ?_, h'.row⟩
          rcases hwready with h1 | ⟨u, hu, hk⟩
          · exact h'.lab w hwn hwr hwi (Or.inl h1)
          · rw [List.mem_append, List.mem_singleton] at hu
            rcases hu with hu | rfl
            · exact h'.lab w hwn hwr hwi (Or.inr ⟨u, hu, hk⟩)
            · exfalso
              rcases hs with hs | hs
              · obtain ⟨_, x, _, c, _, h1, h2⟩ := h.ign u hs
                rw [h2 w (h1.tail hk) hwn] at hwi; cases hwi
              · have := hk.1; omega
        · push Not at hs
          have hi : st.ignore v = false := by simpa using hs.1
          obtain ⟨U', h1⟩ := h.step (wt := wt) (mcs := mcs) (mx := mx) (lam := lam) hv hi hs.2 hvr hvP hup
          exact ⟨U', h1, h'.step hv hlam hd hi hs.2 hvr hvP hready⟩
      obtain ⟨U1, h1, h1'⟩ := hnew
      obtain ⟨U2, h2⟩ := ih (P ++ [v]) (by rw [hP]; simp) _ _ h1 h1'
      exact ⟨U2, by rw [List.append_assoc] at h2; exact h2⟩
  have hinit : BufInv H [] (condenseInit H : CondState L S) [] := by
    refine ⟨rfl, List.nodup_nil, by simp, by simp [condenseInit], le_rfl, by simp [condenseInit], ?_⟩
    intro w hw; simp [condenseInit] at hw
  have hinit' : MonoInv H lam [] (condenseInit H : CondState L S) := by
    refine ⟨fun w _ _ _ hw => ?_, by simp [condenseInit]⟩
    rcases hw with rfl | ⟨u, hu, _⟩
    · left; simp [condenseInit]
    · simp at hu
  obtain ⟨U, h, hm⟩ := key (H.bfs H.root) [] rfl _ _ hinit hinit'
  have hnd := condense_nodup (wt := wt) (mcs := mcs) (mx := mx) hv lam
  intro row hrow row' hrow' he
  rcases hm.row row' hrow' with h1 | ⟨row2, h1, h2, h3⟩
  · -- the top cluster has no row
    exfalso
    have : row.child ∈ ((condenseTree H wt mcs mx lam).map CRow.child).filter (fun c => decide (H.n ≤ c)) := by
      rw [List.mem_filter]
      exact ⟨List.mem_map.2 ⟨row, hrow, rfl⟩, by rw [decide_eq_true_eq]; omega⟩
    have hseq := h.seq
    change row.child ∈ (List.map CRow.child ((H.bfs H.root).foldl (condenseStep H wt mcs mx lam)
      (condenseInit H)).rows).filter _ at this
    rw [hseq, List.mem_range'] at this
    obtain ⟨i, _, hi⟩ := this
    omega
  · have : row = row2 := by
      refine List.inj_on_of_nodup_map hnd hrow h1 ?_
      rw [h2, he]
    rw [this]; exact h3

end
end Verif
