import Verif.Lemmas.Hier

namespace Verif
variable {W S L : Type*}

/-! ### Elimination of a branch -/

/-- The rows written by `eliminate_branch`. -/
def elimRows [One S] (H : Hier W S) (p : ℕ) (lv : L) (v : ℕ) : List (CRow L S) :=
  ((H.bfs v).filter fun u => decide (u < H.n)).map fun u => ⟨p, u, lv, 1⟩

theorem elim_fold [One S] (n p : ℕ) (lv : L) (us : List ℕ) (st : CondState L S) :
    us.foldl (elimStep n p lv) st =
      { st with
        ignore := fun u => st.ignore u || decide (n ≤ u ∧ u ∈ us)
        rows := st.rows ++ (us.filter fun u => decide (u < n)).map fun u => ⟨p, u, lv, 1⟩ } := by
  induction us generalizing st with
  | nil => simp
  | cons a us ih =>
    rw [List.foldl_cons, ih]
    unfold elimStep
    by_cases h : a < n
    · rw [if_pos h]
      simp only [List.filter_cons, h, decide_true, if_true, List.map_cons, List.append_assoc,
        List.cons_append, List.nil_append, CondState.mk.injEq, and_true, true_and]
      funext u
      congr 1
      by_cases hu : n ≤ u
      · have : u ≠ a := by omega
        simp [hu, this]
      · simp [hu]
    · rw [if_neg h]
      simp only [List.filter_cons, h, decide_false, CondState.mk.injEq, and_true, true_and]
      refine ⟨?_, by simp⟩
      funext u
      by_cases hu : u = a
      · subst hu
        have : n ≤ u := by omega
        simp [this]
      · rw [Function.update_of_ne hu]
        simp [hu]

theorem eliminateBranch_eq [One S] (H : Hier W S) (p : ℕ) (lv : L) (st : CondState L S) (v : ℕ) :
    eliminateBranch H p lv st v =
      { st with
        ignore := fun u => st.ignore u || decide (H.n ≤ u ∧ u ∈ H.bfs v)
        rows := st.rows ++ elimRows H p lv v } := by
  unfold eliminateBranch elimRows
  by_cases h : v < H.n
  · rw [if_pos h, Hier.bfs_leaf h]
    simp only [List.filter_cons, h, decide_true, if_true, List.filter_nil, List.map_cons, List.map_nil,
      CondState.mk.injEq, and_true, true_and]
    funext u
    by_cases hu : H.n ≤ u
    · have : u ≠ v := by omega
      simp [this]
    · simp [hu]
  · rw [if_neg h]
    exact elim_fold _ _ _ _ _

section
variable [LinearOrder S] (H : Hier W S) (wt : ℕ → S) (mcs : S) (mx : Option S)

/-- Nodes of the hierarchy that survive as (part of) a cluster. -/
def Hier.Alive (v : ℕ) : Prop := H.n ≤ v ∧ v ≤ H.root ∧ (v = H.root ∨ mcs ≤ H.count wt v)

/-- What the analysis of `condense_tree` needs: a valid hierarchy, monotone counts, every sample lighter than the
minimum cluster size. -/
structure CondHyp : Prop where
  valid : H.Valid
  light : ∀ x, x < H.n → wt x < mcs
  mono : ∀ v a, H.IsKid v a → H.count wt a ≤ H.count wt v

/-- Sample `x` leaves the condensed tree at node `v`. -/
def Hier.Home (x v : ℕ) : Prop :=
  H.Alive wt mcs v ∧ ∃ a, H.IsKid v a ∧ ¬ H.Alive wt mcs a ∧ H.Sub a x

/-- The `max_cluster_size` case. -/
def tooBig (mx : Option S) (ca cb : S) : Prop := mx.any (fun x => decide (x < ca ∧ x < cb)) = true

instance (ca cb : S) : Decidable (tooBig mx ca cb) := by unfold tooBig; infer_instance

/-- Both halves become new clusters. -/
def Hier.Split (v : ℕ) : Prop :=
  mcs ≤ H.count wt (H.l (v - H.n)) ∧ mcs ≤ H.count wt (H.r (v - H.n)) ∧
    ¬ tooBig mx (H.count wt (H.l (v - H.n))) (H.count wt (H.r (v - H.n)))

instance (v : ℕ) : Decidable (H.Split wt mcs mx v) := by unfold Hier.Split; infer_instance

/-- The eliminated halves. -/
def Hier.deadKids (v : ℕ) : List ℕ :=
  [H.l (v - H.n), H.r (v - H.n)].filter fun u => decide (H.count wt u < mcs)

/-- Uniform description of one loop iteration. -/
def condOut [One S] (lam : W → L) (st : CondState L S) (v : ℕ) : CondState L S where
  relabel := if H.Split wt mcs mx v then
      Function.update (Function.update st.relabel (H.l (v - H.n)) st.next) (H.r (v - H.n)) (st.next + 1)
    else fun u => if (u = H.l (v - H.n) ∨ u = H.r (v - H.n)) ∧ mcs ≤ H.count wt u then st.relabel v
      else st.relabel u
  ignore := fun u => st.ignore u || decide (H.n ≤ u ∧ ∃ c ∈ H.deadKids wt mcs v, u ∈ H.bfs c)
  rows := st.rows ++ ((H.deadKids wt mcs v).flatMap (elimRows H (st.relabel v) (lam (H.d (v - H.n)))) ++
    if H.Split wt mcs mx v then
      [⟨st.relabel v, st.next, lam (H.d (v - H.n)), H.count wt (H.l (v - H.n))⟩,
        ⟨st.relabel v, st.next + 1, lam (H.d (v - H.n)), H.count wt (H.r (v - H.n))⟩] else [])
  next := if H.Split wt mcs mx v then st.next + 2 else st.next

variable {H wt mcs mx}

theorem condenseStep_eq [One S] (hh : CondHyp H wt mcs) {lam : W → L} {st : CondState L S} {v : ℕ}
    (hi : st.ignore v = false) (hn : H.n ≤ v) (hr : v ≤ H.root) :
    condenseStep H wt mcs mx lam st v = condOut H wt mcs mx lam st v := by
  have hre := H.root_eq
  have hlt := hh.valid.lt (v - H.n) (by omega)
  have hne : H.l (v - H.n) ≠ H.r (v - H.n) := by omega
  have hlight : ∀ x, x < H.n → H.count wt x < mcs := by
    intro x hx
    unfold Hier.count
    rw [if_neg (by omega)]
    exact hh.light x hx
  unfold condenseStep condOut
  rw [if_neg (by rw [hi]; simp; omega)]
  simp only []
  have h1 : ¬ (H.l (v - H.n) < H.n ∧ mcs ≤ H.count wt (H.r (v - H.n))) := by
    rintro ⟨h, h'⟩
    exact absurd (hlight _ (show H.r (v - H.n) < H.n by omega)) (not_lt.2 h')
  rw [if_neg h1]
  by_cases ha : H.count wt (H.l (v - H.n)) < mcs
  · by_cases hb : H.count wt (H.r (v - H.n)) < mcs
    · -- both small
      have hs : ¬ H.Split wt mcs mx v := fun h => absurd h.1 (not_le.2 ha)
      rw [if_neg (by rintro ⟨_, h⟩; exact absurd h (not_le.2 hb)),
        if_neg (by rintro ⟨h, _⟩; exact absurd h (not_le.2 ha)), if_pos ⟨ha, hb⟩]
      rw [eliminateBranch_eq, eliminateBranch_eq]
      simp only [if_neg hs, Hier.deadKids, List.filter_cons, ha, hb, decide_true, if_true, List.filter_nil,
        List.flatMap_cons, List.flatMap_nil, List.append_nil, List.append_assoc, CondState.mk.injEq,
        and_true]
      refine ⟨?_, ?_⟩
      · funext u
        rw [if_neg]
        rintro ⟨rfl | rfl, h⟩
        · exact absurd h (not_le.2 ha)
        · exact absurd h (not_le.2 hb)
      · funext u
        cases st.ignore u
        · simp only [Bool.false_or, List.mem_cons, List.not_mem_nil, or_false, exists_eq_or_imp,
            exists_eq_left]
          rw [← Bool.decide_or]
          congr 1
          rw [← and_or_left]
        · simp
    · have hb' := not_lt.1 hb
      have hs : ¬ H.Split wt mcs mx v := fun h => absurd h.1 (not_le.2 ha)
      rw [if_pos ⟨ha, hb'⟩, eliminateBranch_eq]
      simp only [if_neg hs, Hier.deadKids, List.filter_cons, ha, hb, decide_true, decide_false, if_true,
        List.filter_nil, Bool.false_eq_true, if_false,
        List.flatMap_cons, List.flatMap_nil, List.append_nil, CondState.mk.injEq,
        and_true]
      refine ⟨?_, ?_⟩
      · funext u
        by_cases hu : u = H.r (v - H.n)
        · subst hu
          rw [Function.update_self, if_pos ⟨Or.inr rfl, hb'⟩]
        · rw [Function.update_of_ne hu, if_neg]
          rintro ⟨rfl | rfl, h⟩
          · exact absurd h (not_le.2 ha)
          · exact hu rfl
      · funext u
        simp
  · have ha' := not_lt.1 ha
    rw [if_neg (by rintro ⟨h, _⟩; exact ha h)]
    by_cases hb : H.count wt (H.r (v - H.n)) < mcs
    · have hs : ¬ H.Split wt mcs mx v := fun h => absurd h.2.1 (not_le.2 hb)
      rw [if_pos ⟨ha', hb⟩, eliminateBranch_eq]
      simp only [if_neg hs, Hier.deadKids, List.filter_cons, ha, hb, decide_true, decide_false, if_true,
        List.filter_nil, Bool.false_eq_true, if_false,
        List.flatMap_cons, List.flatMap_nil, List.append_nil, CondState.mk.injEq,
        and_true]
      refine ⟨?_, ?_⟩
      · funext u
        by_cases hu : u = H.l (v - H.n)
        · subst hu
          rw [Function.update_self, if_pos ⟨Or.inl rfl, ha'⟩]
        · rw [Function.update_of_ne hu, if_neg]
          rintro ⟨rfl | rfl, h⟩
          · exact hu rfl
          · exact absurd h (not_le.2 hb)
      · funext u
        simp
    · have hb' := not_lt.1 hb
      rw [if_neg (by rintro ⟨_, h⟩; exact hb h), if_neg (by rintro ⟨h, _⟩; exact ha h)]
      have hd : H.deadKids wt mcs v = [] := by
        simp [Hier.deadKids, ha', hb']
      by_cases hm : tooBig mx (H.count wt (H.l (v - H.n))) (H.count wt (H.r (v - H.n)))
      · have hs : ¬ H.Split wt mcs mx v := fun h => h.2.2 hm
        rw [if_pos (by unfold tooBig at hm; exact hm)]
        simp only [if_neg hs, hd, List.flatMap_nil, List.append_nil, List.not_mem_nil, false_and,
          exists_false, and_false, decide_false, Bool.or_false, CondState.mk.injEq, and_true]
        funext u
        by_cases hu : u = H.r (v - H.n)
        · subst hu
          rw [Function.update_self, if_pos ⟨Or.inr rfl, hb'⟩]
        · rw [Function.update_of_ne hu]
          by_cases hu' : u = H.l (v - H.n)
          · subst hu'
            rw [Function.update_self, if_pos ⟨Or.inl rfl, ha'⟩]
          · rw [Function.update_of_ne hu', if_neg]
            rintro ⟨h | h, _⟩
            · exact hu' h
            · exact hu h
      · have hs : H.Split wt mcs mx v := ⟨ha', hb', hm⟩
        rw [if_neg (by unfold tooBig at hm; exact hm)]
        simp only [if_pos hs, hd, List.flatMap_nil, List.nil_append, List.not_mem_nil, false_and,
          exists_false, and_false, decide_false, Bool.or_false]

/-! ### The alive part of the hierarchy -/

theorem light_count (hh : CondHyp H wt mcs) {x : ℕ} (hx : x < H.n) : H.count wt x < mcs := by
  unfold Hier.count
  rw [if_neg (by omega)]
  exact hh.light x hx

theorem alive_kid_iff (hh : CondHyp H wt mcs) {v a : ℕ} (hk : H.IsKid v a) :
    H.Alive wt mcs a ↔ mcs ≤ H.count wt a := by
  have h1 := hk.lt hh.valid
  have h2 := hk.2.1
  have h3 := H.root_eq
  constructor
  · rintro ⟨_, _, h | h⟩
    · omega
    · exact h
  · intro h
    refine ⟨?_, by omega, Or.inr h⟩
    by_contra hc
    exact absurd (light_count hh (show a < H.n by omega)) (not_lt.2 h)

theorem count_mono (hh : CondHyp H wt mcs) {v x : ℕ} (h : H.Sub v x) : H.count wt x ≤ H.count wt v := by
  induction h with
  | refl => exact le_rfl
  | tail _ hk ih => exact (hh.mono _ _ hk).trans ih

theorem alive_up (hh : CondHyp H wt mcs) {b w : ℕ} (hw : H.Alive wt mcs w) (h : H.Sub b w) (hb : b ≤ H.root) :
    H.Alive wt mcs b := by
  have hle := h.le hh.valid
  obtain ⟨h1, h2, h3⟩ := hw
  refine ⟨by omega, hb, ?_⟩
  rcases h3 with h3 | h3
  · left; omega
  · exact Or.inr (h3.trans (count_mono hh h))

theorem Home.sub {x v : ℕ} (h : H.Home wt mcs x v) : H.Sub v x := by
  obtain ⟨_, a, h1, _, h2⟩ := h
  exact (Hier.Sub.kid h1).trans h2

theorem Home.unique (hh : CondHyp H wt mcs) {x v w : ℕ} (h : H.Home wt mcs x v) (h' : H.Home wt mcs x w) :
    v = w := by
  have key : ∀ {v w}, H.Home wt mcs x v → H.Home wt mcs x w → H.Sub v w → v = w := by
    intro v w h h' hvw
    rcases hvw.cases_head with h1 | ⟨b, hb, hbw⟩
    · exact h1
    · exfalso
      obtain ⟨hv, a, ha, hna, hax⟩ := h
      have hbx : H.Sub b x := hbw.trans (Home.sub h')
      have := Hier.kids_disjoint hh.valid ha hb hax hbx
      subst this
      have h1 := ha.lt hh.valid
      have h2 := hv.2.1
      exact hna (alive_up hh h'.1 hbw (by omega))
  rcases (Home.sub h).comparable hh.valid (Home.sub h') with hs | hs
  · exact key h h' hs
  · exact (key h' h hs).symm

/-- Every sample below an alive node leaves somewhere below it. -/
theorem exists_home (hh : CondHyp H wt mcs) {v x : ℕ} (hv : H.Alive wt mcs v) (hx : x < H.n) (h : H.Sub v x) :
    ∃ w, H.Home wt mcs x w ∧ H.Sub v w := by
  induction v using Nat.strong_induction_on with
  | _ v ih =>
    rcases h.cases_head with h1 | ⟨a, ha, hax⟩
    · have := hv.1; omega
    · by_cases hal : H.Alive wt mcs a
      · obtain ⟨w, hw, haw⟩ := ih a (ha.lt hh.valid) hal hax
        exact ⟨w, hw, (Hier.Sub.kid ha).trans haw⟩
      · exact ⟨v, ⟨hv, a, ha, hal, hax⟩, Hier.Sub.refl v⟩

/-! ### The loop invariant -/

/-- Nodes whose label has been decided after processing `P`. -/
def Hier.Ready (H : Hier W S) (P : List ℕ) (v : ℕ) : Prop := v = H.root ∨ ∃ w ∈ P, H.IsKid w v

variable (H wt mcs mx) in
/-- Loop invariant of `condense_tree`; `top c` is the hierarchy node at which cluster `c` was born. -/
structure CondInv [One S] (lam : W → L) (P : List ℕ) (st : CondState L S) (top : ℕ → ℕ) : Prop where
  next_ge : H.n + 1 ≤ st.next
  odd : (st.next - H.n) % 2 = 1
  ign1 : ∀ v, st.ignore v = true → H.n ≤ v ∧ v < H.root ∧ H.count wt v < mcs
  ign2 : ∀ v a, st.ignore v = true → H.IsKid v a → H.n ≤ a → st.ignore a = true
  ign3 : ∀ v ∈ P, ∀ a, H.IsKid v a → H.n ≤ a → H.count wt a < mcs → st.ignore a = true
  lab : ∀ v, H.Alive wt mcs v → H.Ready P v →
    H.n ≤ st.relabel v ∧ st.relabel v < st.next ∧ H.Sub (top (st.relabel v)) v
  lab_root : st.relabel H.root = H.n
  top_root : top H.n = H.root
  tops : ∀ c, H.n < c → c < st.next → H.Alive wt mcs (top c) ∧ H.Ready P (top c) ∧ st.relabel (top c) = c
  rows_pt : ∀ row ∈ st.rows, row.child < H.n → ∃ v ∈ P, H.Home wt mcs row.child v ∧
    row.parent = st.relabel v ∧ row.lam = lam (H.d (v - H.n)) ∧ row.size = 1
  rows_cl : ∀ row ∈ st.rows, H.n ≤ row.child → H.n < row.child ∧ row.child < st.next ∧
    ∃ v ∈ P, H.Alive wt mcs v ∧ H.IsKid v (top row.child) ∧ row.parent = st.relabel v ∧
      row.lam = lam (H.d (v - H.n)) ∧ row.size = H.count wt (top row.child) ∧ row.parent < row.child ∧
      H.Split wt mcs mx v
  complete : ∀ v ∈ P, ∀ x, x < H.n → H.Home wt mcs x v → x ∈ st.rows.map CRow.child
  seq : (st.rows.map CRow.child).filter (fun c => decide (H.n ≤ c)) =
    List.range' (H.n + 1) (st.next - (H.n + 1))
  nodup : (st.rows.map CRow.child).Nodup
  order : ∀ (k : ℕ) (row : CRow L S), st.rows[k]? = some row →
    row.parent = H.n ∨ ∃ (i : ℕ) (row' : CRow L S), i < k ∧ st.rows[i]? = some row' ∧ row'.child = row.parent
  one : ∀ v ∈ P, H.Alive wt mcs v → ∀ a b, H.IsKid v a → H.IsKid v b → a ≠ b → H.Alive wt mcs a →
    ¬ H.Alive wt mcs b → st.relabel a = st.relabel v
  two : ∀ v ∈ P, H.Alive wt mcs v → H.Split wt mcs mx v →
    st.relabel v < st.relabel (H.l (v - H.n)) ∧
    st.relabel (H.r (v - H.n)) = st.relabel (H.l (v - H.n)) + 1 ∧
    (st.relabel (H.l (v - H.n)) - H.n) % 2 = 1 ∧
    top (st.relabel (H.l (v - H.n))) = H.l (v - H.n) ∧ top (st.relabel (H.r (v - H.n))) = H.r (v - H.n) ∧
    ⟨st.relabel v, st.relabel (H.l (v - H.n)), lam (H.d (v - H.n)), H.count wt (H.l (v - H.n))⟩ ∈ st.rows ∧
    ⟨st.relabel v, st.relabel (H.r (v - H.n)), lam (H.d (v - H.n)), H.count wt (H.r (v - H.n))⟩ ∈ st.rows
  big : ∀ v ∈ P, H.Alive wt mcs v → mcs ≤ H.count wt (H.l (v - H.n)) → mcs ≤ H.count wt (H.r (v - H.n)) →
    ¬ H.Split wt mcs mx v →
      st.relabel (H.l (v - H.n)) = st.relabel v ∧ st.relabel (H.r (v - H.n)) = st.relabel v

theorem CondInv.init [One S] (_hv : H.Valid) (lam : W → L) :
    CondInv H wt mcs mx lam [] (condenseInit H : CondState L S) (fun _ => H.root) := by
  constructor
  · exact le_rfl
  · simp [condenseInit]
  · intro v h; simp [condenseInit] at h
  · intro v a h; simp [condenseInit] at h
  · intro v h; simp at h
  · intro v hal hr
    rcases hr with rfl | ⟨w, hw, _⟩
    · simp only [condenseInit, Function.update_self]
      exact ⟨le_rfl, by omega, Hier.Sub.refl _⟩
    · simp at hw
  · simp [condenseInit]
  · rfl
  · intro c h1 h2; simp only [condenseInit] at h2; omega
  · intro row h; simp [condenseInit] at h
  · intro row h; simp [condenseInit] at h
  · intro v h; simp at h
  · simp [condenseInit]
  · simp [condenseInit]
  · intro k row h; simp [condenseInit] at h
  · intro v h; simp at h
  · intro v h; simp at h
  · intro v h; simp at h

omit [LinearOrder S] in
theorem Ready.mono {P : List ℕ} {v w : ℕ} (h : H.Ready P v) : H.Ready (P ++ [w]) v := by
  rcases h with h | ⟨u, hu, hk⟩
  · exact Or.inl h
  · exact Or.inr ⟨u, by simp [hu], hk⟩

/-- Skipped nodes. -/
theorem CondInv.skip [One S] (hh : CondHyp H wt mcs) {lam : W → L} {P : List ℕ} {st : CondState L S} {top : ℕ → ℕ}
    (h : CondInv H wt mcs mx lam P st top) {v : ℕ} (hs : st.ignore v = true ∨ v < H.n) :
    CondInv H wt mcs mx lam (P ++ [v]) st top := by
  have hkid : ∀ a, H.IsKid v a → st.ignore v = true := by
    intro a ha
    rcases hs with h1 | h1
    · exact h1
    · have := ha.1; omega
  have hna : ¬ H.Alive wt mcs v := by
    rintro ⟨h1, _, h3⟩
    rcases hs with h4 | h4
    · obtain ⟨_, h5, h6⟩ := h.ign1 v h4
      rcases h3 with h3 | h3
      · omega
      · exact absurd h6 (not_lt.2 h3)
    · omega
  have hready : ∀ w, H.Alive wt mcs w → H.Ready (P ++ [v]) w → H.Ready P w := by
    intro w hw hr
    rcases hr with hr | ⟨u, hu, hk⟩
    · exact Or.inl hr
    · rw [List.mem_append, List.mem_singleton] at hu
      rcases hu with hu | rfl
      · exact Or.inr ⟨u, hu, hk⟩
      · exfalso
        have h1 := h.ign1 u (hkid w hk)
        have h2 := hh.mono u w hk
        rw [alive_kid_iff hh hk] at hw
        exact absurd (h2.trans_lt h1.2.2) (not_lt.2 hw)
  constructor
  · exact h.next_ge
  · exact h.odd
  · exact h.ign1
  · exact h.ign2
  · intro u hu a ha hna' hc
    rw [List.mem_append, List.mem_singleton] at hu
    rcases hu with hu | rfl
    · exact h.ign3 u hu a ha hna' hc
    · exact h.ign2 u a (hkid a ha) ha hna'
  · intro w hw hr; exact h.lab w hw (hready w hw hr)
  · exact h.lab_root
  · exact h.top_root
  · intro c h1 h2
    obtain ⟨h3, h4, h5⟩ := h.tops c h1 h2
    exact ⟨h3, Ready.mono h4, h5⟩
  · intro row hr hc
    obtain ⟨u, hu, h1⟩ := h.rows_pt row hr hc
    exact ⟨u, by simp [hu], h1⟩
  · intro row hr hc
    obtain ⟨h1, h2, u, hu, h3⟩ := h.rows_cl row hr hc
    exact ⟨h1, h2, u, by simp [hu], h3⟩
  · intro u hu x hx hhome
    rw [List.mem_append, List.mem_singleton] at hu
    rcases hu with hu | rfl
    · exact h.complete u hu x hx hhome
    · exact absurd hhome.1 hna
  · exact h.seq
  · exact h.nodup
  · exact h.order
  · intro u hu hal
    rw [List.mem_append, List.mem_singleton] at hu
    rcases hu with hu | rfl
    · exact h.one u hu hal
    · exact absurd hal hna
  · intro u hu hal
    rw [List.mem_append, List.mem_singleton] at hu
    rcases hu with hu | rfl
    · exact h.two u hu hal
    · exact absurd hal hna
  · intro u hu hal
    rw [List.mem_append, List.mem_singleton] at hu
    rcases hu with hu | rfl
    · exact h.big u hu hal
    · exact absurd hal hna

omit [LinearOrder S] in
theorem mem_elimRows [One S] (hv : H.Valid) {p : ℕ} {lv : L} {v : ℕ} (hr : v ≤ H.root) {row : CRow L S} :
    row ∈ elimRows H p lv v ↔ ∃ x, x < H.n ∧ H.Sub v x ∧ row = ⟨p, x, lv, 1⟩ := by
  unfold elimRows
  simp only [List.mem_map, List.mem_filter, decide_eq_true_eq, Hier.mem_bfs hv hr]
  constructor
  · rintro ⟨x, ⟨h1, h2⟩, rfl⟩; exact ⟨x, h2, h1, rfl⟩
  · rintro ⟨x, h2, h1, rfl⟩; exact ⟨x, ⟨h1, h2⟩, rfl⟩

omit [LinearOrder S] in
theorem elimRows_children [One S] {p : ℕ} {lv : L} {v : ℕ} :
    (elimRows (S := S) H p lv v).map CRow.child = (H.bfs v).filter fun u => decide (u < H.n) := by
  unfold elimRows
  rw [List.map_map]
  exact List.map_id' _

theorem mem_deadKids (hh : CondHyp H wt mcs) {v c : ℕ} (hn : H.n ≤ v) (hr : v ≤ H.root) :
    c ∈ H.deadKids wt mcs v ↔ H.IsKid v c ∧ ¬ H.Alive wt mcs c := by
  have hre := H.root_eq
  unfold Hier.deadKids
  rw [List.mem_filter]
  constructor
  · rintro ⟨h1, h2⟩
    have hk : H.IsKid v c := ⟨hn, by omega, by simpa using h1⟩
    refine ⟨hk, ?_⟩
    rw [alive_kid_iff hh hk]
    simpa using h2
  · rintro ⟨hk, h2⟩
    rw [alive_kid_iff hh hk] at h2
    exact ⟨by simpa using hk.2.2, by simpa using h2⟩

theorem deadKids_nodup (hv : H.Valid) {v : ℕ} (hn : H.n ≤ v) (hr : v ≤ H.root) :
    (H.deadKids wt mcs v).Nodup := by
  have := Hier.kids_nodup hv hr
  unfold Hier.kids at this
  rw [if_pos hn] at this
  exact this.filter _

/-- Children of the new point rows. -/
theorem newPoints_children [One S] {p : ℕ} {lv : L} {v : ℕ} :
    ((H.deadKids wt mcs v).flatMap (elimRows (S := S) H p lv)).map CRow.child =
      (H.deadKids wt mcs v).flatMap fun c => (H.bfs c).filter fun u => decide (u < H.n) := by
  rw [List.map_flatMap]
  simp only [elimRows_children]

theorem newPoints_nodup (hh : CondHyp H wt mcs) {v : ℕ} (hn : H.n ≤ v) (hr : v ≤ H.root) :
    ((H.deadKids wt mcs v).flatMap fun c => (H.bfs c).filter fun u => decide (u < H.n)).Nodup := by
  have hk : ∀ c ∈ H.deadKids wt mcs v, H.IsKid v c ∧ c ≤ H.root := by
    intro c hc
    have h1 := ((mem_deadKids hh hn hr).1 hc).1
    have h2 := h1.lt hh.valid
    exact ⟨h1, by omega⟩
  rw [List.nodup_flatMap]
  refine ⟨fun c hc => (Hier.nodup_bfs hh.valid (hk c hc).2).filter _, ?_⟩
  refine List.Pairwise.imp_of_mem ?_ (deadKids_nodup hh.valid hn hr)
  intro a b ha hb hne x hx hx'
  rw [List.mem_filter, Hier.mem_bfs hh.valid (hk a ha).2] at hx
  rw [List.mem_filter, Hier.mem_bfs hh.valid (hk b hb).2] at hx'
  exact hne (Hier.kids_disjoint hh.valid (hk a ha).1 (hk b hb).1 hx.1 hx'.1)

theorem mem_newPoints [One S] (hh : CondHyp H wt mcs) {v : ℕ} (hal : H.Alive wt mcs v) {p : ℕ} {lv : L}
    {row : CRow L S} : row ∈ (H.deadKids wt mcs v).flatMap (elimRows H p lv) ↔
      ∃ x, x < H.n ∧ H.Home wt mcs x v ∧ row = ⟨p, x, lv, 1⟩ := by
  have hn := hal.1
  have hr := hal.2.1
  rw [List.mem_flatMap]
  constructor
  · rintro ⟨c, hc, hrow⟩
    rw [mem_deadKids hh hn hr] at hc
    have h2 := hc.1.lt hh.valid
    rw [mem_elimRows hh.valid (by omega)] at hrow
    obtain ⟨x, hx, hs, rfl⟩ := hrow
    exact ⟨x, hx, ⟨hal, c, hc.1, hc.2, hs⟩, rfl⟩
  · rintro ⟨x, hx, ⟨_, c, hc, hnc, hs⟩, rfl⟩
    have h2 := hc.lt hh.valid
    exact ⟨c, (mem_deadKids hh hn hr).2 ⟨hc, hnc⟩, (mem_elimRows hh.valid (by omega)).2 ⟨x, hx, hs, rfl⟩⟩

open Classical in
theorem CondInv.step [One S] (hh : CondHyp H wt mcs) {lam : W → L} {P : List ℕ} {st : CondState L S} {top : ℕ → ℕ}
    (h : CondInv H wt mcs mx lam P st top) {v : ℕ} (hal : H.Alive wt mcs v) (hvP : v ∉ P)
    (hready : H.Ready P v) (hP : ∀ u ∈ P, H.Ready P u) :
    CondInv H wt mcs mx lam (P ++ [v]) (condOut H wt mcs mx lam st v)
      (if H.Split wt mcs mx v then
        Function.update (Function.update top st.next (H.l (v - H.n))) (st.next + 1) (H.r (v - H.n))
      else top) := by
  have hv := hh.valid
  have hn := hal.1
  have hr := hal.2.1
  have hre := H.root_eq
  have hlt := hv.lt (v - H.n) (by omega)
  have hka : H.IsKid v (H.l (v - H.n)) := ⟨hn, by omega, Or.inl rfl⟩
  have hkb : H.IsKid v (H.r (v - H.n)) := ⟨hn, by omega, Or.inr rfl⟩
  have hnk : ∀ w, H.Ready P w → ¬ H.IsKid v w := by
    intro w hw hk
    rcases hw with rfl | ⟨u, hu, hk'⟩
    · exact hk.ne_root hv rfl
    · exact hvP (hk.unique hv hk' ▸ hu)
  have hst : ∀ w, H.Ready P w → (condOut H wt mcs mx lam st v).relabel w = st.relabel w := by
    intro w hw
    have h1 := hnk w hw
    have ha : w ≠ H.l (v - H.n) := fun he => h1 (he ▸ hka)
    have hb : w ≠ H.r (v - H.n) := fun he => h1 (he ▸ hkb)
    unfold condOut
    by_cases hs : H.Split wt mcs mx v
    · simp only [if_pos hs, Function.update_of_ne ha, Function.update_of_ne hb]
    · simp only [if_neg hs]
      rw [if_neg (by tauto)]
  have hstv := hst v hready
  have hgetready : ∀ w, H.Ready (P ++ [v]) w → H.Ready P w ∨ H.IsKid v w := by
    intro w hw
    rcases hw with hw | ⟨u, hu, hk⟩
    · exact Or.inl (Or.inl hw)
    · rw [List.mem_append, List.mem_singleton] at hu
      rcases hu with hu | rfl
      · exact Or.inl (Or.inr ⟨u, hu, hk⟩)
      · exact Or.inr hk
  obtain ⟨hlv1, hlv2, hlv3⟩ := h.lab v hal hready
  have hng := h.next_ge
  have hsplita : H.Split wt mcs mx v → (condOut H wt mcs mx lam st v).relabel (H.l (v - H.n)) = st.next := by
    intro hs
    unfold condOut
    simp only [if_pos hs]
    rw [Function.update_of_ne (by omega), Function.update_self]
  have hsplitb : H.Split wt mcs mx v →
      (condOut H wt mcs mx lam st v).relabel (H.r (v - H.n)) = st.next + 1 := by
    intro hs
    unfold condOut
    simp only [if_pos hs]
    rw [Function.update_self]
  have hnosplit : ¬ H.Split wt mcs mx v → ∀ c, H.IsKid v c → H.Alive wt mcs c →
      (condOut H wt mcs mx lam st v).relabel c = st.relabel v := by
    intro hs c hc hac
    rw [alive_kid_iff hh hc] at hac
    unfold condOut
    simp only [if_neg hs]
    rw [if_pos ⟨hc.2.2, hac⟩]
  have hnext : st.next ≤ (condOut H wt mcs mx lam st v).next := by
    unfold condOut
    simp only
    split <;> omega
  set top' := (if H.Split wt mcs mx v then
        Function.update (Function.update top st.next (H.l (v - H.n))) (st.next + 1) (H.r (v - H.n))
      else top) with htop'
  have htop : ∀ c, c < st.next → top' c = top c := by
    intro c hc
    rw [htop']
    split
    · rw [Function.update_of_ne (by omega), Function.update_of_ne (by omega)]
    · rfl
  have htopa : H.Split wt mcs mx v → top' st.next = H.l (v - H.n) := by
    intro hs
    rw [htop', if_pos hs, Function.update_of_ne (by omega), Function.update_self]
  have htopb : H.Split wt mcs mx v → top' (st.next + 1) = H.r (v - H.n) := by
    intro hs
    rw [htop', if_pos hs, Function.update_self]
  have hsalive : H.Split wt mcs mx v → H.Alive wt mcs (H.l (v - H.n)) ∧ H.Alive wt mcs (H.r (v - H.n)) := by
    intro hs
    rw [alive_kid_iff hh hka, alive_kid_iff hh hkb]
    exact ⟨hs.1, hs.2.1⟩
  have hrows : (condOut H wt mcs mx lam st v).rows = st.rows ++
      ((H.deadKids wt mcs v).flatMap (elimRows H (st.relabel v) (lam (H.d (v - H.n)))) ++
      if H.Split wt mcs mx v then
        [⟨st.relabel v, st.next, lam (H.d (v - H.n)), H.count wt (H.l (v - H.n))⟩,
          ⟨st.relabel v, st.next + 1, lam (H.d (v - H.n)), H.count wt (H.r (v - H.n))⟩] else []) := rfl
  have hnext' : (condOut H wt mcs mx lam st v).next = if H.Split wt mcs mx v then st.next + 2 else st.next := rfl
  -- membership in the new rows
  have hmem : ∀ row, row ∈ (condOut H wt mcs mx lam st v).rows → row ∈ st.rows ∨
      (∃ x, x < H.n ∧ H.Home wt mcs x v ∧ row = ⟨st.relabel v, x, lam (H.d (v - H.n)), 1⟩) ∨
      (H.Split wt mcs mx v ∧
        (row = ⟨st.relabel v, st.next, lam (H.d (v - H.n)), H.count wt (H.l (v - H.n))⟩ ∨
          row = ⟨st.relabel v, st.next + 1, lam (H.d (v - H.n)), H.count wt (H.r (v - H.n))⟩)) := by
    intro row hrow
    rw [hrows, List.mem_append, List.mem_append] at hrow
    rcases hrow with h1 | h1 | h1
    · exact Or.inl h1
    · exact Or.inr (Or.inl ((mem_newPoints hh hal).1 h1))
    · split at h1
      · rename_i hs
        exact Or.inr (Or.inr ⟨hs, by simpa using h1⟩)
      · simp at h1
  have hchild : ((condOut H wt mcs mx lam st v).rows.map CRow.child) = st.rows.map CRow.child ++
      (((H.deadKids wt mcs v).flatMap fun c => (H.bfs c).filter fun u => decide (u < H.n)) ++
        if H.Split wt mcs mx v then [st.next, st.next + 1] else []) := by
    rw [hrows, List.map_append, List.map_append, newPoints_children]
    congr 2
    split <;> rfl
  have hmemP : ∀ x, x ∈ ((H.deadKids wt mcs v).flatMap fun c => (H.bfs c).filter fun u => decide (u < H.n)) →
      x < H.n ∧ H.Home wt mcs x v := by
    intro x hx
    rw [List.mem_flatMap] at hx
    obtain ⟨c, hc, hx⟩ := hx
    rw [mem_deadKids hh hn hr] at hc
    have h2 := hc.1.lt hv
    rw [List.mem_filter, Hier.mem_bfs hv (by omega)] at hx
    exact ⟨by simpa using hx.2, hal, c, hc.1, hc.2, hx.1⟩
  have hold : ∀ c ∈ st.rows.map CRow.child, c < st.next := by
    intro c hc
    rw [List.mem_map] at hc
    obtain ⟨row, hrow, rfl⟩ := hc
    by_cases hcn : row.child < H.n
    · omega
    · exact (h.rows_cl row hrow (by omega)).2.1
  constructor
  · rw [hnext']; split <;> omega
  · rw [hnext']
    have := h.odd
    split <;> omega
  · -- ign1
    intro u hu
    have hu' : st.ignore u = true ∨ (H.n ≤ u ∧ ∃ c ∈ H.deadKids wt mcs v, u ∈ H.bfs c) := by
      unfold condOut at hu
      simpa using hu
    rcases hu' with hu' | ⟨h1, c, hc, hub⟩
    · exact h.ign1 u hu'
    · rw [mem_deadKids hh hn hr] at hc
      have h2 := hc.1.lt hv
      rw [Hier.mem_bfs hv (by omega)] at hub
      have h3 := hub.le hv
      have h4 := hc.2
      rw [alive_kid_iff hh hc.1] at h4
      exact ⟨h1, by omega, (count_mono hh hub).trans_lt (not_le.1 h4)⟩
  · -- ign2
    intro u a hu hk ha
    have hu' : st.ignore u = true ∨ (H.n ≤ u ∧ ∃ c ∈ H.deadKids wt mcs v, u ∈ H.bfs c) := by
      unfold condOut at hu
      simpa using hu
    have hgoal : st.ignore a = true ∨ (H.n ≤ a ∧ ∃ c ∈ H.deadKids wt mcs v, a ∈ H.bfs c) := by
      rcases hu' with hu' | ⟨h1, c, hc, hub⟩
      · exact Or.inl (h.ign2 u a hu' hk ha)
      · right
        have hc' := hc
        rw [mem_deadKids hh hn hr] at hc
        have h2 := hc.1.lt hv
        refine ⟨ha, c, hc', ?_⟩
        rw [Hier.mem_bfs hv (by omega)] at hub ⊢
        exact hub.tail hk
    unfold condOut
    simpa using hgoal
  · -- ign3
    intro u hu a hk ha hc
    have hgoal : st.ignore a = true ∨ (H.n ≤ a ∧ ∃ c ∈ H.deadKids wt mcs v, a ∈ H.bfs c) := by
      rw [List.mem_append, List.mem_singleton] at hu
      rcases hu with hu | rfl
      · exact Or.inl (h.ign3 u hu a hk ha hc)
      · right
        have h2 := hk.lt hv
        refine ⟨ha, a, ?_, ?_⟩
        · rw [mem_deadKids hh hn hr]
          refine ⟨hk, ?_⟩
          rw [alive_kid_iff hh hk]
          exact not_le.2 hc
        · rw [Hier.mem_bfs hv (by omega)]; exact Hier.Sub.refl a
    unfold condOut
    simpa using hgoal
  · -- lab
    intro w hw hrw
    rcases hgetready w hrw with h1 | h1
    · rw [hst w h1]
      obtain ⟨h2, h3, h4⟩ := h.lab w hw h1
      exact ⟨h2, by omega, by rw [htop _ h3]; exact h4⟩
    · by_cases hs : H.Split wt mcs mx v
      · rcases h1.2.2 with rfl | rfl
        · rw [hsplita hs, htopa hs, hnext', if_pos hs]
          exact ⟨by omega, by omega, Hier.Sub.refl _⟩
        · rw [hsplitb hs, htopb hs, hnext', if_pos hs]
          exact ⟨by omega, by omega, Hier.Sub.refl _⟩
      · rw [hnosplit hs w h1 hw, htop _ hlv2]
        exact ⟨hlv1, by omega, hlv3.tail h1⟩
  · rw [hst _ (Or.inl rfl)]; exact h.lab_root
  · rw [htop _ (by omega)]; exact h.top_root
  · -- tops
    intro c h1 h2
    by_cases hc : c < st.next
    · obtain ⟨h3, h4, h5⟩ := h.tops c h1 hc
      rw [htop c hc]
      exact ⟨h3, Ready.mono h4, by rw [hst _ h4]; exact h5⟩
    · rw [hnext'] at h2
      split at h2
      · rename_i hs
        have hcc : c = st.next ∨ c = st.next + 1 := by omega
        rcases hcc with rfl | rfl
        · rw [htopa hs]
          exact ⟨(hsalive hs).1, Or.inr ⟨v, by simp, hka⟩, hsplita hs⟩
        · rw [htopb hs]
          exact ⟨(hsalive hs).2, Or.inr ⟨v, by simp, hkb⟩, hsplitb hs⟩
      · omega
  · -- rows_pt
    intro row hrow hc
    rcases hmem row hrow with h1 | ⟨x, hx, hhome, rfl⟩ | ⟨hs, h1⟩
    · obtain ⟨u, hu, h2, h3, h4⟩ := h.rows_pt row h1 hc
      exact ⟨u, by simp [hu], h2, by rw [hst u (hP u hu)]; exact h3, h4⟩
    · exact ⟨v, by simp, hhome, by rw [hstv], rfl, rfl⟩
    · exfalso
      rcases h1 with rfl | rfl <;> simp only at hc <;> omega
  · -- rows_cl
    intro row hrow hc
    rcases hmem row hrow with h1 | ⟨x, hx, hhome, rfl⟩ | ⟨hs, h1⟩
    · obtain ⟨h2, h3, u, hu, h4, h5, h6, h7⟩ := h.rows_cl row h1 hc
      refine ⟨h2, by omega, u, by simp [hu], h4, by rw [htop _ h3]; exact h5,
        by rw [hst u (hP u hu)]; exact h6, ?_⟩
      rw [htop _ h3]; exact h7
    · simp only at hc; omega
    · rw [hnext', if_pos hs]
      rcases h1 with rfl | rfl
      · refine ⟨by simp only; omega, by simp only; omega, v, by simp, hal, ?_, ?_, rfl, ?_, ?_, hs⟩
        · simp only; rw [htopa hs]; exact hka
        · simp only; rw [hstv]
        · simp only; rw [htopa hs]
        · simp only; omega
      · refine ⟨by simp only; omega, by simp only; omega, v, by simp, hal, ?_, ?_, rfl, ?_, ?_, hs⟩
        · simp only; rw [htopb hs]; exact hkb
        · simp only; rw [hstv]
        · simp only; rw [htopb hs]
        · simp only; omega
  · -- complete
    intro u hu x hx hhome
    rw [List.mem_append, List.mem_singleton] at hu
    rcases hu with hu | rfl
    · rw [hchild, List.mem_append]
      exact Or.inl (h.complete u hu x hx hhome)
    · have := (mem_newPoints (p := st.relabel u) (lv := lam (H.d (u - H.n))) hh hal).2 ⟨x, hx, hhome, rfl⟩
      rw [hrows, List.map_append, List.map_append, List.mem_append, List.mem_append]
      exact Or.inr (Or.inl (List.mem_map.2 ⟨_, this, rfl⟩))
  · -- seq
    rw [hchild, List.filter_append, List.filter_append, h.seq]
    have h1 : (((H.deadKids wt mcs v).flatMap fun c => (H.bfs c).filter fun u => decide (u < H.n)).filter
        fun c => decide (H.n ≤ c)) = [] := by
      rw [List.filter_eq_nil_iff]
      intro x hx
      have := (hmemP x hx).1
      simp; omega
    rw [h1, List.nil_append, hnext']
    split
    · have h2 : [st.next, st.next + 1].filter (fun c => decide (H.n ≤ c)) = [st.next, st.next + 1] := by
        rw [List.filter_eq_self]
        intro x hx
        simp only [List.mem_cons, List.not_mem_nil, or_false] at hx
        rw [decide_eq_true_eq]
        omega
      rw [h2, show st.next + 2 - (H.n + 1) = (st.next - (H.n + 1)) + 2 by omega, ← List.range'_append]
      congr 1
      rw [show H.n + 1 + 1 * (st.next - (H.n + 1)) = st.next by omega]
      rfl
    · simp
  · -- nodup
    rw [hchild, List.nodup_append, List.nodup_append]
    refine ⟨h.nodup, ⟨newPoints_nodup hh hn hr, ?_, ?_⟩, ?_⟩
    · split <;> simp
    · intro x hx y hy hxy
      have := (hmemP x hx).1
      split at hy
      · simp only [List.mem_cons, List.not_mem_nil, or_false] at hy
        omega
      · simp at hy
    · intro x hx y hy hxy
      subst hxy
      rw [List.mem_append] at hy
      rcases hy with hy | hy
      · obtain ⟨h1, h2⟩ := hmemP x hy
        rw [List.mem_map] at hx
        obtain ⟨row, hrow, rfl⟩ := hx
        obtain ⟨u, hu, h3, _⟩ := h.rows_pt row hrow h1
        exact hvP (Home.unique hh h2 h3 ▸ hu)
      · have := hold x hx
        split at hy
        · simp only [List.mem_cons, List.not_mem_nil, or_false] at hy
          omega
        · simp at hy
  · -- order
    intro k row hk
    have hfind : st.relabel v = H.n ∨ ∃ (i : ℕ) (row' : CRow L S), i < st.rows.length ∧
        st.rows[i]? = some row' ∧ row'.child = st.relabel v := by
      by_cases hc : st.relabel v = H.n
      · exact Or.inl hc
      · right
        have : st.relabel v ∈ (st.rows.map CRow.child).filter (fun c => decide (H.n ≤ c)) := by
          rw [h.seq, List.mem_range']
          exact ⟨st.relabel v - (H.n + 1), by omega, by omega⟩
        rw [List.mem_filter, List.mem_map] at this
        obtain ⟨⟨row', hrow', hch⟩, _⟩ := this
        obtain ⟨i, hi, hie⟩ := List.getElem_of_mem hrow'
        exact ⟨i, row', hi, by rw [← hie]; exact List.getElem?_eq_getElem hi, hch⟩
    by_cases hkl : k < st.rows.length
    · rw [hrows, List.getElem?_append_left hkl] at hk
      rcases h.order k row hk with h1 | ⟨i, row', h1, h2, h3⟩
      · exact Or.inl h1
      · refine Or.inr ⟨i, row', h1, ?_, h3⟩
        rw [hrows, List.getElem?_append_left (by omega)]; exact h2
    · have hpar : row.parent = st.relabel v := by
        rw [hrows, List.getElem?_append_right (by omega)] at hk
        have := List.mem_of_getElem? hk
        rw [List.mem_append] at this
        rcases this with h1 | h1
        · obtain ⟨x, _, _, rfl⟩ := (mem_newPoints hh hal).1 h1
          rfl
        · split at h1
          · simp only [List.mem_cons, List.not_mem_nil, or_false] at h1
            rcases h1 with rfl | rfl <;> rfl
          · simp at h1
      rw [hpar]
      rcases hfind with h1 | ⟨i, row', h1, h2, h3⟩
      · exact Or.inl h1
      · refine Or.inr ⟨i, row', by omega, ?_, h3⟩
        rw [hrows, List.getElem?_append_left h1]; exact h2
  · -- one
    intro u hu hau a b ha hb hab hala halb
    rw [List.mem_append, List.mem_singleton] at hu
    rcases hu with hu | rfl
    · rw [hst u (hP u hu), hst a (Or.inr ⟨u, hu, ha⟩)]
      exact h.one u hu hau a b ha hb hab hala halb
    · rw [hstv]
      apply hnosplit _ a ha hala
      intro hs
      obtain ⟨h1, h2⟩ := hsalive hs
      rcases hb.2.2 with rfl | rfl
      · exact halb h1
      · exact halb h2
  · -- two
    intro u hu hau hs
    rw [List.mem_append, List.mem_singleton] at hu
    rcases hu with hu | rfl
    · obtain ⟨h1, h2, h3, h4, h5, h6, h7⟩ := h.two u hu hau hs
      have hre := H.root_eq
      have hul : u - H.n < H.m := by
        have := hau.1; have := hau.2.1; omega
      have hk1 : H.IsKid u (H.l (u - H.n)) := ⟨hau.1, by have := hau.2.1; omega, Or.inl rfl⟩
      have hk2 : H.IsKid u (H.r (u - H.n)) := ⟨hau.1, by have := hau.2.1; omega, Or.inr rfl⟩
      have hr1 : H.Ready P (H.l (u - H.n)) := Or.inr ⟨u, hu, hk1⟩
      have hr2 : H.Ready P (H.r (u - H.n)) := Or.inr ⟨u, hu, hk2⟩
      have hal1 : H.Alive wt mcs (H.l (u - H.n)) := (alive_kid_iff hh hk1).2 hs.1
      have hal2 : H.Alive wt mcs (H.r (u - H.n)) := (alive_kid_iff hh hk2).2 hs.2.1
      rw [hst u (hP u hu), hst _ hr1, hst _ hr2, htop _ (h.lab _ hal1 hr1).2.1,
        htop _ (h.lab _ hal2 hr2).2.1]
      refine ⟨h1, h2, h3, h4, h5, ?_, ?_⟩
      · rw [hrows, List.mem_append]; exact Or.inl h6
      · rw [hrows, List.mem_append]; exact Or.inl h7
    · have := h.odd
      rw [hstv, hsplita hs, hsplitb hs, htopa hs, htopb hs]
      refine ⟨by omega, rfl, by omega, rfl, rfl, ?_, ?_⟩
      · rw [hrows, if_pos hs]; simp
      · rw [hrows, if_pos hs]; simp
  · -- big
    intro u hu hau hca hcb hs
    rw [List.mem_append, List.mem_singleton] at hu
    rcases hu with hu | rfl
    · have hk1 : H.IsKid u (H.l (u - H.n)) := ⟨hau.1, by have := hau.2.1; omega, Or.inl rfl⟩
      have hk2 : H.IsKid u (H.r (u - H.n)) := ⟨hau.1, by have := hau.2.1; omega, Or.inr rfl⟩
      rw [hst u (hP u hu), hst _ (Or.inr ⟨u, hu, hk1⟩), hst _ (Or.inr ⟨u, hu, hk2⟩)]
      exact h.big u hu hau hca hcb hs
    · rw [hstv]
      exact ⟨hnosplit hs _ hka ((alive_kid_iff hh hka).2 hca), hnosplit hs _ hkb ((alive_kid_iff hh hkb).2 hcb)⟩

/-- What is known when the loop reaches node `v`. -/
theorem CondInv.visit [One S] (hh : CondHyp H wt mcs) {lam : W → L} {P R : List ℕ} {v : ℕ} {st : CondState L S} {top : ℕ → ℕ}
    (hP : H.bfs H.root = P ++ v :: R) (h : CondInv H wt mcs mx lam P st top) :
    v ∉ P ∧ H.Ready P v ∧ (∀ u ∈ P, H.Ready P u) ∧ v ≤ H.root ∧
    ((condenseStep H wt mcs mx lam st v = st ∧ CondInv H wt mcs mx lam (P ++ [v]) st top) ∨
      (H.Alive wt mcs v ∧ condenseStep H wt mcs mx lam st v = condOut H wt mcs mx lam st v ∧
        ∃ top', CondInv H wt mcs mx lam (P ++ [v]) (condOut H wt mcs mx lam st v) top')) := by
  have hv := hh.valid
  have hnd := Hier.nodup_bfs hv (le_refl H.root)
  rw [hP] at hnd
  have hvP : v ∉ P := by
    intro hc
    rw [List.nodup_append] at hnd
    exact hnd.2.2 v hc v (by simp) rfl
  have hready : H.Ready P v := Hier.bfs_order hv le_rfl hP
  have hPready : ∀ u ∈ P, H.Ready P u := by
    intro u hu
    obtain ⟨P1, P2, rfl⟩ := List.append_of_mem hu
    have := Hier.bfs_order hv le_rfl (P := P1) (w := u) (R := P2 ++ v :: R) (by rw [hP]; simp)
    rcases this with h1 | ⟨w, h1, h2⟩
    · exact Or.inl h1
    · exact Or.inr ⟨w, by simp [h1], h2⟩
  have hvr : v ≤ H.root := by
    have : v ∈ H.bfs H.root := by rw [hP]; simp
    rw [Hier.mem_bfs hv le_rfl] at this
    exact this.le hv
  refine ⟨hvP, hready, hPready, hvr, ?_⟩
  by_cases hs : st.ignore v = true ∨ v < H.n
  · left
    have : condenseStep H wt mcs mx lam st v = st := by
      unfold condenseStep; rw [if_pos hs]
    exact ⟨this, h.skip hh hs⟩
  · right
    push Not at hs
    have hi : st.ignore v = false := by simpa using hs.1
    have hal : H.Alive wt mcs v := by
      refine ⟨hs.2, hvr, ?_⟩
      rcases hready with h1 | ⟨w, h1, h2⟩
      · exact Or.inl h1
      · right
        by_contra hc
        have := h.ign3 w h1 v h2 hs.2 (not_le.1 hc)
        rw [hi] at this; cases this
    exact ⟨hal, condenseStep_eq hh hi hs.2 hvr, _, h.step hh hal hvP hready hPready⟩

/-- The invariant holds at the end, for the complete node list. -/
theorem condense_inv [One S] (hh : CondHyp H wt mcs) (lam : W → L) :
    ∃ top, CondInv H wt mcs mx lam (H.bfs H.root)
      ((H.bfs H.root).foldl (condenseStep H wt mcs mx lam) (condenseInit H : CondState L S)) top := by
  have hv := hh.valid
  have key : ∀ R P, H.bfs H.root = P ++ R → ∀ st top, CondInv H wt mcs mx lam P st top →
      ∃ top', CondInv H wt mcs mx lam (P ++ R) (R.foldl (condenseStep H wt mcs mx lam) st) top' := by
    intro R
    induction R with
    | nil => intro P _ st top h; exact ⟨top, by simpa using h⟩
    | cons v R ih =>
      intro P hP st top h
      have hnew : ∃ top', CondInv H wt mcs mx lam (P ++ [v]) (condenseStep H wt mcs mx lam st v) top' := by
        obtain ⟨_, _, _, _, h1 | ⟨_, h1, h2⟩⟩ := h.visit hh hP
        · exact ⟨top, by rw [h1.1]; exact h1.2⟩
        · rw [h1]; exact h2
      obtain ⟨top1, h1⟩ := hnew
      obtain ⟨top2, h2⟩ := ih (P ++ [v]) (by rw [hP]; simp) _ _ h1
      refine ⟨top2, ?_⟩
      rw [List.append_assoc] at h2
      exact h2
  obtain ⟨top, h⟩ := key (H.bfs H.root) [] rfl _ _ (CondInv.init hv lam)
  exact ⟨top, h⟩

end

end Verif
