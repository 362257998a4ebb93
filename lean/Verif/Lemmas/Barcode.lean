import Verif.Model.Barcode
import Verif.Props.LeafCount
import Mathlib.Tactic.Linarith

/-!
# The barcode of a condensed tree
-/

namespace Verif
variable {K L S : Type*}

/-- The rows of clusters come in pairs: pair `j` lists the clusters `n + 2 j + 1` and `n + 2 j + 2`. -/
structure PairRows (n M : ℕ) (rows : List (CRow L S)) (P : ℕ → ℕ) (A B : ℕ → S) (lv : ℕ → L) : Prop where
  len : (rows.filter fun row => decide (n ≤ row.child)).length = 2 * M
  fst : ∀ j, j < M → (rows.filter fun row => decide (n ≤ row.child))[2 * j]? = some ⟨P j, n + 2 * j + 1, lv j, A j⟩
  snd : ∀ j, j < M → (rows.filter fun row => decide (n ≤ row.child))[2 * j + 1]? = some ⟨P j, n + 2 * j + 2, lv j, B j⟩
  le : ∀ j, j < M → n ≤ P j
  lt : ∀ j, j < M → P j < n + 2 * j + 1
  inj : ∀ i j, i < M → j < M → P i = P j → i = j

theorem exists_pairRows {n k : ℕ} {rows : List (CRow L S)} (h : CondTree n k rows) (hb : CBinary n k rows) [Inhabited L] [Inhabited S] :
    ∃ M P A B lv, k = 2 * M + 1 ∧ PairRows n M rows P A B lv := by
  set ct := rows.filter fun row => decide (n ≤ row.child) with hct
  have hpos := h.pos
  have hmap : ct.map CRow.child = List.range' (n + 1) (k - 1) := by
    rw [← h.asc, hct, List.filter_map]; rfl
  have hlen : ct.length = k - 1 := by
    have := congrArg List.length hmap
    simpa using this
  have hget : ∀ i, i < k - 1 → ∃ row, ct[i]? = some row ∧ row.child = n + 1 + i ∧ row ∈ rows := by
    intro i hi
    have hi' : i < ct.length := by omega
    refine ⟨ct[i], List.getElem?_eq_getElem hi', ?_, (List.mem_filter.1 (List.getElem_mem hi')).1⟩
    have h1 : (ct.map CRow.child)[i]? = some (n + 1 + i) := by
      rw [hmap, List.getElem?_range' hi]; simp
    rw [List.getElem?_map, List.getElem?_eq_getElem hi'] at h1
    simpa using h1
  have huniq : ∀ {r r' : CRow L S}, r ∈ rows → r' ∈ rows → r.child = r'.child → r = r' :=
    fun h1 h2 h3 => List.inj_on_of_nodup_map h.nodup h1 h2 h3
  have hbin : ∀ row ∈ rows, n ≤ row.child → ∃ a lv s t, (a - n) % 2 = 1 ∧ n ≤ a ∧ (row = ⟨row.parent, a, lv, s⟩ ∨ row = ⟨row.parent, a + 1, lv, t⟩) ∧
      (rows.filter fun r => decide (n ≤ r.child ∧ r.parent = row.parent)) = [⟨row.parent, a, lv, s⟩, ⟨row.parent, a + 1, lv, t⟩] := by
    intro row hrow hc
    have hp := h.parents row hrow
    have hm : row ∈ rows.filter fun r => decide (n ≤ r.child ∧ r.parent = row.parent) :=
      List.mem_filter.2 ⟨hrow, by simp [hc]⟩
    rcases hb row.parent hp.1 hp.2 with h1 | ⟨a, lv, s, t, h1, h2⟩
    · rw [h1] at hm; simp at hm
    · refine ⟨a, lv, s, t, h1, by omega, ?_, h2⟩
      rw [h2] at hm
      simpa using hm
  have hmem : ∀ {p : ℕ} {l : List (CRow L S)} {r : CRow L S}, (rows.filter fun r => decide (n ≤ r.child ∧ r.parent = p)) = l → r ∈ l →
      r ∈ rows ∧ n ≤ r.child := by
    intro p l r h1 h2
    rw [← h1] at h2
    have := List.mem_filter.1 h2
    exact ⟨this.1, (of_decide_eq_true this.2).1⟩
  have hodd : (k - 1) % 2 = 0 := by
    by_contra hne
    obtain ⟨row, h1, h2, h3⟩ := hget (k - 2) (by omega)
    obtain ⟨a, lv, s, t, g1, g2, g3, g4⟩ := hbin row h3 (by omega)
    have ha : a = n + k - 1 := by
      rcases g3 with g | g
      · have := congrArg CRow.child g
        simp only at this; omega
      · have := congrArg CRow.child g
        simp only at this; omega
    have := (h.children (a + 1)).1 (List.mem_map.2 ⟨_, (hmem g4 (by simp : (⟨row.parent, a + 1, lv, t⟩ : CRow L S) ∈ _)).1, rfl⟩)
    omega
  set M := (k - 1) / 2 with hM
  have hpair : ∀ j, j < M → ∃ q : ℕ × L × S × S, ct[2 * j]? = some ⟨q.1, n + 2 * j + 1, q.2.1, q.2.2.1⟩ ∧
      ct[2 * j + 1]? = some ⟨q.1, n + 2 * j + 2, q.2.1, q.2.2.2⟩ ∧ n ≤ q.1 ∧ q.1 < n + 2 * j + 1 ∧
      (rows.filter fun r => decide (n ≤ r.child ∧ r.parent = q.1)).map CRow.child = [n + 2 * j + 1, n + 2 * j + 2] := by
    intro j hj
    obtain ⟨row, h1, h2, h3⟩ := hget (2 * j) (by omega)
    obtain ⟨row', h1', h2', h3'⟩ := hget (2 * j + 1) (by omega)
    obtain ⟨a, lv, s, t, g1, g2, g3, g4⟩ := hbin row h3 (by omega)
    have hrow : row = ⟨row.parent, a, lv, s⟩ := by
      rcases g3 with g | g
      · exact g
      · have := congrArg CRow.child g
        simp only at this; omega
    have ha : a = n + 2 * j + 1 := by
      have := congrArg CRow.child hrow
      simp only at this; omega
    have hrow' : row' = ⟨row.parent, a + 1, lv, t⟩ :=
      huniq h3' (hmem g4 (by simp)).1 (by simp only; omega)
    refine ⟨(row.parent, lv, s, t), ?_, ?_, (h.parents row h3).1, ?_, ?_⟩
    · rw [h1, hrow, ha]
    · rw [h1', hrow', ha]
    · have := h.down row h3 (by omega)
      simp only; omega
    · rw [g4, ha]; rfl
  choose! q hq using hpair
  refine ⟨M, fun j => (q j).1, fun j => (q j).2.2.1, fun j => (q j).2.2.2, fun j => (q j).2.1, by omega, by rw [← hct]; omega, fun j hj => (hq j hj).1,
    fun j hj => (hq j hj).2.1, fun j hj => (hq j hj).2.2.1, fun j hj => (hq j hj).2.2.2.1, fun i j hi hj e => ?_⟩
  have e1 := (hq i hi).2.2.2.2
  have e2 := (hq j hj).2.2.2.2
  rw [e, e2] at e1
  have := congrArg List.head? e1
  simp at this
  omega

section
variable [Field K] [LinearOrder K] {n M : ℕ} {rows : List (CRow K K)} {P : ℕ → ℕ} {A B lv : ℕ → K} {expInv : K → K} {minSize : K}

/-- The arrays when the pairs from `J` on are done. -/
structure BarInv (expInv : K → K) (n : ℕ) (minSize : K) (P : ℕ → ℕ) (A B lv : ℕ → K) (J M : ℕ) (b : Barcode K) : Prop where
  deaths0 : b.deaths 0 = n
  parents0 : b.parents 0 = n
  lam0 : b.lamDeaths 0 = 0
  deaths : ∀ j, J ≤ j → j < M → b.deaths (2 * j + 1) = min (A j) (B j) ∧ b.deaths (2 * j + 2) = min (A j) (B j)
  parents : ∀ j, J ≤ j → j < M → b.parents (2 * j + 1) = P j ∧ b.parents (2 * j + 2) = P j
  lams : ∀ j, J ≤ j → j < M → b.lamDeaths (2 * j + 1) = (if 0 < lv j then expInv (lv j) else 0) ∧
    b.lamDeaths (2 * j + 2) = (if 0 < lv j then expInv (lv j) else 0)
  births : ∀ j, J ≤ j → j < M → b.births (P j - n) = max (max (b.births (2 * j + 1)) (b.births (2 * j + 2))) (min (A j) (B j))
  rest : ∀ c, (∀ j, J ≤ j → j < M → P j ≠ n + c) → b.births c = minSize

theorem setPair_at {α : Type*} (f : ℕ → α) (i : ℕ) (v : α) : setPair f (i + 1) v i = v ∧ setPair f (i + 1) v (i + 1) = v := by
  constructor <;> simp [setPair, Function.update_apply]

theorem setPair_ne {α : Type*} (f : ℕ → α) {i x : ℕ} (v : α) (h1 : x ≠ i) (h2 : x ≠ i + 1) : setPair f (i + 1) v x = f x := by
  simp [setPair, Function.update_apply, h1, h2]

theorem BarInv.step (h : PairRows n M rows P A B lv) {J : ℕ} {b : Barcode K} (hJ : J < M) (hb : BarInv expInv n minSize P A B lv (J + 1) M b) :
    BarInv expInv n minSize P A B lv J M (barcodeStep expInv n (rows.filter fun row => decide (n ≤ row.child)) b (2 * J + 1)) := by
  have hle := h.le
  have hlt := h.lt
  have e1 : n + 2 * J + 2 - n = 2 * J + 1 + 1 := by omega
  unfold barcodeStep
  rw [show 2 * J + 1 - 1 = 2 * J by omega, h.fst J hJ, h.snd J hJ]
  simp only [e1]
  have hPJ := hle J hJ
  have hPJ' := hlt J hJ
  constructor
  · dsimp only; rw [setPair_ne _ _ (by omega) (by omega)]; exact hb.deaths0
  · dsimp only; rw [setPair_ne _ _ (by omega) (by omega)]; exact hb.parents0
  · dsimp only; rw [setPair_ne _ _ (by omega) (by omega)]; exact hb.lam0
  · intro j h1 h2
    dsimp only
    rcases h1.eq_or_lt with rfl | h1
    · exact setPair_at _ _ _
    · rw [setPair_ne _ _ (by omega) (by omega), setPair_ne _ _ (by omega) (by omega)]
      exact hb.deaths j h1 h2
  · intro j h1 h2
    dsimp only
    rcases h1.eq_or_lt with rfl | h1
    · exact setPair_at _ _ _
    · rw [setPair_ne _ _ (by omega) (by omega), setPair_ne _ _ (by omega) (by omega)]
      exact hb.parents j h1 h2
  · intro j h1 h2
    dsimp only
    rcases h1.eq_or_lt with rfl | h1
    · exact setPair_at _ _ _
    · rw [setPair_ne _ _ (by omega) (by omega), setPair_ne _ _ (by omega) (by omega)]
      exact hb.lams j h1 h2
  · intro j h1 h2
    dsimp only
    have := hle j h2
    rcases h1.eq_or_lt with rfl | h1
    · rw [Function.update_self, Function.update_of_ne (by omega), Function.update_of_ne (by omega)]
      rfl
    · have hne : P j - n ≠ P J - n := by
        intro e
        have := h.inj j J h2 hJ (by omega)
        omega
      rw [Function.update_of_ne hne, Function.update_of_ne (by omega), Function.update_of_ne (by omega)]
      exact hb.births j h1 h2
  · intro c hc
    dsimp only
    have hne : c ≠ P J - n := by
      have := hc J le_rfl hJ
      omega
    rw [Function.update_of_ne hne]
    exact hb.rest c fun j h1 h2 => hc j (by omega) h2

theorem barcode_inv (h : PairRows n M rows P A B lv) :
    BarInv expInv n minSize P A B lv 0 M (sizeBarcode expInv n minSize (rows.filter fun row => decide (n ≤ row.child))) := by
  unfold sizeBarcode rangeDownTwo
  rw [h.len, show 2 * M / 2 = M by omega, List.foldl_map]
  have key : ∀ m, m ≤ M → BarInv expInv n minSize P A B lv (M - m) M ((List.range m).foldl (fun b j =>
      barcodeStep expInv n (rows.filter fun row => decide (n ≤ row.child)) b (2 * M - 1 - 2 * j)) (barcodeInit n minSize)) := by
    intro m
    induction m with
    | zero =>
      intro _
      have hno : ∀ j, M ≤ j → j < M → False := fun j h1 h2 => by omega
      exact ⟨by simp [barcodeInit], by simp [barcodeInit], rfl, fun j h1 h2 => (hno j h1 h2).elim, fun j h1 h2 => (hno j h1 h2).elim,
        fun j h1 h2 => (hno j h1 h2).elim, fun j h1 h2 => (hno j h1 h2).elim, fun _ _ => rfl⟩
    | succ m ih =>
      intro hm
      rw [List.range_succ, List.foldl_append, List.foldl_cons, List.foldl_nil, show 2 * M - 1 - 2 * m = 2 * (M - (m + 1)) + 1 by omega]
      refine BarInv.step h (by omega) ?_
      rw [show M - (m + 1) + 1 = M - m by omega]
      exact ih (by omega)
  have := key M le_rfl
  rwa [Nat.sub_self] at this

end

/-! ## Clusters strictly below a cluster -/

theorem cdesc_le {n k : ℕ} {rows : List (CRow L S)} (h : CondTree n k rows) {a b : ℕ} (hs : CDesc rows a b) (hb : n ≤ b) : a ≤ b := by
  induction hs with
  | refl => exact le_rfl
  | tail h1 h2 ih =>
    obtain ⟨row, hr, rfl, rfl⟩ := h2
    have := ih (h.parents row hr).1
    have := h.down row hr hb
    omega

/-- Every cluster is below the top cluster. -/
theorem CondTree.root_desc {n k : ℕ} {rows : List (CRow L S)} (h : CondTree n k rows) {c : ℕ} (h1 : n ≤ c) (h2 : c < n + k) :
    CDesc rows n c := by
  induction c using Nat.strong_induction_on with
  | _ c ih =>
    rcases h1.eq_or_lt with h3 | h3
    · subst h3; exact Relation.ReflTransGen.refl
    · obtain ⟨row, hr, rfl⟩ := List.mem_map.1 ((h.children c).2 (.inr ⟨h3, h2⟩))
      have hp := h.parents row hr
      exact (ih row.parent (h.down row hr h1) hp.1 hp.2).tail ⟨row, hr, rfl, rfl⟩

/-- Child clusters come in twos. -/
theorem exists_sibling {n k : ℕ} {rows : List (CRow L S)} (h : CondTree n k rows) (hb : CBinary n k rows) {row : CRow L S} (hr : row ∈ rows)
    (hc : n ≤ row.child) : ∃ sib ∈ rows, n ≤ sib.child ∧ sib.parent = row.parent ∧ sib ≠ row := by
  have hp := h.parents row hr
  have hm : row ∈ rows.filter fun r => decide (n ≤ r.child ∧ r.parent = row.parent) := List.mem_filter.2 ⟨hr, by simp [hc]⟩
  rcases hb row.parent hp.1 hp.2 with h1 | ⟨a, lv, s, t, _, h2⟩
  · rw [h1] at hm; simp at hm
  · have hin : ∀ r ∈ [(⟨row.parent, a, lv, s⟩ : CRow L S), ⟨row.parent, a + 1, lv, t⟩], r ∈ rows ∧ n ≤ r.child ∧ r.parent = row.parent := by
      intro r hr'
      rw [← h2] at hr'
      have := List.mem_filter.1 hr'
      exact ⟨this.1, of_decide_eq_true this.2⟩
    rw [h2] at hm
    rcases List.mem_cons.1 hm with g | g
    · obtain ⟨g1, g2, g3⟩ := hin ⟨row.parent, a + 1, lv, t⟩ (by simp)
      refine ⟨_, g1, g2, g3, fun e => ?_⟩
      have := congrArg CRow.child (e.trans g)
      simp at this
    · obtain ⟨g1, g2, g3⟩ := hin ⟨row.parent, a, lv, s⟩ (by simp)
      refine ⟨_, g1, g2, g3, fun e => ?_⟩
      have := congrArg CRow.child (e.trans (List.mem_singleton.1 g))
      simp at this

section
variable {n k M : ℕ} {rows : List (CRow L S)} {P : ℕ → ℕ} {A B : ℕ → S} {lv : ℕ → L}

theorem PairRows.mem (h : PairRows n M rows P A B lv) {j : ℕ} (hj : j < M) :
    ⟨P j, n + 2 * j + 1, lv j, A j⟩ ∈ rows ∧ ⟨P j, n + 2 * j + 2, lv j, B j⟩ ∈ rows :=
  ⟨(List.mem_filter.1 (List.mem_of_getElem? (h.fst j hj))).1, (List.mem_filter.1 (List.mem_of_getElem? (h.snd j hj))).1⟩

/-- A cluster other than the top one is in a pair. -/
theorem PairRows.pair (h : PairRows n M rows P A B lv) {row : CRow L S} (hr : row ∈ rows) (hc : n ≤ row.child) :
    ∃ j, j < M ∧ (row = ⟨P j, n + 2 * j + 1, lv j, A j⟩ ∨ row = ⟨P j, n + 2 * j + 2, lv j, B j⟩) := by
  obtain ⟨i, hi⟩ := List.mem_iff_getElem?.1 (List.mem_filter (p := fun row => decide (n ≤ row.child)).2 ⟨hr, decide_eq_true hc⟩)
  have hlt := (List.getElem?_eq_some_iff.1 hi).1
  rw [h.len] at hlt
  refine ⟨i / 2, by omega, ?_⟩
  rcases Nat.mod_two_eq_zero_or_one i with h1 | h1
  · have := h.fst (i / 2) (by omega)
    rw [show 2 * (i / 2) = i by omega, hi] at this
    left
    rw [Option.some.inj this]
    congr 1; omega
  · have := h.snd (i / 2) (by omega)
    rw [show 2 * (i / 2) + 1 = i by omega, hi] at this
    right
    rw [Option.some.inj this]


theorem PairRows.below (hct : CondTree n k rows) (h : PairRows n M rows P A B lv) {j : ℕ} (hj : j < M) {d : ℕ} (hd : n ≤ d) (hne : d ≠ P j) :
    CDesc rows (P j) d ↔ CDesc rows (n + 2 * j + 1) d ∨ CDesc rows (n + 2 * j + 2) d := by
  constructor
  · intro hs
    rcases Relation.ReflTransGen.cases_head hs with h1 | ⟨c, ⟨row, hr, hp, hc⟩, h2⟩
    · exact absurd h1.symm hne
    · have hcn : n ≤ row.child := by
        by_contra hlt
        rcases Relation.ReflTransGen.cases_head h2 with h3 | ⟨e, ⟨row', hr', hp', _⟩, _⟩
        · omega
        · have := (hct.parents row' hr').1
          omega
      obtain ⟨i, hi, h3⟩ := h.pair hr hcn
      have : i = j := by
        apply h.inj i j hi hj
        rcases h3 with h3 | h3 <;> rw [h3] at hp <;> exact hp
      subst this
      rcases h3 with h3 | h3 <;> rw [h3] at hc <;> simp only at hc <;> subst hc
      · exact .inl h2
      · exact .inr h2
  · obtain ⟨h1, h2⟩ := h.mem hj
    rintro (h3 | h3)
    · exact Relation.ReflTransGen.head ⟨_, h1, rfl, rfl⟩ h3
    · exact Relation.ReflTransGen.head ⟨_, h2, rfl, rfl⟩ h3

end

section
variable [Field K] [LinearOrder K] {n k M : ℕ} {rows : List (CRow K K)} {P : ℕ → ℕ} {A B lv : ℕ → K} {expInv : K → K} {minSize : K}
  {b : Barcode K}

/-- Every birth is the minimum size or a death. -/
theorem BarInv.births_pred (hk : k = 2 * M + 1) (h : PairRows n M rows P A B lv) (hb : BarInv expInv n minSize P A B lv 0 M b) (Q : K → Prop)
    (h0 : Q minSize) (h1 : ∀ j, j < M → Q (min (A j) (B j))) : ∀ (f c : ℕ), c < k → k - c ≤ f → Q (b.births c) := by
  intro f
  induction f with
  | zero => intro c h1 h2; omega
  | succ f ih =>
    intro c h2 h3
    by_cases hp : ∃ j, j < M ∧ P j = n + c
    · obtain ⟨j, hj, hP⟩ := hp
      have hlt := h.lt j hj
      have e := hb.births j (Nat.zero_le _) hj
      rw [hP, Nat.add_sub_cancel_left] at e
      rw [e]
      have e1 := ih (2 * j + 1) (by omega) (by omega)
      have e2 := ih (2 * j + 2) (by omega) (by omega)
      rcases max_choice (max (b.births (2 * j + 1)) (b.births (2 * j + 2))) (min (A j) (B j)) with g | g <;> rw [g]
      · rcases max_choice (b.births (2 * j + 1)) (b.births (2 * j + 2)) with g | g <;> rw [g] <;> assumption
      · exact h1 j hj
    · push Not at hp
      rw [hb.rest c fun j _ hj => hp j hj]
      exact h0

/-- A cluster is born when the minimum is reached and every cluster strictly below it is gone. -/
theorem BarInv.births_le (hct : CondTree n k rows) (hk : k = 2 * M + 1) (h : PairRows n M rows P A B lv)
    (hb : BarInv expInv n minSize P A B lv 0 M b) (s : K) : ∀ (f c : ℕ), n ≤ c → c < n + k → n + k - c ≤ f →
      (b.births (c - n) ≤ s ↔ minSize ≤ s ∧ ∀ d, n ≤ d → d < n + k → d ≠ c → CDesc rows c d → b.deaths (d - n) ≤ s) := by
  intro f
  induction f with
  | zero => intro c h1 h2 h3; omega
  | succ f ih =>
    intro c h1 h2 h3
    by_cases hp : ∃ j, j < M ∧ P j = c
    · obtain ⟨j, hj, rfl⟩ := hp
      have hlt := h.lt j hj
      have e1 := ih (n + 2 * j + 1) (by omega) (by omega) (by omega)
      have e2 := ih (n + 2 * j + 2) (by omega) (by omega) (by omega)
      rw [show n + 2 * j + 1 - n = 2 * j + 1 by omega] at e1
      rw [show n + 2 * j + 2 - n = 2 * j + 2 by omega] at e2
      rw [hb.births j (Nat.zero_le _) hj, max_le_iff, max_le_iff, e1, e2]
      obtain ⟨d1, d2⟩ := hb.deaths j (Nat.zero_le _) hj
      constructor
      · rintro ⟨⟨⟨g0, g1⟩, _, g2⟩, g3⟩
        refine ⟨g0, fun d hd1 hd2 hne hd => ?_⟩
        rcases (h.below hct hj hd1 hne).1 hd with g | g
        · by_cases he : d = n + 2 * j + 1
          · rw [he, show n + 2 * j + 1 - n = 2 * j + 1 by omega, d1]; exact g3
          · exact g1 d hd1 hd2 he g
        · by_cases he : d = n + 2 * j + 2
          · rw [he, show n + 2 * j + 2 - n = 2 * j + 2 by omega, d2]; exact g3
          · exact g2 d hd1 hd2 he g
      · rintro ⟨g0, g1⟩
        have hne : ∀ d, CDesc rows (n + 2 * j + 1) d ∨ CDesc rows (n + 2 * j + 2) d → n ≤ d → d ≠ P j := by
          rintro d (g | g) hd1 rfl
          · have := cdesc_le hct g (by omega); omega
          · have := cdesc_le hct g (by omega); omega
        refine ⟨⟨⟨g0, fun d hd1 hd2 _ hd => ?_⟩, g0, fun d hd1 hd2 _ hd => ?_⟩, ?_⟩
        · have := hne d (.inl hd) hd1
          exact g1 d hd1 hd2 this ((h.below hct hj hd1 this).2 (.inl hd))
        · have := hne d (.inr hd) hd1
          exact g1 d hd1 hd2 this ((h.below hct hj hd1 this).2 (.inr hd))
        · have := g1 (n + 2 * j + 1) (by omega) (by omega) (by omega)
            ((h.below hct hj (by omega) (by omega)).2 (.inl Relation.ReflTransGen.refl))
          rwa [show n + 2 * j + 1 - n = 2 * j + 1 by omega, d1] at this
    · push Not at hp
      rw [hb.rest (c - n) fun j _ hj => by have := hp j hj; omega]
      refine ⟨fun hs => ⟨hs, fun d hd1 hd2 hne hd => ?_⟩, fun hs => hs.1⟩
      exfalso
      rcases Relation.ReflTransGen.cases_head hd with g | ⟨e, ⟨row, hr, hpr, hc⟩, g2⟩
      · exact hne g.symm
      · by_cases hcn : n ≤ row.child
        · obtain ⟨j, hj, g3⟩ := h.pair hr hcn
          refine hp j hj ?_
          rcases g3 with g3 | g3 <;> rw [g3] at hpr <;> exact hpr
        · rcases Relation.ReflTransGen.cases_head g2 with g3 | ⟨e', ⟨row', hr', hp', _⟩, _⟩
          · omega
          · have := (hct.parents row' hr').1
            omega

end
end Verif
