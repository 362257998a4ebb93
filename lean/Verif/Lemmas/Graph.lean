import Verif.Spec.Graph
import Mathlib.Data.List.Perm.Subperm
import Mathlib.Tactic.Linarith

namespace Verif
variable {W : Type*}

theorem Adj.symm {es : List (Edge W)} {a b : ℕ} (h : Adj es a b) : Adj es b a := by
  obtain ⟨e, he, h⟩ := h
  exact ⟨e, he, h.symm⟩

theorem Conn.refl (es : List (Edge W)) (a : ℕ) : Conn es a a := Relation.ReflTransGen.refl

theorem Conn.trans {es : List (Edge W)} {a b c : ℕ} (h : Conn es a b) (h' : Conn es b c) :
    Conn es a c := Relation.ReflTransGen.trans h h'

theorem Conn.symm {es : List (Edge W)} {a b : ℕ} (h : Conn es a b) : Conn es b a := by
  induction h with
  | refl => exact Conn.refl _ _
  | tail _ hbc ih => exact Relation.ReflTransGen.head hbc.symm ih

theorem Conn.comm {es : List (Edge W)} {a b : ℕ} : Conn es a b ↔ Conn es b a :=
  ⟨Conn.symm, Conn.symm⟩

theorem Conn.edge {es : List (Edge W)} {e : Edge W} (h : e ∈ es) : Conn es e.u e.v :=
  Relation.ReflTransGen.single ⟨e, h, Or.inl ⟨rfl, rfl⟩⟩

/-- If every edge of `g` is a connection in `f` then every connection of `g` is. -/
theorem Conn.of_forall {W' : Type*} {g : List (Edge W)} {f : List (Edge W')}
    (h : ∀ e ∈ g, Conn f e.u e.v) {a b : ℕ} (hab : Conn g a b) : Conn f a b := by
  induction hab with
  | refl => exact Conn.refl _ _
  | tail _ hbc ih =>
    obtain ⟨e, he, h1 | h1⟩ := hbc
    · obtain ⟨rfl, rfl⟩ := h1; exact ih.trans (h e he)
    · obtain ⟨rfl, rfl⟩ := h1; exact ih.trans (h e he).symm

theorem Conn.mono {g f : List (Edge W)} (h : ∀ e ∈ g, e ∈ f) {a b : ℕ} (hab : Conn g a b) :
    Conn f a b := Conn.of_forall (fun e he => Conn.edge (h e he)) hab

theorem Conn.congr {g f : List (Edge W)} (h : ∀ e, e ∈ g ↔ e ∈ f) {a b : ℕ} :
    Conn g a b ↔ Conn f a b :=
  ⟨Conn.mono fun e he => (h e).1 he, Conn.mono fun e he => (h e).2 he⟩

theorem Conn.perm {g f : List (Edge W)} (h : g.Perm f) {a b : ℕ} : Conn g a b ↔ Conn f a b :=
  Conn.congr fun _ => h.mem_iff

@[simp] theorem Conn.nil {a b : ℕ} : Conn ([] : List (Edge W)) a b ↔ a = b := by
  constructor
  · intro h
    induction h with
    | refl => rfl
    | tail _ hbc _ => obtain ⟨e, he, _⟩ := hbc; simp at he
  · rintro rfl; exact Conn.refl _ _

/-- Connectivity after adding one edge. -/
theorem Conn.cons_iff {es : List (Edge W)} {e : Edge W} {a b : ℕ} :
    Conn (e :: es) a b ↔
      Conn es a b ∨ (Conn es a e.u ∧ Conn es e.v b) ∨ (Conn es a e.v ∧ Conn es e.u b) := by
  constructor
  · intro h
    induction h with
    | refl => exact Or.inl (Conn.refl _ _)
    | @tail b c _ hbc ih =>
      obtain ⟨x, hx, hxe⟩ := hbc
      rcases List.mem_cons.1 hx with rfl | hx
      · rcases hxe with ⟨rfl, rfl⟩ | ⟨rfl, rfl⟩
        · rcases ih with h | ⟨h, _⟩ | ⟨h, _⟩
          · exact Or.inr (Or.inl ⟨h, Conn.refl _ _⟩)
          · exact Or.inr (Or.inl ⟨h, Conn.refl _ _⟩)
          · exact Or.inl h
        · rcases ih with h | ⟨h, _⟩ | ⟨h, _⟩
          · exact Or.inr (Or.inr ⟨h, Conn.refl _ _⟩)
          · exact Or.inl h
          · exact Or.inr (Or.inr ⟨h, Conn.refl _ _⟩)
      · have hbc' : Conn es b c := Relation.ReflTransGen.single ⟨x, hx, hxe⟩
        rcases ih with h | ⟨h, h'⟩ | ⟨h, h'⟩
        · exact Or.inl (h.trans hbc')
        · exact Or.inr (Or.inl ⟨h, h'.trans hbc'⟩)
        · exact Or.inr (Or.inr ⟨h, h'.trans hbc'⟩)
  · have hm : ∀ {a b}, Conn es a b → Conn (e :: es) a b :=
      fun h => h.mono fun x hx => List.mem_cons_of_mem _ hx
    have he : Conn (e :: es) e.u e.v := Conn.edge List.mem_cons_self
    rintro (h | ⟨h, h'⟩ | ⟨h, h'⟩)
    · exact hm h
    · exact (hm h).trans (he.trans (hm h'))
    · exact (hm h).trans (he.symm.trans (hm h'))

theorem Conn.snoc_iff {es : List (Edge W)} {e : Edge W} {a b : ℕ} :
    Conn (es ++ [e]) a b ↔
      Conn es a b ∨ (Conn es a e.u ∧ Conn es e.v b) ∨ (Conn es a e.v ∧ Conn es e.u b) := by
  rw [← Conn.cons_iff]
  exact Conn.perm (by simp)

theorem Conn.append_left {es fs : List (Edge W)} {a b : ℕ} (h : Conn es a b) :
    Conn (es ++ fs) a b := h.mono fun _ he => List.mem_append_left _ he

theorem Conn.append_right {es fs : List (Edge W)} {a b : ℕ} (h : Conn fs a b) :
    Conn (es ++ fs) a b := h.mono fun _ he => List.mem_append_right _ he

theorem Conn.inRange {es : List (Edge W)} {n : ℕ} (hr : InRange n es) {a b : ℕ}
    (h : Conn es a b) : a = b ∨ (a < n ∧ b < n) := by
  induction h with
  | refl => exact Or.inl rfl
  | @tail b c _ hbc ih =>
    obtain ⟨e, he, h1⟩ := hbc
    obtain ⟨hu, hv⟩ := hr e he
    have hb : b < n ∧ c < n := by
      rcases h1 with ⟨rfl, rfl⟩ | ⟨rfl, rfl⟩ <;> exact ⟨by assumption, by assumption⟩
    rcases ih with rfl | ⟨h, _⟩
    · exact Or.inr hb
    · exact Or.inr ⟨h, hb.2⟩

/-! ### Acyclic lists -/

theorem Acyclic.nil : Acyclic ([] : List (Edge W)) := by
  intro l₁ e l₂ h; simp at h

theorem Acyclic.of_perm {es fs : List (Edge W)} (h : Acyclic es) (hp : es.Perm fs) :
    Acyclic fs := by
  intro l₁ e l₂ hf hc
  have hmem : e ∈ es := hp.mem_iff.2 (by rw [hf]; simp)
  obtain ⟨m₁, m₂, rfl⟩ := List.append_of_mem hmem
  refine h m₁ e m₂ rfl ?_
  have hp' : (m₁ ++ m₂).Perm (l₁ ++ l₂) := by
    have h1 : (e :: (m₁ ++ m₂)).Perm (e :: (l₁ ++ l₂)) :=
      (List.perm_middle.symm.trans (hf ▸ hp)).trans List.perm_middle
    exact h1.cons_inv
  exact (Conn.perm hp').2 hc

theorem Acyclic.snoc_iff {es : List (Edge W)} {e : Edge W} :
    Acyclic (es ++ [e]) ↔ Acyclic es ∧ ¬ Conn es e.u e.v := by
  constructor
  · intro h
    refine ⟨?_, ?_⟩
    · rintro l₁ f l₂ rfl hc
      refine h l₁ f (l₂ ++ [e]) (by simp) ?_
      exact hc.mono fun x hx => by
        simp only [List.mem_append] at hx ⊢; tauto
    · intro hc
      exact h es e [] (by simp) (by simpa using hc)
  · rintro ⟨h, hne⟩ l₁ f l₂ heq hc
    rcases List.eq_nil_or_concat l₂ with rfl | ⟨l₂', g, rfl⟩
    · obtain ⟨rfl, hfe⟩ := List.append_inj' heq rfl
      simp only [List.cons.injEq, and_true] at hfe
      subst hfe
      exact hne (by simpa using hc)
    · rw [List.concat_eq_append] at heq hc
      have heq' : es ++ [e] = (l₁ ++ f :: l₂') ++ [g] := by simpa using heq
      obtain ⟨hes, hge⟩ := List.append_inj' heq' rfl
      simp only [List.cons.injEq, and_true] at hge
      subst hge
      subst hes
      have hnf := h l₁ f l₂' rfl
      rw [← List.append_assoc, Conn.snoc_iff] at hc
      have hf : Conn (l₁ ++ f :: l₂') f.u f.v := Conn.edge (by simp)
      have hm : ∀ {a b}, Conn (l₁ ++ l₂') a b → Conn (l₁ ++ f :: l₂') a b := fun h =>
        h.mono fun x hx => by simp only [List.mem_append, List.mem_cons] at hx ⊢; tauto
      rcases hc with hc | ⟨h1, h2⟩ | ⟨h1, h2⟩
      · exact hnf hc
      · exact hne ((hm h1).symm.trans (hf.trans (hm h2).symm))
      · exact hne ((hm h2).trans (hf.symm.trans (hm h1)))

theorem Acyclic.cons_iff {es : List (Edge W)} {e : Edge W} :
    Acyclic (e :: es) ↔ Acyclic es ∧ ¬ Conn es e.u e.v := by
  rw [← Acyclic.snoc_iff]
  have hp : (es ++ [e]).Perm (e :: es) := by
    simp
  exact ⟨fun h => h.of_perm hp.symm, fun h => h.of_perm hp⟩

theorem Acyclic.of_subperm {es fs : List (Edge W)} (h : Acyclic fs) (hs : List.Subperm es fs) :
    Acyclic es := by
  obtain ⟨l, hp, hs⟩ := hs
  refine Acyclic.of_perm ?_ hp
  clear hp
  induction hs with
  | slnil => exact h
  | cons a _ ih => exact ih (Acyclic.cons_iff.1 h).1
  | @cons_cons l₁ l₂ a hs ih =>
    rw [Acyclic.cons_iff] at h ⊢
    exact ⟨ih h.1, fun hc => h.2 (hc.mono fun x hx => hs.subset hx)⟩

theorem Acyclic.filter {es : List (Edge W)} (h : Acyclic es) (p : Edge W → Bool) :
    Acyclic (es.filter p) := h.of_subperm List.filter_sublist.subperm

/-! ### Counting components -/

theorem compCount_nil (n : ℕ) : compCount n ([] : List (Edge W)) = n := by
  classical
  unfold compCount
  rw [Finset.filter_true_of_mem]
  · simp
  · intro x _ y hy h
    simp at h; omega

/-- Every vertex is connected to a smallest vertex of its component. -/
theorem exists_least (es : List (Edge W)) (x : ℕ) :
    ∃ m, Conn es x m ∧ m ≤ x ∧ ∀ y, Conn es x y → m ≤ y := by
  classical
  have hex : ∃ m, Conn es x m := ⟨x, Conn.refl _ _⟩
  exact ⟨Nat.find hex, Nat.find_spec hex, Nat.find_min' hex (Conn.refl _ _),
    fun y hy => Nat.find_min' hex hy⟩

theorem compCount_congr {W' : Type*} {n : ℕ} {es : List (Edge W)} {fs : List (Edge W')}
    (h : ∀ a b, a < n → b < n → (Conn es a b ↔ Conn fs a b)) : compCount n es = compCount n fs := by
  classical
  unfold compCount
  congr 1
  apply Finset.filter_congr
  intro x hx
  rw [Finset.mem_range] at hx
  constructor
  · intro H y hy hc; exact H y hy ((h x y hx (by omega)).2 hc)
  · intro H y hy hc; exact H y hy ((h x y hx (by omega)).1 hc)

theorem compCount_anti {n : ℕ} {es fs : List (Edge W)}
    (h : ∀ a b, Conn es a b → Conn fs a b) : compCount n fs ≤ compCount n es := by
  classical
  unfold compCount
  apply Finset.card_le_card
  intro x hx
  simp only [Finset.mem_filter] at hx ⊢
  exact ⟨hx.1, fun y hy hc => hx.2 y hy (h _ _ hc)⟩

theorem compCount_snoc {n : ℕ} {es : List (Edge W)} {e : Edge W}
    (hu : e.u < n) (hv : e.v < n) (hne : ¬ Conn es e.u e.v) :
    compCount n (es ++ [e]) + 1 = compCount n es := by
  classical
  obtain ⟨mu, hmu, hmule, hmul⟩ := exists_least es e.u
  obtain ⟨mv, hmv, hmvle, hmvl⟩ := exists_least es e.v
  have hmne : mu ≠ mv := fun h => hne (hmu.trans (h ▸ hmv.symm))
  -- the larger of the two least vertices stops being least
  unfold compCount
  set M := max mu mv with hM
  have hMn : M < n := by omega
  have hset : (Finset.range n).filter (fun x => ∀ y, y < x → ¬ Conn es x y) =
      insert M ((Finset.range n).filter (fun x => ∀ y, y < x → ¬ Conn (es ++ [e]) x y)) := by
    ext x
    simp only [Finset.mem_filter, Finset.mem_insert, Finset.mem_range]
    constructor
    · rintro ⟨hxn, hx⟩
      by_cases hxM : x = M
      · exact Or.inl hxM
      · refine Or.inr ⟨hxn, fun y hy hc => ?_⟩
        rcases Conn.snoc_iff.1 hc with h | ⟨h1, h2⟩ | ⟨h1, h2⟩
        · exact hx y hy h
        · -- x ~ u, so x = mu ; y ~ v so mv ≤ y < x = mu
          have h3 : mu ≤ x := hmul x h1.symm
          have h4 : x = mu := by
            by_contra hh
            exact hx mu (by omega) (h1.trans hmu)
          have h5 : mv ≤ y := hmvl y h2
          omega
        · have h3 : mv ≤ x := hmvl x h1.symm
          have h4 : x = mv := by
            by_contra hh
            exact hx mv (by omega) (h1.trans hmv)
          have h5 : mu ≤ y := hmul y h2
          omega
    · rintro (rfl | ⟨hxn, hx⟩)
      · refine ⟨hMn, fun y hy hc => ?_⟩
        rcases le_total mu mv with h | h
        · rw [max_eq_right h] at hM
          rw [hM] at hc hy
          have := hmvl y (hmv.trans hc)
          omega
        · rw [max_eq_left h] at hM
          rw [hM] at hc hy
          have := hmul y (hmu.trans hc)
          omega
      · exact ⟨hxn, fun y hy hc => hx y hy hc.append_left⟩
  rw [hset, Finset.card_insert_of_notMem]
  simp only [Finset.mem_filter, not_and, not_forall, not_not]
  intro _
  refine ⟨min mu mv, by omega, ?_⟩
  have he : Conn (es ++ [e]) e.u e.v := Conn.edge (by simp)
  have hc : Conn (es ++ [e]) mu mv :=
    (hmu.append_left.symm.trans he).trans hmv.append_left
  rcases le_total mu mv with h | h
  · rw [hM, max_eq_right h, min_eq_left h]; exact hc.symm
  · rw [hM, max_eq_left h, min_eq_right h]; exact hc

/-- In a cycle-free graph, edges and components together count the vertices. -/
theorem Acyclic.length_add_compCount {n : ℕ} {es : List (Edge W)} (h : Acyclic es)
    (hr : InRange n es) : es.length + compCount n es = n := by
  induction es using List.reverseRecOn with
  | nil => simp [compCount_nil]
  | append_singleton es e ih =>
    rw [Acyclic.snoc_iff] at h
    have hr' : InRange n es := fun x hx => hr x (by simp [hx])
    have he := hr e (by simp)
    have := compCount_snoc he.1 he.2 h.2
    have := ih h.1 hr'
    simp only [List.length_append, List.length_cons, List.length_nil]
    omega

theorem compCount_le {n : ℕ} {es : List (Edge W)} : compCount n es ≤ n := by
  classical
  unfold compCount
  exact (Finset.card_filter_le _ _).trans (by simp)

theorem compCount_pos {n : ℕ} (hn : 0 < n) {es : List (Edge W)} : 0 < compCount n es := by
  classical
  unfold compCount
  apply Finset.card_pos.2
  exact ⟨0, by simp [hn]⟩

/-- One component left means everything is connected. -/
theorem conn_of_compCount_le_one {n : ℕ} {es : List (Edge W)} (h : compCount n es ≤ 1) {a b : ℕ}
    (ha : a < n) (hb : b < n) : Conn es a b := by
  classical
  obtain ⟨ma, hma, hmale, hmal⟩ := exists_least es a
  obtain ⟨mb, hmb, hmble, hmbl⟩ := exists_least es b
  have h1 : ma = mb := by
    unfold compCount at h
    refine Finset.card_le_one.1 h ma ?_ mb ?_
    · simp only [Finset.mem_filter, Finset.mem_range]
      exact ⟨by omega, fun y hy hc => by have := hmal y (hma.trans hc); omega⟩
    · simp only [Finset.mem_filter, Finset.mem_range]
      exact ⟨by omega, fun y hy hc => by have := hmbl y (hmb.trans hc); omega⟩
  exact hma.trans (h1 ▸ hmb.symm)

theorem compCount_eq_one {n : ℕ} (hn : 0 < n) {es : List (Edge W)}
    (h : ∀ a b, a < n → b < n → Conn es a b) : compCount n es = 1 := by
  classical
  unfold compCount
  rw [Finset.card_eq_one]
  refine ⟨0, ?_⟩
  ext x
  simp only [Finset.mem_filter, Finset.mem_range, Finset.mem_singleton]
  constructor
  · rintro ⟨hx, hy⟩
    by_contra h0
    exact hy 0 (by omega) (h x 0 hx hn)
  · rintro rfl
    exact ⟨hn, fun y hy => by omega⟩

/-- A spanning tree on `n` vertices has `n - 1` edges. -/
theorem SpanningTree.length {n : ℕ} (hn : 0 < n) {f : List (Edge W)} (h : SpanningTree n f) :
    f.length + 1 = n := by
  have := h.acyclic.length_add_compCount h.inRange
  rw [compCount_eq_one hn h.conn] at this
  exact this

/-! ### Thresholds -/

theorem mem_upTo [LinearOrder W] {t : W} {es : List (Edge W)} {e : Edge W} :
    e ∈ upTo t es ↔ e ∈ es ∧ e.w ≤ t := by simp [upTo]

theorem mem_below [LinearOrder W] {t : W} {es : List (Edge W)} {e : Edge W} :
    e ∈ below t es ↔ e ∈ es ∧ e.w < t := by simp [below]

/-- Bounding the sorted weights pointwise from counts below every threshold. -/
theorem forall₂_insertionSort_of_count [LinearOrder W] {A B : List W} (hl : A.length = B.length)
    (h : ∀ t, (B.filter (fun x => decide (x ≤ t))).length ≤
      (A.filter (fun x => decide (x ≤ t))).length) :
    List.Forall₂ (· ≤ ·) (A.insertionSort (· ≤ ·)) (B.insertionSort (· ≤ ·)) := by
  set A' := A.insertionSort (· ≤ ·) with hA'
  set B' := B.insertionSort (· ≤ ·) with hB'
  have pA : A'.Perm A := List.perm_insertionSort _ _
  have pB : B'.Perm B := List.perm_insertionSort _ _
  have sA : A'.Pairwise (· ≤ ·) := List.pairwise_insertionSort _ _
  have sB : B'.Pairwise (· ≤ ·) := List.pairwise_insertionSort _ _
  have hl' : A'.length = B'.length := by rw [pA.length_eq, pB.length_eq, hl]
  have h' : ∀ t, (B'.filter (fun x => decide (x ≤ t))).length ≤
      (A'.filter (fun x => decide (x ≤ t))).length := by
    intro t
    rw [(pA.filter _).length_eq, (pB.filter _).length_eq]
    exact h t
  clear_value A' B'
  rw [List.forall₂_iff_get]
  refine ⟨hl', fun i hiA hiB => ?_⟩
  by_contra hlt
  push Not at hlt
  have h1 := h' (B'.get ⟨i, hiB⟩)
  -- at least `i+1` elements of `B'` are ≤ B'[i]
  have hBge : i + 1 ≤ (B'.filter (fun x => decide (x ≤ B'.get ⟨i, hiB⟩))).length := by
    have hs : ((B'.take (i+1)).filter (fun x => decide (x ≤ B'.get ⟨i, hiB⟩))).length = i + 1 := by
      rw [List.filter_eq_self.2]
      · simp; omega
      · intro x hx
        obtain ⟨j, hj, rfl⟩ := List.getElem_of_mem hx
        simp only [List.length_take] at hj
        simp only [List.getElem_take, List.get_eq_getElem, decide_eq_true_eq]
        rcases Nat.lt_or_ge j i with hji | hji
        · exact List.pairwise_iff_getElem.1 sB j i (by omega) hiB hji
        · have : j = i := by omega
          subst this; exact le_refl _
    calc i + 1 = _ := hs.symm
      _ ≤ _ := ((List.take_sublist _ _).filter _).length_le
  -- at most `i` elements of `A'` are
  have hAle : (A'.filter (fun x => decide (x ≤ B'.get ⟨i, hiB⟩))).length ≤ i := by
    have hsplit : A' = A'.take i ++ A'.drop i := (List.take_append_drop i A').symm
    rw [hsplit, List.filter_append]
    have hz : (A'.drop i).filter (fun x => decide (x ≤ B'.get ⟨i, hiB⟩)) = [] := by
      rw [List.filter_eq_nil_iff]
      intro x hx
      obtain ⟨j, hj, rfl⟩ := List.getElem_of_mem hx
      simp only [List.length_drop] at hj
      simp only [List.getElem_drop, decide_eq_true_eq, not_le]
      refine lt_of_lt_of_le hlt ?_
      rcases Nat.eq_zero_or_pos j with rfl | hjp
      · simp
      · exact List.pairwise_iff_getElem.1 sA i (i+j) hiA (by omega) (by omega)
    rw [hz, List.append_nil]
    refine (List.length_filter_le _ _).trans ?_
    simp
  omega

theorem InRange.subperm {n : ℕ} {es fs : List (Edge W)} (h : InRange n fs)
    (hs : List.Subperm es fs) : InRange n es := fun e he => h e (hs.subset he)

theorem exists_inRange (g : List (Edge W)) : ∃ n, InRange n g := by
  induction g with
  | nil => exact ⟨0, fun e he => by simp at he⟩
  | cons e g ih =>
    obtain ⟨n, hn⟩ := ih
    refine ⟨max n (max (e.u+1) (e.v+1)), fun x hx => ?_⟩
    rcases List.mem_cons.1 hx with rfl | hx
    · constructor <;> omega
    · have := hn x hx; constructor <;> omega

/-- A spanning forest that is connectivity preserving at every threshold is minimum. -/
theorem minSpanningForest_of_threshold [LinearOrder W] {g f : List (Edge W)}
    (hf : SpanningForest g f) (ht : ∀ e ∈ g, Conn (upTo e.w f) e.u e.v) :
    MinSpanningForest g f := by
  refine ⟨hf, fun f' hf' => ?_⟩
  obtain ⟨n, hn⟩ := exists_inRange g
  have hnf := hn.subperm hf.sub
  have hnf' := hn.subperm hf'.sub
  have key : ∀ t, (upTo t f').length ≤ (upTo t f).length := by
    intro t
    have h1 := (hf'.acyclic.filter (fun e => decide (e.w ≤ t))).length_add_compCount
      (hnf'.subperm List.filter_sublist.subperm)
    have h2 := (hf.acyclic.filter (fun e => decide (e.w ≤ t))).length_add_compCount
      (hnf.subperm List.filter_sublist.subperm)
    have h3 : compCount n (upTo t f) ≤ compCount n (upTo t f') := by
      apply compCount_anti
      intro a b hab
      refine Conn.of_forall (fun e he => ?_) hab
      rw [mem_upTo] at he
      refine (ht e (hf'.sub.subset he.1)).mono fun x hx => ?_
      rw [mem_upTo] at hx ⊢
      exact ⟨hx.1, hx.2.trans he.2⟩
    unfold upTo at h3 ⊢
    omega
  have hlen : f.length = f'.length := by
    have h1 := hf'.acyclic.length_add_compCount hnf'
    have h2 := hf.acyclic.length_add_compCount hnf
    have h3 : compCount n f = compCount n f' :=
      compCount_congr fun a b _ _ => (hf.conn a b).trans (hf'.conn a b).symm
    omega
  apply forall₂_insertionSort_of_count (by simpa [weights] using hlen)
  intro t
  have := key t
  simp only [weights, List.filter_map, List.length_map]
  exact this

/-- Two minimum spanning forests have the same weights. -/
theorem MinSpanningForest.weights_perm [LinearOrder W] {g f f' : List (Edge W)}
    (h : MinSpanningForest g f) (h' : MinSpanningForest g f') :
    (weights f).Perm (weights f') := by
  have h1 := h.minimal f' h'.forest
  have h2 := h'.minimal f h.forest
  have heq : (weights f).insertionSort (· ≤ ·) = (weights f').insertionSort (· ≤ ·) := by
    generalize (weights f).insertionSort (· ≤ ·) = A at h1 h2
    generalize (weights f').insertionSort (· ≤ ·) = B at h1 h2
    induction h1 with
    | nil => rfl
    | cons hab _ ih =>
      cases h2 with
      | cons hba h2 => rw [le_antisymm hab hba, ih h2]
  have := List.perm_insertionSort (· ≤ ·) (weights f')
  rw [← heq] at this
  exact (List.perm_insertionSort _ _).symm.trans this

/-- A value that agrees at the ends of every edge agrees on connected vertices. -/
theorem conn_invariant {W α : Type*} {es : List (Edge W)} (f : ℕ → α) (hf : ∀ e ∈ es, f e.u = f e.v) {x y : ℕ}
    (h : Conn es x y) : f x = f y := by
  induction h with
  | refl => rfl
  | tail _ h ih =>
    obtain ⟨e, he, h⟩ := h
    rcases h with ⟨rfl, rfl⟩ | ⟨rfl, rfl⟩
    · exact ih.trans (hf e he)
    · exact ih.trans (hf e he).symm

end Verif
