import Verif.Spec.Kept
import Verif.Props.LeafTies

/-!
# C119: removing noise keeps the clusters
-/

namespace Verif
variable {W K : Type*} [LinearOrder W]

/-- The length at which two samples are joined. -/
theorem join_level {g : List (Edge W)} {a b : ℕ} (h : Conn g a b) (hab : a ≠ b) : ∃ e ∈ g, Conn (upTo e.w g) a b ∧ ¬ Conn (below e.w g) a b := by
  classical
  have hmax : ∀ l : List (Edge W), (∀ e ∈ l, e ∈ g) → Conn l a b → ∃ e ∈ l, Conn (upTo e.w g) a b := by
    intro l hl hc
    have hne : l ≠ [] := by
      rintro rfl
      rcases Conn.inRange (n := 0) (fun e he => by simp at he) hc with h | h
      · exact hab h
      · omega
    obtain ⟨m, hm, hmx⟩ := Finset.exists_max_image l.toFinset Edge.w (List.toFinset_nonempty_iff _ |>.2 hne)
    exact ⟨m, List.mem_toFinset.1 hm, hc.mono fun e he => mem_upTo.2 ⟨hl e he, hmx e (List.mem_toFinset.2 he)⟩⟩
  obtain ⟨e0, he0, hc0⟩ := hmax g (fun _ h => h) h
  obtain ⟨e, he, hmin⟩ := Finset.exists_min_image (g.toFinset.filter fun e => Conn (upTo e.w g) a b) Edge.w ⟨e0, Finset.mem_filter.2 ⟨List.mem_toFinset.2 he0, hc0⟩⟩
  obtain ⟨h1, h2⟩ := Finset.mem_filter.1 he
  refine ⟨e, List.mem_toFinset.1 h1, h2, fun hc => ?_⟩
  obtain ⟨e2, he2, hc2⟩ := hmax _ (fun e he => (mem_below.1 he).1) hc
  exact absurd (hmin e2 (Finset.mem_filter.2 ⟨List.mem_toFinset.2 (mem_below.1 he2).1, hc2⟩)) (not_le.2 (mem_below.1 he2).2)

theorem upTo_le_below {g : List (Edge W)} {τ τ' : W} (h : τ < τ') {x y : ℕ} (hc : Conn (upTo τ g) x y) : Conn (below τ' g) x y :=
  hc.mono fun e he => mem_below.2 ⟨(mem_upTo.1 he).1, (mem_upTo.1 he).2.trans_lt h⟩

theorem below_mono {g : List (Edge W)} {τ τ' : W} (h : τ ≤ τ') {x y : ℕ} (hc : Conn (below τ g) x y) : Conn (below τ' g) x y :=
  hc.mono fun e he => mem_below.2 ⟨(mem_below.1 he).1, (mem_below.1 he).2.trans_le h⟩

/-- Joined below `τ` but not below `τ'`: joined at a length in between. -/
theorem join_between {g : List (Edge W)} {τ τ' : W} {a b : ℕ} (h : Conn (below τ g) a b) (h' : ¬ Conn (below τ' g) a b) :
    ∃ e ∈ g, τ' ≤ e.w ∧ e.w < τ ∧ Conn (upTo e.w g) a b ∧ ¬ Conn (below e.w g) a b := by
  obtain ⟨e, he, h1, h2⟩ := join_level (h.mono fun e he => (mem_below.1 he).1) fun hab => h' (hab ▸ Conn.refl _ _)
  exact ⟨e, he, not_lt.1 fun hlt => h' (upTo_le_below hlt h1), not_le.1 fun hle => h2 (below_mono hle h), h1, h2⟩

section
variable [Field K] [LinearOrder K] [IsStrictOrderedRing K] {n : ℕ} {wt : ℕ → K} (h0 : ∀ x, x < n → 0 ≤ wt x) {θ : K}
include h0

theorem heavy_below {g : List (Edge W)} {τ τ' : W} (h : τ ≤ τ') {x : ℕ} (hh : HeavyPart n wt θ (below τ g) x) : HeavyPart n wt θ (below τ' g) x :=
  heavy_mono h0 (fun e he => mem_below.2 ⟨(mem_below.1 he).1, (mem_below.1 he).2.trans_le h⟩) (Conn.refl _ _) hh

/-- A heavy part that is joined with another one holds a leaf group. -/
theorem leaf_inside {g : List (Edge W)} (hr : InRange n g) : ∀ (k : ℕ) (τ : W) (x y : ℕ), (below τ g).length ≤ k → y < n → Conn (upTo τ g) y x → ¬ Conn (below τ g) y x →
    HeavyPart n wt θ (below τ g) x → HeavyPart n wt θ (below τ g) y → ∃ S, LeafGroup n wt θ g S ∧ S ⊆ {z | Conn (below τ g) y z} := by
  intro k
  induction k with
  | zero =>
    intro τ x y hk hy hc hnc hx hhy
    have hnil : below τ g = [] := List.length_eq_zero_iff.1 (by omega)
    refine ⟨_, ⟨τ, y, x, hy, hc, hnc, hhy, hx, rfl, fun τ' hτ a ha b hb _ _ => ?_⟩, subset_rfl⟩
    have e : ∀ z, Conn (below τ g) y z → z = y := fun z hz => by
      rw [hnil] at hz
      rcases Conn.inRange (n := 0) (fun e he => by simp at he) hz with h | h
      · exact h.symm
      · omega
    rw [e a ha, e b hb]
    exact Conn.refl _ _
  | succ k ih =>
    intro τ x y hk hy hc hnc hx hhy
    by_cases hin : ∀ τ' ≤ τ, ∀ a ∈ {z | Conn (below τ g) y z}, ∀ b ∈ {z | Conn (below τ g) y z}, HeavyPart n wt θ (below τ' g) a → HeavyPart n wt θ (below τ' g) b →
        Conn (below τ' g) a b
    · exact ⟨_, ⟨τ, y, x, hy, hc, hnc, hhy, hx, rfl, hin⟩, subset_rfl⟩
    · push Not at hin
      obtain ⟨τ', hτ, a, ha, b, hb, h1, h2, h3⟩ := hin
      obtain ⟨e, he, e1, e2, e3, e4⟩ := join_between ((Conn.symm ha).trans hb) h3
      have hlen : (below e.w g).length < (below τ g).length := by
        have hsub : ∀ l : List (Edge W), (below e.w l).length ≤ (below τ l).length ∧ (e ∈ l → (below e.w l).length < (below τ l).length) := by
          intro l
          induction l with
          | nil => exact ⟨le_rfl, fun h => by simp at h⟩
          | cons c l ih =>
            unfold below at ih ⊢
            rw [List.filter_cons, List.filter_cons]
            by_cases hc : c.w < e.w
            · have : c.w < τ := hc.trans e2
              simp only [hc, this, decide_true, if_true, List.length_cons]
              refine ⟨by omega, fun hm => ?_⟩
              rcases List.mem_cons.1 hm with rfl | hm
              · exact absurd hc (lt_irrefl _)
              · have := ih.2 hm; omega
            · simp only [hc, decide_false, Bool.false_eq_true, if_false]
              by_cases hc' : c.w < τ
              · simp only [hc', decide_true, if_true, List.length_cons]
                exact ⟨by omega, fun _ => by omega⟩
              · simp only [hc', decide_false, Bool.false_eq_true, if_false]
                refine ⟨ih.1, fun hm => ?_⟩
                rcases List.mem_cons.1 hm with rfl | hm
                · exact absurd e2 hc'
                · exact ih.2 hm
        exact (hsub g).2 he
      have hbn : b < n := stays_inRange (fun e he => hr e (mem_below.1 he).1) hb hy
      obtain ⟨S, hS, hsub⟩ := ih e.w a b (by omega) hbn e3.symm (fun h => e4 h.symm) (heavy_below h0 e1 h1) (heavy_below h0 e1 h2)
      exact ⟨S, hS, fun z hz => Conn.trans hb (below_mono e2.le (hsub hz))⟩

/-- A heavy part without two heavy parts inside grows to a leaf group, if it is ever joined with another heavy part. -/
theorem leaf_around {g : List (Edge W)} {τ : W} {a : ℕ} (ha : a < n) (hh : HeavyPart n wt θ (below τ g) a)
    (hin : ∀ τ' ≤ τ, ∀ c ∈ {z | Conn (below τ g) a z}, ∀ e ∈ {z | Conn (below τ g) a z}, HeavyPart n wt θ (below τ' g) c → HeavyPart n wt θ (below τ' g) e →
      Conn (below τ' g) c e)
    (hex : ∃ e ∈ g, τ ≤ e.w ∧ ∃ y, Conn (upTo e.w g) a y ∧ ¬ Conn (below e.w g) a y ∧ HeavyPart n wt θ (below e.w g) y) :
    ∃ T, LeafGroup n wt θ g T ∧ {z | Conn (below τ g) a z} ⊆ T := by
  classical
  obtain ⟨e0, he0, hex⟩ := hex
  obtain ⟨e, he, hmin⟩ := Finset.exists_min_image
    (g.toFinset.filter fun e => τ ≤ e.w ∧ ∃ y, Conn (upTo e.w g) a y ∧ ¬ Conn (below e.w g) a y ∧ HeavyPart n wt θ (below e.w g) y) Edge.w
    ⟨e0, Finset.mem_filter.2 ⟨List.mem_toFinset.2 he0, hex⟩⟩
  obtain ⟨-, hτ, y, y1, y2, y3⟩ := Finset.mem_filter.1 he
  -- whatever is heavy and joined with `a` below `e.w` is joined with it below any length from `τ` on at which it is heavy
  have key : ∀ τ', τ ≤ τ' → ∀ c, Conn (below e.w g) a c → HeavyPart n wt θ (below τ' g) c → Conn (below τ' g) a c := by
    intro τ' hle c hc hhc
    by_contra hno
    obtain ⟨e', he', e1, e2, e3, e4⟩ := join_between hc hno
    exact absurd (hmin e' (Finset.mem_filter.2 ⟨List.mem_toFinset.2 he', hle.trans e1, c, e3, e4, heavy_below h0 e1 hhc⟩)) (not_le.2 e2)
  refine ⟨_, ⟨e.w, a, y, ha, y1, y2, heavy_below h0 hτ hh, y3, rfl, fun τ' _ c hc b hb h1 h2 => ?_⟩, fun z hz => below_mono hτ hz⟩
  rcases le_total τ τ' with hle | hle
  · exact (key τ' hle c hc h1).symm.trans (key τ' hle b hb h2)
  · exact hin τ' hle c (key τ le_rfl c hc (heavy_below h0 hle h1)) b (key τ le_rfl b hb (heavy_below h0 hle h2)) h1 h2

end

section
variable {n n' : ℕ} {d d' : ℕ → ℕ → W} {wt wt' : ℕ → K} {σ : ℕ → ℕ} (h : Kept n n' d d' wt wt' σ)
include h

/-- What is joined in the second data set is joined in the first. -/
theorem Kept.down (p : W → Bool) {a b : ℕ} (hc : Conn ((completeGraph n' d').filter fun e => p e.w) a b) :
    Conn ((completeGraph n d).filter fun e => p e.w) (σ a) (σ b) := by
  induction hc with
  | refl => exact Conn.refl _ _
  | tail _ hs ih =>
    refine ih.trans ?_
    obtain ⟨e, he, hends⟩ := hs
    obtain ⟨hm, hpe⟩ := List.mem_filter.1 he
    obtain ⟨e1, e2, e3, e4⟩ := mem_completeGraph.1 hm
    have key : Conn ((completeGraph n d).filter fun e => p e.w) (σ e.u) (σ e.v) :=
      Conn.edge (e := ⟨σ e.u, σ e.v, e.w⟩) (List.mem_filter.2 ⟨mem_completeGraph.2 ⟨h.range _ e1, h.range _ e2, fun he => e3 (h.inj _ _ e1 e2 he), e4.trans (h.dist _ _ e1 e2)⟩, hpe⟩)
    rcases hends with ⟨rfl, rfl⟩ | ⟨rfl, rfl⟩
    · exact key
    · exact key.symm

/-- Inside a closed set of rows that are kept, what is joined in the first data set is joined in the second. -/
theorem Kept.up (p : W → Bool) {S : Set ℕ} (hS : ∀ z ∈ S, ∃ a < n', σ a = z) (hcl : ∀ x ∈ S, ∀ z, Conn ((completeGraph n d).filter fun e => p e.w) x z → z ∈ S)
    {a z : ℕ} (ha : a < n') (haS : σ a ∈ S) (hc : Conn ((completeGraph n d).filter fun e => p e.w) (σ a) z) :
    ∃ b < n', σ b = z ∧ Conn ((completeGraph n' d').filter fun e => p e.w) a b := by
  induction hc with
  | refl => exact ⟨a, ha, rfl, Conn.refl _ _⟩
  | @tail y z hy hs ih =>
    obtain ⟨b, hb, rfl, hab⟩ := ih
    obtain ⟨c, hc, rfl⟩ := hS z (hcl _ haS z (hy.tail hs))
    refine ⟨c, hc, rfl, hab.trans ?_⟩
    obtain ⟨e, he, hends⟩ := hs
    obtain ⟨hm, hpe⟩ := List.mem_filter.1 he
    obtain ⟨e1, e2, e3, e4⟩ := mem_completeGraph.1 hm
    rcases hends with ⟨q1, q2⟩ | ⟨q1, q2⟩
    · exact Conn.edge (e := ⟨b, c, e.w⟩) (List.mem_filter.2 ⟨mem_completeGraph.2 ⟨hb, hc, fun hbc => e3 (q1.trans ((congrArg σ hbc).trans q2.symm)), by
        rw [h.dist _ _ hb hc, ← q1, ← q2]; exact e4⟩, hpe⟩)
    · exact (Conn.edge (e := ⟨c, b, e.w⟩) (List.mem_filter.2 ⟨mem_completeGraph.2 ⟨hc, hb, fun hbc => e3 (q1.trans ((congrArg σ hbc).trans q2.symm)), by
        rw [h.dist _ _ hc hb, ← q1, ← q2]; exact e4⟩, hpe⟩)).symm

theorem Kept.conn_iff (p : W → Bool) {S : Set ℕ} (hS : ∀ z ∈ S, ∃ a < n', σ a = z) (hcl : ∀ x ∈ S, ∀ z, Conn ((completeGraph n d).filter fun e => p e.w) x z → z ∈ S)
    {a b : ℕ} (ha : a < n') (hb : b < n') (haS : σ a ∈ S) :
    Conn ((completeGraph n' d').filter fun e => p e.w) a b ↔ Conn ((completeGraph n d).filter fun e => p e.w) (σ a) (σ b) := by
  refine ⟨h.down p, fun hc => ?_⟩
  obtain ⟨c, hc, he, hac⟩ := h.up p hS hcl ha haS hc
  rwa [h.inj c b hc hb he] at hac

theorem Kept.heavy [AddCommMonoid K] [LE K] (p : W → Bool) {S : Set ℕ} (hS : ∀ z ∈ S, ∃ a < n', σ a = z)
    (hcl : ∀ x ∈ S, ∀ z, Conn ((completeGraph n d).filter fun e => p e.w) x z → z ∈ S) {θ : K} {a : ℕ} (ha : a < n') (haS : σ a ∈ S) :
    HeavyPart n' wt' θ ((completeGraph n' d').filter fun e => p e.w) a ↔ HeavyPart n wt θ ((completeGraph n d).filter fun e => p e.w) (σ a) := by
  classical
  unfold HeavyPart
  refine iff_of_eq (congrArg (θ ≤ ·) (Finset.sum_nbij σ (fun z hz => ?_) (fun z hz z' hz' he => ?_) (fun z' hz' => ?_) fun z hz => ?_))
  · obtain ⟨hzn, hz⟩ := Finset.mem_filter.1 hz
    exact Finset.mem_filter.2 ⟨Finset.mem_range.2 (h.range z (Finset.mem_range.1 hzn)), h.down p hz⟩
  · exact h.inj z z' (Finset.mem_range.1 (Finset.mem_filter.1 hz).1) (Finset.mem_range.1 (Finset.mem_filter.1 hz').1) he
  · obtain ⟨-, hz'⟩ := Finset.mem_filter.1 hz'
    obtain ⟨b, hb, rfl, hab⟩ := h.up p hS hcl ha haS hz'
    exact ⟨b, Finset.mem_coe.2 (Finset.mem_filter.2 ⟨Finset.mem_range.2 hb, hab⟩), rfl⟩
  · exact h.weight z (Finset.mem_range.1 (Finset.mem_filter.1 hz).1)

end

section
variable [Field K] [LinearOrder K] [IsStrictOrderedRing K] {n n' : ℕ} {d d' : ℕ → ℕ → W} {wt wt' : ℕ → K} {σ : ℕ → ℕ} (h : Kept n n' d d' wt wt' σ)
  (h0 : ∀ x, x < n → 0 ≤ wt x) {θ : K}
include h

omit [IsStrictOrderedRing K] in
/-- Below the length of a leaf group, its rows are joined in the second data set as in the first. -/
theorem Kept.leaf_conn {τ : W} {x : ℕ} (hS : ∀ z ∈ {z | Conn (below τ (completeGraph n d)) x z}, ∃ a < n', σ a = z) {τ' : W} (hτ : τ' ≤ τ) {a b : ℕ} (ha : a < n')
    (hb : b < n') (hax : Conn (below τ (completeGraph n d)) x (σ a)) :
    (Conn (below τ' (completeGraph n' d')) a b ↔ Conn (below τ' (completeGraph n d)) (σ a) (σ b)) ∧
      (HeavyPart n' wt' θ (below τ' (completeGraph n' d')) a ↔ HeavyPart n wt θ (below τ' (completeGraph n d)) (σ a)) := by
  have hcl : ∀ y ∈ {z | Conn (below τ (completeGraph n d)) x z}, ∀ z, Conn ((completeGraph n d).filter fun e => (fun w => decide (w < τ')) e.w) y z →
      z ∈ {z | Conn (below τ (completeGraph n d)) x z} := fun y hy z hz => Conn.trans hy (below_mono hτ hz)
  exact ⟨h.conn_iff (fun w => decide (w < τ')) hS hcl ha hb hax, h.heavy (fun w => decide (w < τ')) hS hcl ha hax⟩

include h0

/-- A leaf group all of whose rows are kept lies in a leaf group of the second data set, if all leaf groups are kept. -/
theorem Kept.leaf {S : Set ℕ} (hS : LeafGroup n wt θ (completeGraph n d) S) (hall : ∀ S, LeafGroup n wt θ (completeGraph n d) S → ∀ z ∈ S, ∃ a < n', σ a = z) :
    ∃ T, LeafGroup n' wt' θ (completeGraph n' d') T ∧ ∀ a, a < n' → σ a ∈ S → a ∈ T := by
  have hkeep := hall S hS
  have hrg : InRange n (completeGraph n d) := fun e he => by obtain ⟨e1, e2, -⟩ := mem_completeGraph.1 he; exact ⟨e1, e2⟩
  obtain ⟨τ, x, y, hx, hc, hnc, b1, b2, rfl, hin⟩ := hS
  obtain ⟨a, ha, hax⟩ := hkeep x (Conn.refl _ _)
  have hy : y < n := stays_inRange (fun e he => hrg e (mem_upTo.1 he).1) hc hx
  obtain ⟨S2, hS2, hsub⟩ := leaf_inside h0 hrg _ τ x y le_rfl hy hc.symm (fun hc => hnc hc.symm) b1 b2
  have hkeep2 := hall S2 hS2
  obtain ⟨τ2, x2, -, hx2, -, -, c1, -, rfl, -⟩ := hS2
  obtain ⟨b, hb, hbx⟩ := hkeep2 x2 (Conn.refl _ _)
  subst hax hbx
  have hyb : Conn (below τ (completeGraph n d)) y (σ b) := hsub (Conn.refl _ _)
  have hab : ¬ Conn (below τ (completeGraph n d)) (σ a) (σ b) := fun hc => hnc (hc.trans hyb.symm)
  have h0' : ∀ x, x < n' → 0 ≤ wt' x := fun x hx => by rw [h.weight x hx]; exact h0 _ (h.range x hx)
  have hne : a ≠ b := fun e => hab (e ▸ Conn.refl _ _)
  have hLa : ∀ {τ' : W}, τ' ≤ τ → ∀ {c e : ℕ}, c < n' → e < n' → Conn (below τ (completeGraph n d)) (σ a) (σ c) →
      (Conn (below τ' (completeGraph n' d')) c e ↔ Conn (below τ' (completeGraph n d)) (σ c) (σ e)) ∧
        (HeavyPart n' wt' θ (below τ' (completeGraph n' d')) c ↔ HeavyPart n wt θ (below τ' (completeGraph n d)) (σ c)) := by
    intro τ' hτ c e hc he hac
    exact h.leaf_conn (θ := θ) hkeep hτ hc he hac
  obtain ⟨T, hT, hT'⟩ := leaf_around h0' (g := completeGraph n' d') (θ := θ) (τ := τ) ha ((hLa le_rfl ha ha (Conn.refl _ _)).2.2 b1) (by
    intro τ' hτ c hc e he h1 h2
    have hrg' : InRange n' (below τ (completeGraph n' d')) := filter_inRange fun w => decide (w < τ)
    have hcn := stays_inRange hrg' hc ha
    have hen := stays_inRange hrg' he ha
    have hc' := (hLa le_rfl ha hcn (Conn.refl _ _)).1.1 hc
    have he' := (hLa le_rfl ha hen (Conn.refl _ _)).1.1 he
    exact (hLa hτ hcn hen hc').1.2 (hin τ' hτ _ hc' _ he' ((hLa hτ hcn hcn hc').2.1 h1) ((hLa hτ hen hen he').2.1 h2))) (by
    obtain ⟨e, he, e1, e2⟩ := join_level (g := completeGraph n' d') (a := a) (b := b)
      (Conn.edge (e := ⟨a, b, d' a b⟩) (mem_completeGraph.2 ⟨ha, hb, hne, rfl⟩)) hne
    have hdown : ∀ {τ'}, Conn (below τ' (completeGraph n' d')) a b → Conn (below τ' (completeGraph n d)) (σ a) (σ b) := fun {τ'} hc =>
      h.down (fun w => decide (w < τ')) hc
    have t1 : τ ≤ e.w := not_lt.1 fun hlt => hab (hdown (upTo_le_below hlt e1))
    have t2 : τ2 ≤ e.w := not_lt.1 fun hlt => hnc (hsub (hdown (upTo_le_below hlt e1)).symm).symm
    exact ⟨e, he, t1, b, e1, e2, heavy_below h0' t2 ((h.leaf_conn (θ := θ) hkeep2 le_rfl hb hb (Conn.refl _ _)).2.2 c1)⟩)
  exact ⟨T, hT, fun c hc hcS => hT' ((hLa le_rfl ha hc (Conn.refl _ _)).1.2 hcS)⟩

/-- Two leaf groups are not united. -/
theorem Kept.leaf_apart {S1 S2 T : Set ℕ} (hS1 : LeafGroup n wt θ (completeGraph n d) S1) (hS2 : LeafGroup n wt θ (completeGraph n d) S2)
    (k1 : ∀ z ∈ S1, ∃ a < n', σ a = z) (k2 : ∀ z ∈ S2, ∃ a < n', σ a = z) (hdis : ∀ z ∈ S1, z ∉ S2) (hT : LeafGroup n' wt' θ (completeGraph n' d') T)
    {a b : ℕ} (ha : a < n') (hb : b < n') (haS : σ a ∈ S1) (hbS : σ b ∈ S2) (haT : a ∈ T) (hbT : b ∈ T) : False := by
  obtain ⟨τ1, x1, -, -, -, -, p1, -, rfl, -⟩ := hS1
  obtain ⟨τ2, x2, -, -, -, -, p2, -, rfl, -⟩ := hS2
  obtain ⟨τ, x, -, hx, -, -, -, -, rfl, hin⟩ := hT
  have h0' : ∀ x, x < n' → 0 ≤ wt' x := fun x hx => by rw [h.weight x hx]; exact h0 _ (h.range x hx)
  have hab : Conn (below τ (completeGraph n' d')) a b := (Conn.symm haT).trans hbT
  have hdown : ∀ {τ' u v}, Conn (below τ' (completeGraph n' d')) u v → Conn (below τ' (completeGraph n d)) (σ u) (σ v) := fun {τ' u v} hc =>
    h.down (fun w => decide (w < τ')) hc
  have hh : ∀ {x : ℕ} {τ1 : W} {a : ℕ}, HeavyPart n wt θ (below τ1 (completeGraph n d)) x → Conn (below τ1 (completeGraph n d)) x (σ a) →
      (∀ z ∈ {z | Conn (below τ1 (completeGraph n d)) x z}, ∃ a < n', σ a = z) → a < n' → HeavyPart n' wt' θ (below τ1 (completeGraph n' d')) a := by
    intro x τ1 a hp hxa hk ha
    exact (h.leaf_conn (θ := θ) hk le_rfl ha ha hxa).2.2 (heavy_mono h0 (fun e he => he) hxa hp)
  have q1 := hh p1 haS k1 ha
  have q2 := hh p2 hbS k2 hb
  rcases le_total τ1 τ2 with hle | hle
  · rcases le_or_gt τ2 τ with ht | ht
    · exact hdis _ haS (Conn.trans hbS (hdown (hin τ2 ht b hbT a haT q2 (heavy_below h0' hle q1))))
    · exact hdis _ haS (Conn.trans hbS (below_mono ht.le (hdown hab.symm)))
  · rcases le_or_gt τ1 τ with ht | ht
    · exact hdis _ (Conn.trans haS (hdown (hin τ1 ht a haT b hbT q1 (heavy_below h0' hle q2)))) hbS
    · exact hdis _ (Conn.trans haS (below_mono ht.le (hdown hab))) hbS

end

/-- **C119** (partial): leave out rows that are noise.  Rows of one cluster stay in one cluster, and rows of two clusters stay in two, for the leaf method and given
mutual reachability distances.  Missing: epsilon, persistence, infinite edges, ties between heavy parts, core distances that change with the rows. -/
theorem C119_noise_removed_partial [Field K] [LinearOrder K] [IsStrictOrderedRing K] [OrderTop W] [Inhabited W] [Inhabited K] {n n' : ℕ} (hn : 2 ≤ n) (hn' : 2 ≤ n')
    {d d' : ℕ → ℕ → W} {wt wt' : ℕ → K} {t t' : List (Edge W)} (hf : MinSpanningForest (completeGraph n d) t) (hf' : MinSpanningForest (completeGraph n' d') t')
    (ht : SpanningTree n t) (ht' : SpanningTree n' t')
    (o : ClusterOpts K) (h1 : 1 < o.minClusterSize) (h0 : ∀ x, x < n → 0 ≤ wt x) (hl : ∀ x, x < n → wt x < o.minClusterSize)
    (lam : W → K) (hlam : Antitone lam) (hpos : ∀ d, 0 ≤ lam d) (hfin : ∀ e ∈ t, lam e.w ≠ 0) (hfin' : ∀ e ∈ t', lam e.w ≠ 0)
    (hd : UntiedJoins n wt o.minClusterSize (lexsortMst t)) (hd' : UntiedJoins n' wt' o.minClusterSize (lexsortMst t'))
    (hleaf : o.method = .leaf) (hper : o.persistence ≤ 0) (heps : o.epsilon ≤ 0)
    {r r' : ClusterResult W K} (hr : clustersFromMst lam wt o t = some r) (hr' : clustersFromMst lam wt' o t' = some r')
    {σ : ℕ → ℕ} (h : Kept n n' d d' wt wt' σ) (hnoise : ∀ x, x < n → (∀ a, a < n' → σ a ≠ x) → r.labels[x]? = some (-1))
    (a b : ℕ) (ha : a < n') (hb : b < n') (l m : ℤ) (hl0 : 0 ≤ l) (hm0 : 0 ≤ m) (hla : r.labels[σ a]? = some l) (hmb : r.labels[σ b]? = some m) :
    l = m ↔ ∃ l', 0 ≤ l' ∧ r'.labels[a]? = some l' ∧ r'.labels[b]? = some l' := by
  have hC := C115_leaf_groups_partial n hn wt _ t hf ht o h1 h0 hl lam hlam hpos hfin hd hleaf hper heps r hr
  have h0' : ∀ x, x < n' → 0 ≤ wt' x := fun x hx => by rw [h.weight x hx]; exact h0 _ (h.range x hx)
  have hl' : ∀ x, x < n' → wt' x < o.minClusterSize := fun x hx => by rw [h.weight x hx]; exact hl _ (h.range x hx)
  have hC' := C115_leaf_groups_partial n' hn' wt' _ t' hf' ht' o h1 h0' hl' lam hlam hpos hfin' hd' hleaf hper heps r' hr'
  have hall : ∀ S, LeafGroup n wt o.minClusterSize (completeGraph n d) S → ∀ z ∈ S, ∃ a < n', σ a = z := by
    intro S hS z hz
    have hzn : z < n := by
      obtain ⟨τ, x, y, hx, -, -, -, -, rfl, -⟩ := hS
      exact stays_inRange (filter_inRange fun w => decide (w < τ)) hz hx
    obtain ⟨k, -, hk, rfl⟩ := (hC S).2 hS
    by_contra hno
    push Not at hno
    have := Option.some.inj ((hnoise z hzn hno).symm.trans hz)
    omega
  have g1 := (hC _).1 ⟨l, List.mem_of_getElem? hla, hl0, rfl⟩
  have g2 := (hC _).1 ⟨m, List.mem_of_getElem? hmb, hm0, rfl⟩
  constructor
  · rintro rfl
    obtain ⟨T, hT, hsub⟩ := h.leaf h0 g1 hall
    obtain ⟨l', -, hl', rfl⟩ := (hC' T).2 hT
    exact ⟨l', hl', hsub a ha hla, hsub b hb hmb⟩
  · rintro ⟨l', hl', ha', hb'⟩
    by_contra hne
    have hT := (hC' _).1 ⟨l', List.mem_of_getElem? ha', hl', rfl⟩
    exact h.leaf_apart h0 g1 g2 (hall _ g1) (hall _ g2) (fun z hz hz' => hne (Option.some.inj (hz.symm.trans hz'))) hT ha hb hla hmb ha' hb'

/-- **C119** (partial): the same for the distances themselves, with the spanning trees of `_kruskal_mst_brute` and `min_samples` at most 1 (then no core distance is used).
Missing: as for `C119_noise_removed_partial`. -/
theorem C119_noise_removed_data_partial [Field K] [LinearOrder K] [IsStrictOrderedRing K] [OrderTop W] [Zero W] [Inhabited W] [Inhabited K] {n n' : ℕ} (hn : 2 ≤ n)
    (hn' : 2 ≤ n') {D D' : ℕ → ℕ → W} (hD : ∀ i j, D i j = D j i) (hD' : ∀ i j, D' i j = D' j i) {ms : ℕ} (hms : ms ≤ 1) {wt wt' : ℕ → K}
    (o : ClusterOpts K) (h1 : 1 < o.minClusterSize) (h0 : ∀ x, x < n → 0 ≤ wt x) (hl : ∀ x, x < n → wt x < o.minClusterSize)
    (lam : W → K) (hlam : Antitone lam) (hpos : ∀ d, 0 ≤ lam d) (hfin : ∀ e ∈ kruskalBrute n ms D CLParams.none, lam e.w ≠ 0)
    (hfin' : ∀ e ∈ kruskalBrute n' ms D' CLParams.none, lam e.w ≠ 0)
    (hd : ((kruskalBrute n ms D CLParams.none).map Edge.w).Nodup) (hd' : ((kruskalBrute n' ms D' CLParams.none).map Edge.w).Nodup)
    (hleaf : o.method = .leaf) (hper : o.persistence ≤ 0) (heps : o.epsilon ≤ 0)
    {r r' : ClusterResult W K} (hr : clustersFromMst lam wt o (kruskalBrute n ms D CLParams.none) = some r)
    (hr' : clustersFromMst lam wt' o (kruskalBrute n' ms D' CLParams.none) = some r')
    {σ : ℕ → ℕ} (h : Kept n n' D D' wt wt' σ) (hnoise : ∀ x, x < n → (∀ a, a < n' → σ a ≠ x) → r.labels[x]? = some (-1))
    (a b : ℕ) (ha : a < n') (hb : b < n') (l m : ℤ) (hl0 : 0 ≤ l) (hm0 : 0 ≤ m) (hla : r.labels[σ a]? = some l) (hmb : r.labels[σ b]? = some m) :
    l = m ↔ ∃ l', 0 ≤ l' ∧ r'.labels[a]? = some l' ∧ r'.labels[b]? = some l' := by
  obtain ⟨s1, s2⟩ := kruskalBrute_msf (ms := ms) (show 0 < n by omega) hD
  obtain ⟨s1', s2'⟩ := kruskalBrute_msf (ms := ms) (show 0 < n' by omega) hD'
  have hcore : ∀ (n : ℕ) (D : ℕ → ℕ → W) i, bruteCore n ms D i = 0 := fun n D i => by unfold bruteCore; rw [if_pos hms]
  have hK : Kept n n' (fun i j => max (max (D i j) (bruteCore n ms D i)) (bruteCore n ms D j)) (fun i j => max (max (D' i j) (bruteCore n' ms D' i)) (bruteCore n' ms D' j))
      wt wt' σ := ⟨h.range, h.inj, fun a b ha hb => by simp only [hcore]; rw [h.dist a b ha hb], h.weight⟩
  exact C119_noise_removed_partial hn hn' s2 s2' s1 s1' o h1 h0 hl lam hlam hpos hfin hfin' (untied_of_nodup hd) (untied_of_nodup hd') hleaf hper heps hr hr' hK hnoise
    a b ha hb l m hl0 hm0 hla hmb

/-- Three pairs of rows, a row far to the left of them, and a row between the first pair and the others. -/
def exBridge : List ℚ := [0, 15, 16, 26, 35, 38, 43, 45]

/-- The same without the row between. -/
def exNoBridge : List ℚ := [0, 15, 16, 35, 38, 43, 45]

/-- Row `a` of the second data set in the first. -/
def exOver (a : ℕ) : ℕ := if a < 3 then a else a + 1

theorem exKept : Kept 8 7 (onLine exBridge) (onLine exNoBridge) (fun _ => (1 : ℚ)) (fun _ => (1 : ℚ)) exOver := by
  refine ⟨fun a ha => ?_, fun a b _ _ => ?_, ?_, fun _ _ => rfl⟩
  · unfold exOver; split <;> omega
  · unfold exOver; split <;> split <;> omega
  · have key : ∀ a < 7, ∀ b < 7, onLine exNoBridge a b = onLine exBridge (exOver a) (exOver b) := by decide +kernel
    exact fun a b ha hb => key a ha b hb

theorem exBridge_finite : ∀ e ∈ kruskalBrute 8 1 (onLine exBridge) CLParams.none, lamq e.w ≠ 0 := by decide +kernel

theorem exNoBridge_finite : ∀ e ∈ kruskalBrute 7 1 (onLine exNoBridge) CLParams.none, lamq e.w ≠ 0 := by decide +kernel

theorem exBridge_distinct : ((kruskalBrute 8 1 (onLine exBridge) CLParams.none).map Edge.w).Nodup := by decide +kernel

theorem exNoBridge_distinct : ((kruskalBrute 7 1 (onLine exNoBridge) CLParams.none).map Edge.w).Nodup := by decide +kernel

theorem exOver_missing {x : ℕ} (hx : x < 8) (hno : ∀ a, a < 7 → exOver a ≠ x) : x = 3 := by
  by_contra hne
  rcases Nat.lt_or_ge x 3 with h | h
  · exact hno x (by omega) (by unfold exOver; rw [if_pos h])
  · exact hno (x - 1) (by omega) (by unfold exOver; rw [if_neg (by omega)]; omega)

/-- The three pairs stay three clusters; the row on the left is noise first and belongs to the first pair when the row between is left out. -/
example : ∃ r r', clustersFromMst lamq (fun _ => 1) ⟨2, .leaf, none, false, 0, 0⟩ (kruskalBrute 8 1 (onLine exBridge) CLParams.none) = some r ∧
    clustersFromMst lamq (fun _ => 1) ⟨2, .leaf, none, false, 0, 0⟩ (kruskalBrute 7 1 (onLine exNoBridge) CLParams.none) = some r' ∧
    r.labels = [-1, 0, 0, -1, 1, 1, 2, 2] ∧ r'.labels = [0, 0, 0, 1, 1, 2, 2] ∧
    ∀ a b, a < 7 → b < 7 → ∀ l m : ℤ, 0 ≤ l → 0 ≤ m → r.labels[exOver a]? = some l → r.labels[exOver b]? = some m →
      (l = m ↔ ∃ l', 0 ≤ l' ∧ r'.labels[a]? = some l' ∧ r'.labels[b]? = some l') := by
  have e1 : (clustersFromMst lamq (fun _ => 1) ⟨2, .leaf, none, false, 0, 0⟩ (kruskalBrute 8 1 (onLine exBridge) CLParams.none)).map ClusterResult.labels =
    some [-1, 0, 0, -1, 1, 1, 2, 2] := by decide +kernel
  have e2 : (clustersFromMst lamq (fun _ => 1) ⟨2, .leaf, none, false, 0, 0⟩ (kruskalBrute 7 1 (onLine exNoBridge) CLParams.none)).map ClusterResult.labels =
    some [0, 0, 0, 1, 1, 2, 2] := by decide +kernel
  obtain ⟨r, hr, e1⟩ := Option.map_eq_some_iff.1 e1
  obtain ⟨r', hr', e2⟩ := Option.map_eq_some_iff.1 e2
  have f5 : (1 : ℚ) < 2 := by norm_num
  refine ⟨r, r', hr, hr', e1, e2, fun a b ha hb l m h0 h1 h2 h3 => C119_noise_removed_data_partial (by decide) (by decide) (onLine_comm _)
    (onLine_comm _) le_rfl ⟨2, .leaf, none, false, 0, 0⟩ f5 (fun _ _ => zero_le_one) (fun _ _ => f5) lamq lamq_antitone lamq_nonneg exBridge_finite exNoBridge_finite exBridge_distinct exNoBridge_distinct
    rfl le_rfl le_rfl hr hr' exKept (fun x hx hno => ?_) a b ha hb l m h0 h1 h2 h3⟩
  rw [exOver_missing hx hno, e1]
  rfl

/-- Two pairs, a single row, and two more pairs. -/
def exEomBridge : List ℚ := [0, 10, 26, 36, 66, 94, 95, 115, 116]

/-- The same without the single row. -/
def exEomNoBridge : List ℚ := [0, 10, 26, 36, 94, 95, 115, 116]

/-- The excess of mass method does not have this property: the first two pairs are two clusters, the single row is noise, and without it the two pairs are one cluster. -/
theorem C119_eom :
    (clustersFromMst lamq (fun _ => 1) ⟨2, .eom, none, false, 0, 0⟩ (kruskalBrute 9 1 (onLine exEomBridge) CLParams.none)).map ClusterResult.labels =
        some [1, 1, 0, 0, -1, 3, 3, 2, 2] ∧
      (clustersFromMst lamq (fun _ => 1) ⟨2, .eom, none, false, 0, 0⟩ (kruskalBrute 8 1 (onLine exEomNoBridge) CLParams.none)).map ClusterResult.labels =
        some [0, 0, 0, 0, 2, 2, 1, 1] := by decide +kernel

end Verif
