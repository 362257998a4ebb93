import Verif.Spec.Errors
import Verif.Props.Kept

/-!
# C120: small errors in the distances
-/

namespace Verif
variable {W K : Type*} [LinearOrder W]

/-- Two graphs have the same sequence of partitions. -/
structure SameParts (g g' : List (Edge W)) : Prop where
  forth : ∀ τ, ∃ τ', ∀ a b, Conn (below τ g) a b ↔ Conn (below τ' g') a b
  back : ∀ τ', ∃ τ, ∀ a b, Conn (below τ g) a b ↔ Conn (below τ' g') a b

section
variable [OrderTop W] [Field K] [LinearOrder K] [IsStrictOrderedRing K] {n : ℕ} {wt : ℕ → K} {θ : K}

omit [IsStrictOrderedRing K] in
/-- Leaf groups described by the sequence of partitions. -/
theorem leafGroup_iff {g : List (Edge W)} (hfin : ∀ e ∈ g, e.w < ⊤) {S : Set ℕ} : LeafGroup n wt θ g S ↔
    ∃ τ x y, x < n ∧ (∃ ρ, Conn (below ρ g) x y) ∧ ¬ Conn (below τ g) x y ∧ HeavyPart n wt θ (below τ g) x ∧ HeavyPart n wt θ (below τ g) y ∧
      S = {z | Conn (below τ g) x z} ∧ (∀ ρ, (∃ a b, Conn (below ρ g) a b ∧ ¬ Conn (below τ g) a b) → Conn (below ρ g) x y) ∧
      ∀ ρ, (∀ a b, Conn (below ρ g) a b → Conn (below τ g) a b) → ∀ a ∈ S, ∀ b ∈ S, HeavyPart n wt θ (below ρ g) a → HeavyPart n wt θ (below ρ g) b → Conn (below ρ g) a b := by
  constructor
  · rintro ⟨τ, x, y, hx, hc, hnc, b1, b2, hS, hin⟩
    refine ⟨τ, x, y, hx, ⟨⊤, hc.mono fun e he => mem_below.2 ⟨(mem_upTo.1 he).1, hfin e (mem_upTo.1 he).1⟩⟩, hnc, b1, b2, hS, ?_, ?_⟩
    · rintro ρ ⟨a, b, h1, h2⟩
      exact upTo_le_below (not_le.1 fun hle => h2 (below_mono hle h1)) hc
    · intro ρ hρ
      rcases le_or_gt ρ τ with hle | hlt
      · exact hin ρ hle
      · exact absurd (hρ x y (upTo_le_below hlt hc)) hnc
  · rintro ⟨τ, x, y, hx, ⟨ρ0, hc⟩, hnc, b1, b2, hS, hnext, hin⟩
    obtain ⟨e, -, -, -, e3, e4⟩ := join_between hc hnc
    have hle : τ ≤ e.w := not_lt.1 fun hlt => hnc (upTo_le_below hlt e3)
    have heq : ∀ a b, Conn (below e.w g) a b ↔ Conn (below τ g) a b := fun a b =>
      ⟨fun h => by_contra fun hno => e4 (hnext e.w ⟨a, b, h, hno⟩), below_mono hle⟩
    refine ⟨e.w, x, y, hx, e3, e4, (heavy_congr (heq x)).2 b1, (heavy_congr (heq y)).2 b2, ?_, fun τ' hτ' => hin τ' fun a b h => (heq a b).1 (below_mono hτ' h)⟩
    rw [hS]
    exact Set.ext fun z => (heq x z).symm

omit [IsStrictOrderedRing K] in
theorem SameParts.leafGroup {g g' : List (Edge W)} (h : SameParts g g') (hfin : ∀ e ∈ g, e.w < ⊤) (hfin' : ∀ e ∈ g', e.w < ⊤) {S : Set ℕ}
    (hS : LeafGroup n wt θ g S) : LeafGroup n wt θ g' S := by
  obtain ⟨τ, x, y, hx, ⟨ρ, hc⟩, hnc, b1, b2, hS, hnext, hin⟩ := (leafGroup_iff hfin).1 hS
  obtain ⟨τ', hτ⟩ := h.forth τ
  obtain ⟨ρ', hρ⟩ := h.forth ρ
  refine (leafGroup_iff hfin').2 ⟨τ', x, y, hx, ⟨ρ', (hρ x y).1 hc⟩, fun h => hnc ((hτ x y).2 h), (heavy_congr (hτ x)).1 b1, (heavy_congr (hτ y)).1 b2,
    hS.trans (Set.ext fun z => hτ x z), ?_, ?_⟩
  · rintro σ' ⟨a, b, h1, h2⟩
    obtain ⟨σ, hσ⟩ := h.back σ'
    exact (hσ x y).1 (hnext σ ⟨a, b, (hσ a b).2 h1, fun h => h2 ((hτ a b).1 h)⟩)
  · intro σ' hσ' a ha b hb h1 h2
    obtain ⟨σ, hσ⟩ := h.back σ'
    exact (hσ a b).1 (hin σ (fun a b hab => (hτ a b).2 (hσ' a b ((hσ a b).1 hab))) a ha b hb ((heavy_congr (hσ a)).2 h1) ((heavy_congr (hσ b)).2 h2))

theorem SameParts.symm {g g' : List (Edge W)} (h : SameParts g g') : SameParts g' g :=
  ⟨fun τ => by obtain ⟨τ', h⟩ := h.back τ; exact ⟨τ', fun a b => (h a b).symm⟩, fun τ => by obtain ⟨τ', h⟩ := h.forth τ; exact ⟨τ', fun a b => (h a b).symm⟩⟩

end

section
variable [OrderTop W] {n : ℕ} {d d' : ℕ → ℕ → W} {t : List (Edge W)} (hf : MinSpanningForest (completeGraph n d) t) (ht : SpanningTree n t)
  (hd : (t.map Edge.w).Nodup) (hfin : ∀ e ∈ completeGraph n d, e.w < ⊤) (hfin' : ∀ e ∈ completeGraph n d', e.w < ⊤) (lo : W → W)
  (h1 : ∀ e ∈ t, ∀ f ∈ t, f.w < e.w → d' f.u f.v < lo e.w) (h2 : ∀ e ∈ t, ∀ a b, a < n → b < n → d' a b < lo e.w → d a b < e.w)

omit [OrderTop W] in
include hf h1 h2 in
theorem parts_at {e : Edge W} (he : e ∈ t) (a b : ℕ) : Conn (below e.w t) a b ↔ Conn (below (lo e.w) (completeGraph n d')) a b := by
  constructor
  · refine Conn.of_forall fun f hf' => ?_
    obtain ⟨hft, hlt⟩ := mem_below.1 hf'
    obtain ⟨m1, m2, m3, -⟩ := mem_completeGraph.1 (hf.forest.sub.subset hft)
    exact Conn.edge (e := ⟨f.u, f.v, d' f.u f.v⟩) (mem_below.2 ⟨mem_completeGraph.2 ⟨m1, m2, m3, rfl⟩, h1 e he f hft hlt⟩)
  · rw [hf.conn_below]
    refine Conn.of_forall fun f hf' => ?_
    obtain ⟨hft, hlt⟩ := mem_below.1 hf'
    obtain ⟨m1, m2, m3, m4⟩ := mem_completeGraph.1 hft
    exact Conn.edge (e := ⟨f.u, f.v, d f.u f.v⟩) (mem_below.2 ⟨mem_completeGraph.2 ⟨m1, m2, m3, rfl⟩, h2 e he f.u f.v m1 m2 (m4 ▸ hlt)⟩)

omit [OrderTop W] in
include hd in
/-- With an edge of the tree, only its two sides are joined. -/
theorem upTo_cons {m : Edge W} (hm : m ∈ t) {a b : ℕ} (hc : Conn (upTo m.w t) a b) : Conn (m :: below m.w t) a b := by
  refine hc.mono fun e he => ?_
  obtain ⟨het, hle⟩ := mem_upTo.1 he
  rcases hle.lt_or_eq with hlt | heq
  · exact List.mem_cons_of_mem _ (mem_below.2 ⟨het, hlt⟩)
  · rw [List.inj_on_of_nodup_map hd het hm heq]
    exact List.mem_cons_self

omit [OrderTop W] in
include hf ht h1 h2 in
/-- A partition of the second graph in which an edge of the tree is cut is not coarser than the next partition of the first. -/
theorem parts_next {m : Edge W} (hm : m ∈ t) {τ' : W} (hno : ¬ Conn (below τ' (completeGraph n d')) m.u m.v) {a b : ℕ} (hc : Conn (upTo τ' (completeGraph n d')) a b) :
    Conn (upTo m.w t) a b := by
  classical
  by_cases hex : ∃ f ∈ t, m.w < f.w
  · obtain ⟨f0, hf0, hlt0⟩ := hex
    obtain ⟨f, hft, hmin⟩ := Finset.exists_min_image (t.toFinset.filter fun f => m.w < f.w) Edge.w ⟨f0, Finset.mem_filter.2 ⟨List.mem_toFinset.2 hf0, hlt0⟩⟩
    obtain ⟨hft, hlt⟩ := Finset.mem_filter.1 hft
    have hft := List.mem_toFinset.1 hft
    have hle : τ' < lo f.w := not_le.1 fun h => hno (below_mono h ((parts_at hf lo h1 h2 hft m.u m.v).1 (Conn.edge (mem_below.2 ⟨hm, hlt⟩))))
    refine ((parts_at hf lo h1 h2 hft a b).2 (upTo_le_below hle hc)).mono fun e he => ?_
    obtain ⟨het, hef⟩ := mem_below.1 he
    exact mem_upTo.2 ⟨het, not_lt.1 fun h => absurd (hmin e (Finset.mem_filter.2 ⟨List.mem_toFinset.2 het, h⟩)) (not_le.2 hef)⟩
  · push Not at hex
    have hall : upTo m.w t = t := List.filter_eq_self.2 fun e he => decide_eq_true (hex e he)
    rw [hall]
    rcases Conn.inRange (n := n) (fun e he => by obtain ⟨m1, m2, -⟩ := mem_completeGraph.1 (mem_upTo.1 he).1; exact ⟨m1, m2⟩) hc with rfl | ⟨ha, hb⟩
    · exact Conn.refl _ _
    · exact ht.conn a b ha hb

include hf ht hd hfin hfin' h1 h2 in
theorem parts_same : SameParts (completeGraph n d) (completeGraph n d') := by
  classical
  have hwhole : ∀ {d : ℕ → ℕ → W}, (∀ e ∈ completeGraph n d, e.w < ⊤) → ∀ a b, Conn (below ⊤ (completeGraph n d)) a b ↔ a = b ∨ a < n ∧ b < n := by
    intro d hfin a b
    constructor
    · exact Conn.inRange (n := n) fun e he => by obtain ⟨m1, m2, -⟩ := mem_completeGraph.1 (mem_below.1 he).1; exact ⟨m1, m2⟩
    · rintro (rfl | ⟨ha, hb⟩)
      · exact Conn.refl _ _
      · by_cases hab : a = b
        · rw [hab]; exact Conn.refl _ _
        · have : (⟨a, b, d a b⟩ : Edge W) ∈ completeGraph n d := mem_completeGraph.2 ⟨ha, hb, hab, rfl⟩
          exact Conn.edge (e := ⟨a, b, d a b⟩) (mem_below.2 ⟨this, hfin _ this⟩)
  have htwhole : ∀ a b, Conn t a b ↔ a = b ∨ a < n ∧ b < n := fun a b =>
    ⟨Conn.inRange ht.inRange, by
      rintro (rfl | ⟨ha, hb⟩)
      · exact Conn.refl _ _
      · exact ht.conn a b ha hb⟩
  -- partitions of the first graph
  have hfirst : ∀ τ, (∃ m ∈ t, ∀ a b, Conn (below τ (completeGraph n d)) a b ↔ Conn (below m.w t) a b) ∨ ∀ a b, Conn (below τ (completeGraph n d)) a b ↔ Conn t a b := by
    intro τ
    by_cases hex : ∃ m ∈ t, τ ≤ m.w
    · obtain ⟨m0, hm0, hle0⟩ := hex
      obtain ⟨m, hm, hmin⟩ := Finset.exists_min_image (t.toFinset.filter fun f => τ ≤ f.w) Edge.w ⟨m0, Finset.mem_filter.2 ⟨List.mem_toFinset.2 hm0, hle0⟩⟩
      obtain ⟨hm, hle⟩ := Finset.mem_filter.1 hm
      refine .inl ⟨m, List.mem_toFinset.1 hm, fun a b => ?_⟩
      rw [← hf.conn_below]
      refine ⟨below_mono hle, Conn.mono fun e he => ?_⟩
      obtain ⟨het, hlt⟩ := mem_below.1 he
      exact mem_below.2 ⟨het, not_le.1 fun h => absurd (hmin e (Finset.mem_filter.2 ⟨List.mem_toFinset.2 het, h⟩)) (not_le.2 hlt)⟩
    · push Not at hex
      refine .inr fun a b => ?_
      rw [← hf.conn_below, show below τ t = t from List.filter_eq_self.2 fun e he => decide_eq_true (hex e he)]
  constructor
  · intro τ
    rcases hfirst τ with ⟨m, hm, hc⟩ | hc
    · exact ⟨lo m.w, fun a b => (hc a b).trans (parts_at hf lo h1 h2 hm a b)⟩
    · exact ⟨⊤, fun a b => ((hc a b).trans (htwhole a b)).trans (hwhole hfin' a b).symm⟩
  · intro τ'
    by_cases hex : ∃ m ∈ t, ¬ Conn (below τ' (completeGraph n d')) m.u m.v
    · obtain ⟨m0, hm0, hno0⟩ := hex
      obtain ⟨m, hm, hmin⟩ := Finset.exists_min_image (t.toFinset.filter fun m => ¬ Conn (below τ' (completeGraph n d')) m.u m.v) Edge.w
        ⟨m0, Finset.mem_filter.2 ⟨List.mem_toFinset.2 hm0, hno0⟩⟩
      obtain ⟨hm, hno⟩ := Finset.mem_filter.1 hm
      have hm := List.mem_toFinset.1 hm
      have hsub : ∀ a b, Conn (below m.w t) a b → Conn (below τ' (completeGraph n d')) a b := fun a b => Conn.of_forall fun e he => by
        obtain ⟨het, hlt⟩ := mem_below.1 he
        by_contra h
        exact absurd (hmin e (Finset.mem_filter.2 ⟨List.mem_toFinset.2 het, h⟩)) (not_le.2 hlt)
      refine ⟨m.w, fun a b => ?_⟩
      rw [← hf.conn_below]
      refine ⟨hsub a b, fun hc => ?_⟩
      rcases Conn.cons_iff.1 (upTo_cons hd hm (parts_next hf ht lo h1 h2 hm hno (hc.mono fun e he => mem_upTo.2 ⟨(mem_below.1 he).1, (mem_below.1 he).2.le⟩))) with h | ⟨h3, h4⟩ | ⟨h3, h4⟩
      · exact h
      · exact absurd (((hsub _ _ h3).symm.trans hc).trans (hsub _ _ h4).symm) hno
      · exact absurd (((hsub _ _ h3).symm.trans hc).trans (hsub _ _ h4).symm).symm hno
    · push Not at hex
      refine ⟨⊤, fun a b => (hwhole hfin a b).trans ((htwhole a b).symm.trans ⟨Conn.of_forall fun e he => hex e he, fun hc => ?_⟩)⟩
      exact (htwhole a b).2 (Conn.inRange (n := n) (fun e he => by obtain ⟨m1, m2, -⟩ := mem_completeGraph.1 (mem_below.1 he).1; exact ⟨m1, m2⟩) hc)

include hf ht hd hfin hfin' h1 h2 in
/-- The edges of the second tree have different lengths, too. -/
theorem parts_distinct {t' : List (Edge W)} (hf' : MinSpanningForest (completeGraph n d') t') (ht' : SpanningTree n t') : (t'.map Edge.w).Nodup := by
  classical
  by_contra hnd
  obtain ⟨w, hw⟩ := List.exists_duplicate_iff_not_nodup.2 hnd
  obtain ⟨l, hl, hl2⟩ := List.sublist_map_iff.1 (List.duplicate_iff_sublist.1 hw)
  obtain ⟨e, f, rfl, he, hfw⟩ : ∃ e f, l = [e, f] ∧ e.w = w ∧ f.w = w := by
    have hlen : l.length = 2 := by simpa using (congrArg List.length hl2).symm
    obtain ⟨e, f, rfl⟩ := List.length_eq_two.1 hlen
    simp only [List.map_cons, List.map_nil, List.cons.injEq, and_true] at hl2
    exact ⟨e, f, rfl, hl2.1.symm, hl2.2.symm⟩
  obtain ⟨rest, hp⟩ := hl.exists_perm_append
  have hs := ht'.perm hp.symm
  have hcut : ¬ Conn (f :: rest) e.u e.v := hs.acyclic [] e (f :: rest) rfl
  have hcut' : ¬ Conn (e :: rest) f.u f.v := hs.acyclic [e] f rest rfl
  have het : e ∈ t' := hp.mem_iff.2 (by simp)
  have hft : f ∈ t' := hp.mem_iff.2 (by simp)
  have hrest : ∀ g ∈ below w t', g ∈ rest := by
    intro g hg
    obtain ⟨hg, hlt⟩ := mem_below.1 hg
    have := hp.mem_iff.1 hg
    simp only [List.cons_append, List.nil_append, List.mem_cons] at this
    rcases this with rfl | rfl | h
    · exact absurd hlt (by rw [he]; exact lt_irrefl _)
    · exact absurd hlt (by rw [hfw]; exact lt_irrefl _)
    · exact h
  have hne : ¬ Conn (below w t') e.u e.v := fun h => hcut (h.mono fun g hg => List.mem_cons_of_mem _ (hrest g hg))
  have hnf : ¬ Conn (below w t') f.u f.v := fun h => hcut' (h.mono fun g hg => List.mem_cons_of_mem _ (hrest g hg))
  -- the first edge of the first tree that is cut below `w`
  have hex : ∃ m ∈ t, ¬ Conn (below w (completeGraph n d')) m.u m.v := by
    by_contra hall
    push Not at hall
    obtain ⟨r1, r2⟩ := ht'.inRange e het
    exact hne ((hf'.conn_below w _ _).2 ((ht.conn e.u e.v r1 r2 |> Conn.of_forall fun g hg => hall g hg)))
  obtain ⟨m0, hm0, hno0⟩ := hex
  obtain ⟨m, hm, hmin⟩ := Finset.exists_min_image (t.toFinset.filter fun m => ¬ Conn (below w (completeGraph n d')) m.u m.v) Edge.w
    ⟨m0, Finset.mem_filter.2 ⟨List.mem_toFinset.2 hm0, hno0⟩⟩
  obtain ⟨hm, hno⟩ := Finset.mem_filter.1 hm
  have hm := List.mem_toFinset.1 hm
  have hsub : ∀ a b, Conn (below m.w t) a b → Conn (below w t') a b := fun a b h => (hf'.conn_below w a b).2 (h |> Conn.of_forall fun e he => by
    obtain ⟨het, hlt⟩ := mem_below.1 he
    by_contra h
    exact absurd (hmin e (Finset.mem_filter.2 ⟨List.mem_toFinset.2 het, h⟩)) (not_le.2 hlt))
  have hside : ∀ g ∈ t', g.w = w → ¬ Conn (below w t') g.u g.v →
      (Conn (below w t') g.u m.u ∧ Conn (below w t') m.v g.v) ∨ (Conn (below w t') g.u m.v ∧ Conn (below w t') m.u g.v) := by
    intro g hg hgw hgn
    have hc : Conn (upTo w (completeGraph n d')) g.u g.v := Conn.edge (mem_upTo.2 ⟨hf'.forest.sub.subset hg, hgw.le⟩)
    rcases Conn.cons_iff.1 (upTo_cons hd hm (parts_next hf ht lo h1 h2 hm hno hc)) with h | ⟨h3, h4⟩ | ⟨h3, h4⟩
    · exact absurd (hsub _ _ h) hgn
    · exact .inl ⟨hsub _ _ h3, hsub _ _ h4⟩
    · exact .inr ⟨hsub _ _ h3, hsub _ _ h4⟩
  rcases hside e het he hne with ⟨a1, a2⟩ | ⟨a1, a2⟩ <;> rcases hside f hft hfw hnf with ⟨b1, b2⟩ | ⟨b1, b2⟩
  all_goals
    refine hcut ?_
    have up : ∀ {a b}, Conn (below w t') a b → Conn (f :: rest) a b := fun h => h.mono fun g hg => List.mem_cons_of_mem _ (hrest g hg)
    have fe : Conn (f :: rest) f.u f.v := Conn.edge List.mem_cons_self
  · exact ((up (a1.trans b1.symm)).trans fe).trans (up (b2.symm.trans a2))
  · exact ((up (a1.trans b2)).trans fe.symm).trans (up (b1.trans a2))
  · exact ((up (a1.trans b2)).trans fe.symm).trans (up (b1.trans a2))
  · exact ((up (a1.trans b1.symm)).trans fe).trans (up (b2.symm.trans a2))

end

section
variable [Field K] [LinearOrder K] [IsStrictOrderedRing K] [Inhabited K] {n : ℕ} {δ : K}

/-- `x - δ`, for a length `x` that may be infinite. -/
def shorten (δ : K) (x : WithTop K) : WithTop K := x.map fun k => k - δ

omit [Inhabited K] in
theorem lt_shorten {x y : WithTop K} : x < shorten δ y ↔ x + δ < y := by
  cases y with
  | top => cases x with
    | top => simp [shorten]
    | coe x => exact iff_of_true (WithTop.coe_lt_top _) (by rw [← WithTop.coe_add]; exact WithTop.coe_lt_top _)
  | coe y => cases x with
    | top => simp [shorten]
    | coe x =>
      show (x : WithTop K) < ((y - δ : K) : WithTop K) ↔ _
      rw [← WithTop.coe_add, WithTop.coe_lt_coe, WithTop.coe_lt_coe, lt_sub_iff_add_lt]

omit [Inhabited K] in
theorem add_coe_lt {x y : WithTop K} : x + δ < y + δ ↔ x < y := WithTop.add_lt_add_iff_right WithTop.coe_ne_top

/-- **C120** (partial): if distances are computed with errors of at most `δ`, and the lengths of the edges of the spanning tree differ by more than `2 δ`, the leaf clusters
are the same.  Missing: epsilon, persistence, infinite distances. -/
theorem C120_errors_partial (hn : 2 ≤ n) {d d' : ℕ → ℕ → WithTop K} (hc : CloseDist n δ d d') (hfin : ∀ i, i < n → ∀ j, j < n → d i j ≠ ⊤) {wt : ℕ → K}
    {t t' : List (Edge (WithTop K))} (hf : MinSpanningForest (completeGraph n d) t) (hf' : MinSpanningForest (completeGraph n d') t')
    (ht : SpanningTree n t) (ht' : SpanningTree n t') (hsep : WellSeparated δ t)
    (o : ClusterOpts K) (h1 : 1 < o.minClusterSize) (h0 : ∀ x, x < n → 0 ≤ wt x) (hl : ∀ x, x < n → wt x < o.minClusterSize)
    (lam : WithTop K → K) (hlam : Antitone lam) (hpos : ∀ d, 0 ≤ lam d) (hne : ∀ d, d ≠ ⊤ → lam d ≠ 0)
    (hleaf : o.method = .leaf) (hper : o.persistence ≤ 0) (heps : o.epsilon ≤ 0)
    {r r' : ClusterResult (WithTop K) K} (hr : clustersFromMst lam wt o t = some r) (hr' : clustersFromMst lam wt o t' = some r') (a b : ℕ) :
    (∃ l, 0 ≤ l ∧ r.labels[a]? = some l ∧ r.labels[b]? = some l) ↔ ∃ l, 0 ≤ l ∧ r'.labels[a]? = some l ∧ r'.labels[b]? = some l := by
  have fin : ∀ e ∈ completeGraph n d, e.w < ⊤ := fun e he => by
    obtain ⟨m1, m2, -, m4⟩ := mem_completeGraph.1 he
    rw [m4]; exact lt_top_iff_ne_top.2 (hfin _ m1 _ m2)
  have fin' : ∀ e ∈ completeGraph n d', e.w < ⊤ := fun e he => by
    obtain ⟨m1, m2, -, m4⟩ := mem_completeGraph.1 he
    rw [m4]
    exact (hc _ m1 _ m2).2.trans_lt (WithTop.add_lt_top.2 ⟨lt_top_iff_ne_top.2 (hfin _ m1 _ m2), WithTop.coe_lt_top _⟩)
  have k1 : ∀ e ∈ t, ∀ f ∈ t, f.w < e.w → d' f.u f.v < shorten δ e.w := fun e he f hft hlt => by
    obtain ⟨m1, m2, -, m4⟩ := mem_completeGraph.1 (hf.forest.sub.subset hft)
    refine lt_shorten.2 (lt_of_le_of_lt ?_ (hsep.2 f hft e he hlt))
    rw [m4]
    exact add_le_add_left (hc _ m1 _ m2).2 _
  have k2 : ∀ e ∈ t, ∀ a b, a < n → b < n → d' a b < shorten δ e.w → d a b < e.w := fun e _ a b ha hb hlt => (hc a ha b hb).1.trans_lt (lt_shorten.1 hlt)
  have hS := parts_same hf ht hsep.1 fin fin' (shorten δ) k1 k2
  have hd' := parts_distinct hf ht hsep.1 fin fin' (shorten δ) k1 k2 hf' ht'
  have hC := C115_leaf_groups_partial n hn wt _ t hf ht o h1 h0 hl lam hlam hpos (fun e he => hne _ (fin e (hf.forest.sub.subset he)).ne) (untied_of_nodup hsep.1) hleaf hper
    heps r hr
  have hC' := C115_leaf_groups_partial n hn wt _ t' hf' ht' o h1 h0 hl lam hlam hpos (fun e he => hne _ (fin' e (hf'.forest.sub.subset he)).ne) (untied_of_nodup hd') hleaf
    hper heps r' hr'
  constructor
  · rintro ⟨l, hl, ha, hb⟩
    obtain ⟨l', -, hl', he⟩ := (hC' _).2 (hS.leafGroup fin fin' ((hC _).1 ⟨l, List.mem_of_getElem? ha, hl, rfl⟩))
    exact ⟨l', hl', (Set.ext_iff.1 he a).1 ha, (Set.ext_iff.1 he b).1 hb⟩
  · rintro ⟨l, hl, ha, hb⟩
    obtain ⟨l', -, hl', he⟩ := (hC _).2 (hS.symm.leafGroup fin' fin ((hC' _).1 ⟨l, List.mem_of_getElem? ha, hl, rfl⟩))
    exact ⟨l', hl', (Set.ext_iff.1 he a).1 ha, (Set.ext_iff.1 he b).1 hb⟩

omit [Inhabited K] in
/-- Core distances differ by no more than the distances. -/
theorem bruteCore_close (hδ : 0 ≤ δ) {D D' : ℕ → ℕ → WithTop K} (ms : ℕ) {i : ℕ} (h : ∀ j, j < n → D i j ≤ D' i j + δ) : bruteCore n ms D i ≤ bruteCore n ms D' i + δ := by
  unfold bruteCore
  split
  · rw [zero_add]; exact_mod_cast hδ
  split
  case isFalse => exact le_of_le_of_eq le_rfl (WithTop.top_add _).symm
  rename_i hms
  have key := forall₂_insertionSort_of_count (A := (List.range n).map (D i)) (B := ((List.range n).map fun j => D' i j + δ)) (by simp) fun t => by
    rw [List.filter_map, List.filter_map, List.length_map, List.length_map, ← List.countP_eq_length_filter, ← List.countP_eq_length_filter]
    refine List.countP_mono_left fun j hj hle => ?_
    simp only [Function.comp_apply, decide_eq_true_eq] at hle ⊢
    exact (h j (List.mem_range.1 hj)).trans hle
  have hmap : ((List.range n).map fun j => D' i j + δ) = ((List.range n).map (D' i)).map (· + (δ : WithTop K)) := by rw [List.map_map]; rfl
  rw [hmap, ← List.map_insertionSort (· ≤ ·) (· ≤ ·) (· + (δ : WithTop K)) _ fun _ _ _ _ => (WithTop.add_le_add_iff_right WithTop.coe_ne_top).symm] at key
  obtain ⟨-, key⟩ := List.forall₂_iff_get.1 key
  have hl1 : ms < (((List.range n).map (D i)).insertionSort (· ≤ ·)).length := by simpa using hms
  have hl2 : ms < (((List.range n).map (D' i)).insertionSort (· ≤ ·)).length := by simpa using hms
  have := key ms hl1 (by rw [List.length_map]; exact hl2)
  rw [List.getD_eq_getElem?_getD, List.getD_eq_getElem?_getD, List.getElem?_eq_getElem hl1, List.getElem?_eq_getElem hl2]
  simpa using this

omit [Inhabited K] in
/-- So do mutual reachability distances. -/
theorem closeDist_reach (hδ : 0 ≤ δ) {D D' : ℕ → ℕ → WithTop K} (ms : ℕ) (hc : CloseDist n δ D D') :
    CloseDist n δ (fun i j => max (max (D i j) (bruteCore n ms D i)) (bruteCore n ms D j)) (fun i j => max (max (D' i j) (bruteCore n ms D' i)) (bruteCore n ms D' j)) := by
  have hmax : ∀ {a b a' b' : WithTop K}, a ≤ a' + δ → b ≤ b' + δ → max a b ≤ max a' b' + δ := fun h1 h2 =>
    max_le (h1.trans (add_le_add_left (le_max_left _ _) _)) (h2.trans (add_le_add_left (le_max_right _ _) _))
  refine fun i hi j hj => ⟨?_, ?_⟩
  · exact hmax (hmax (hc i hi j hj).1 (bruteCore_close hδ ms fun k hk => (hc i hi k hk).1)) (bruteCore_close hδ ms fun k hk => (hc j hj k hk).1)
  · exact hmax (hmax (hc i hi j hj).2 (bruteCore_close hδ ms fun k hk => (hc i hi k hk).2)) (bruteCore_close hδ ms fun k hk => (hc j hj k hk).2)

omit [Inhabited K] in
theorem closeReach (hδ : 0 ≤ δ) {D D' : ℕ → ℕ → WithTop K} {ms : ℕ} (hms : ms < n) (hc : CloseDist n δ D D') (hfin : ∀ i, i < n → ∀ j, j < n → D i j ≠ ⊤) :
    CloseDist n δ (fun i j => max (max (D i j) (bruteCore n ms D i)) (bruteCore n ms D j)) (fun i j => max (max (D' i j) (bruteCore n ms D' i)) (bruteCore n ms D' j)) ∧
      ∀ i, i < n → ∀ j, j < n → max (max (D i j) (bruteCore n ms D i)) (bruteCore n ms D j) ≠ ⊤ := by
  refine ⟨closeDist_reach hδ ms hc, fun i hi j hj => ?_⟩
  · have hcore : ∀ i, i < n → bruteCore n ms D i < ⊤ := fun i hi => by
      unfold bruteCore
      split
      · exact WithTop.coe_lt_top _
      · have hl1 : ms < (((List.range n).map (D i)).insertionSort (· ≤ ·)).length := by simpa using hms
        rw [List.getD_eq_getElem?_getD, List.getElem?_eq_getElem hl1, Option.getD_some]
        have := (List.mem_insertionSort _).1 (List.getElem_mem hl1)
        obtain ⟨k, hk, he⟩ := List.mem_map.1 this
        rw [← he]
        exact lt_top_iff_ne_top.2 (hfin i hi k (List.mem_range.1 hk))
    exact (max_lt (max_lt (lt_top_iff_ne_top.2 (hfin i hi j hj)) (hcore i hi)) (hcore j hj)).ne

/-- **C120** (partial): the same for errors in the distances between the rows, for the spanning trees of `_kruskal_mst_brute` with any `min_samples` below the number of rows.
Missing: as for `C120_errors_partial`. -/
theorem C120_errors_data_partial (hn : 2 ≤ n) (hδ : 0 ≤ δ) {D D' : ℕ → ℕ → WithTop K} (hD : ∀ i j, D i j = D j i) (hD' : ∀ i j, D' i j = D' j i)
    (hc : CloseDist n δ D D') (hfin : ∀ i, i < n → ∀ j, j < n → D i j ≠ ⊤) {ms : ℕ} (hms : ms < n) {wt : ℕ → K}
    (hsep : WellSeparated δ (kruskalBrute n ms D CLParams.none))
    (o : ClusterOpts K) (h1 : 1 < o.minClusterSize) (h0 : ∀ x, x < n → 0 ≤ wt x) (hl : ∀ x, x < n → wt x < o.minClusterSize)
    (lam : WithTop K → K) (hlam : Antitone lam) (hpos : ∀ d, 0 ≤ lam d) (hne : ∀ d, d ≠ ⊤ → lam d ≠ 0)
    (hleaf : o.method = .leaf) (hper : o.persistence ≤ 0) (heps : o.epsilon ≤ 0)
    {r r' : ClusterResult (WithTop K) K} (hr : clustersFromMst lam wt o (kruskalBrute n ms D CLParams.none) = some r)
    (hr' : clustersFromMst lam wt o (kruskalBrute n ms D' CLParams.none) = some r') (a b : ℕ) :
    (∃ l, 0 ≤ l ∧ r.labels[a]? = some l ∧ r.labels[b]? = some l) ↔ ∃ l, 0 ≤ l ∧ r'.labels[a]? = some l ∧ r'.labels[b]? = some l := by
  obtain ⟨s1, s2⟩ := kruskalBrute_msf (ms := ms) (show 0 < n by omega) hD
  obtain ⟨s1', s2'⟩ := kruskalBrute_msf (ms := ms) (show 0 < n by omega) hD'
  obtain ⟨c1, c2⟩ := closeReach hδ hms hc hfin
  exact C120_errors_partial hn c1 c2 s2 s2' s1 s1' hsep o h1 h0 hl lam hlam hpos hne hleaf hper heps hr hr' a b

/-- **C120** (partial) for the two algorithms: `algorithm='kruskal'` computes distances in double precision, `algorithm='boruvka'` in single precision.  If they differ by
at most `δ` and the spanning tree of the former is well separated, any run of the latter, on any schedule, gives the same leaf clusters.  Missing: as for
`C120_errors_partial` and `C35_minimum_spanning_tree_partial`. -/
theorem C120_algorithms_partial (hδ : 0 ≤ δ) {D : ℕ → ℕ → WithTop K} (hD : ∀ i j, D i j = D j i) (hDfin : ∀ i, i < n → ∀ j, j < n → D i j ≠ ⊤)
    {R : Type*} [LinearOrder R] {vis : List (WithTop K) → WithTop K → Prop} (hvis : ∀ h w, vis h w → anyVis h w)
    {ar : Arith R (WithTop K)} (ha : ar.Lawful) {rt : WithTop K → WithTop K} (hrt : Monotone rt) (hz : rt ar.zero = 0) (zero : R) (pts : ℕ → ℕ → R) (dims leafSize ms : ℕ)
    (hls : 1 ≤ leafSize) (hn : 2 ≤ n) (hms : ms < n) (hbig : ms < 32768)
    (hdist : ∀ i < n, ∀ j < n, rdist ar dims (pts i) (pts j) < ⊤) (hc : CloseDist n δ D fun i j => rt (rdist ar dims (pts i) (pts j)))
    (t : KdTree R) (ht : buildKdTree ar zero pts dims n leafSize = some t)
    (repro : Option ℕ) (edges : List (Edge (WithTop K))) (core : ℕ → WithTop K)
    (h : TreeBoruvka vis ar rt dims pts t (numNodes n leafSize) n ms repro (edges.map fun e => ⟨e.u, some e.v, e.w⟩) core)
    (hsep : WellSeparated δ (kruskalBrute n ms D CLParams.none)) {wt : ℕ → K}
    (o : ClusterOpts K) (h1 : 1 < o.minClusterSize) (h0 : ∀ x, x < n → 0 ≤ wt x) (hl : ∀ x, x < n → wt x < o.minClusterSize)
    (lam : WithTop K → K) (hlam : Antitone lam) (hpos : ∀ d, 0 ≤ lam d) (hne : ∀ d, d ≠ ⊤ → lam d ≠ 0)
    (hleaf : o.method = .leaf) (hper : o.persistence ≤ 0) (heps : o.epsilon ≤ 0)
    {r r' : ClusterResult (WithTop K) K} (hr : clustersFromMst lam wt o (kruskalBrute n ms D CLParams.none) = some r)
    (hr' : clustersFromMst lam wt o edges = some r') (a b : ℕ) :
    (∃ l, 0 ≤ l ∧ r.labels[a]? = some l ∧ r.labels[b]? = some l) ↔ ∃ l, 0 ≤ l ∧ r'.labels[a]? = some l ∧ r'.labels[b]? = some l := by
  have inj : ∀ {a b : List (Edge (WithTop K))}, a.map (fun e => (⟨e.u, some e.v, e.w⟩ : TEdge (WithTop K))) = b.map (fun e => ⟨e.u, some e.v, e.w⟩) → a = b := by
    intro a b hab
    refine List.map_injective_iff.2 (fun x y hxy => ?_) hab
    cases x; cases y
    simpa using hxy
  obtain ⟨hcore, tree, e1, q1, q2⟩ := C35_minimum_spanning_tree_partial hvis ha hrt zero pts dims n leafSize ms hls hn hms hbig hdist t ht repro _ core h
  rw [← inj e1] at q1 q2
  obtain ⟨s1, s2⟩ := kruskalBrute_msf (ms := ms) (show 0 < n by omega) hD
  set D' : ℕ → ℕ → WithTop K := fun i j => rt (rdist ar dims (pts i) (pts j)) with hD'
  have hcore' : ∀ i, i < n → core i = bruteCore n ms D' i := fun i hi => by
    rw [hcore i hi]
    unfold bruteCore
    by_cases h1 : 1 < ms
    · rw [if_pos h1, if_neg (by omega), if_pos hms]
    · rw [if_neg h1, if_pos (by omega), hz]
  have key := closeReach hδ hms hc hDfin
  refine C120_errors_partial hn (fun i hi j hj => ?_) key.2 s2 q2 s1 q1 hsep o h1 h0 hl lam hlam hpos hne hleaf hper heps hr hr' a b
  have := key.1 i hi j hj
  simp only [hcore' i hi, hcore' j hj]
  exact this

end

/-- Eight rows; with `min_samples=2` no two edges of the spanning tree have the same length. -/
def exTrue : List ℚ := [15, 24, 51, 53, 97, 100, 117, 131]

/-- The same with the last row moved by one half. -/
def exMeasured : List ℚ := [15, 24, 51, 53, 97, 100, 117, 263 / 2]

theorem exClose : CloseDist 8 (1 / 2 : ℚ) (onLine exTrue) (onLine exMeasured) := by
  have key : ∀ i < 8, ∀ j < 8, onLine exTrue i j ≤ onLine exMeasured i j + ((1 / 2 : ℚ) : WithTop ℚ) ∧ onLine exMeasured i j ≤ onLine exTrue i j + ((1 / 2 : ℚ) : WithTop ℚ) := by
    decide +kernel
  exact fun i hi j hj => key i hi j hj

theorem exSeparated : WellSeparated (1 / 2 : ℚ) (kruskalBrute 8 2 (onLine exTrue) CLParams.none) := by
  refine ⟨by decide +kernel, by decide +kernel⟩

theorem exTrue_labels : (clustersFromMst lamq (fun _ => 1) ⟨3, .leaf, none, false, 0, 0⟩ (kruskalBrute 8 2 (onLine exTrue) CLParams.none)).map ClusterResult.labels =
    some [0, 0, 0, 0, 1, 1, 1, 1] := by decide +kernel

theorem exMeasured_labels : ∃ r', clustersFromMst lamq (fun _ => 1) ⟨3, .leaf, none, false, 0, 0⟩ (kruskalBrute 8 2 (onLine exMeasured) CLParams.none) = some r' :=
  Option.isSome_iff_exists.1 (by decide +kernel)

/-- The two groups of the first data set are the clusters of the second. -/
example : ∃ r', clustersFromMst lamq (fun _ => 1) ⟨3, .leaf, none, false, 0, 0⟩ (kruskalBrute 8 2 (onLine exMeasured) CLParams.none) = some r' ∧
    ∀ a b, (∃ l : ℤ, 0 ≤ l ∧ ([0, 0, 0, 0, 1, 1, 1, 1] : List ℤ)[(a : ℕ)]? = some l ∧ ([0, 0, 0, 0, 1, 1, 1, 1] : List ℤ)[(b : ℕ)]? = some l) ↔
      ∃ l, 0 ≤ l ∧ r'.labels[a]? = some l ∧ r'.labels[b]? = some l := by
  obtain ⟨r, hr, e1⟩ := Option.map_eq_some_iff.1 exTrue_labels
  obtain ⟨r', hr'⟩ := exMeasured_labels
  have f5 : (1 : ℚ) < 3 := by norm_num
  have f6 : (0 : ℚ) ≤ 1 / 2 := by norm_num
  have f7 : 2 ≤ 8 := by norm_num
  have f8 : 2 < 8 := by norm_num
  refine ⟨r', hr', fun a b => ?_⟩
  rw [← e1]
  exact C120_errors_data_partial f7 f6 (onLine_comm _) (onLine_comm _) exClose (fun _ _ _ _ => WithTop.coe_ne_top) f8 exSeparated ⟨3, .leaf, none, false, 0, 0⟩ f5
    (fun _ _ => zero_le_one) (fun _ _ => f5) lamq lamq_antitone lamq_nonneg (fun d hd h => hd ((lamq_zero d).1 h)) rfl le_rfl le_rfl hr hr' a b

/-- Squared distances between four points on a line, a quarter too large. -/
def exOff (i j : ℕ) : WithTop ℚ := if i = j then 0 else ((((gapPts i 0 : ℚ) - gapPts j 0) * ((gapPts i 0 : ℚ) - gapPts j 0) + 1 / 4 : ℚ) : WithTop ℚ)

/-- Case: the four points have a run of Boruvka's algorithm as in `C120_algorithms_partial`, for lengths that are a quarter too large in the other algorithm. -/
example : ∃ (t : KdTree ℚ) (edges : List (Edge (WithTop ℚ))) (core : ℕ → WithTop ℚ),
    buildKdTree (roundedArith (id : ℚ → ℚ)) 0 (fun i j => gapPts i j) 1 4 2 = some t ∧
    TreeBoruvka lastVis (roundedArith (id : ℚ → ℚ)) id 1 (fun i j => gapPts i j) t (numNodes 4 2) 4 1 none (edges.map fun e => ⟨e.u, some e.v, e.w⟩) core ∧
    WellSeparated (1 / 4 : ℚ) (kruskalBrute 4 1 exOff CLParams.none) ∧
    CloseDist 4 (1 / 4 : ℚ) exOff fun i j => id (rdist (roundedArith (id : ℚ → ℚ)) 1 (fun k => (gapPts i k : ℚ)) (fun k => (gapPts j k : ℚ))) := by
  have ha : (roundedArith (id : ℚ → ℚ)).Lawful := exactArith_lawful
  have hfin : ∀ i < 4, ∀ j < 4, rdist (roundedArith (id : ℚ → ℚ)) 1 (fun k => (gapPts i k : ℚ)) (fun k => (gapPts j k : ℚ)) < ⊤ := by decide +kernel
  obtain ⟨t, ht, _⟩ := buildKdTree_valid (roundedArith (id : ℚ → ℚ)) 0 (fun i j => (gapPts i j : ℚ)) 1 4 2 (by decide) (by decide)
  obtain ⟨e1, c1, r1⟩ := C35_gives_result ha id 0 (fun i j => (gapPts i j : ℚ)) 1 4 2 1 (by decide) (by decide) (by decide) (by decide) hfin t ht none (by simp)
  have hv : ∀ (h : List (WithTop ℚ)) w, lastVis h w → anyVis h w := fun _ _ => lastVis_anyVis
  obtain ⟨_, t1, q1, -⟩ := C35_minimum_spanning_tree_partial hv ha monotone_id 0 (fun i j => (gapPts i j : ℚ)) 1 4 2 1 (by decide) (by decide) (by decide)
    (by decide) hfin t ht none e1 c1 r1
  rw [q1] at r1
  have key : ∀ i < 4, ∀ j < 4, exOff i j ≤ id (rdist (roundedArith (id : ℚ → ℚ)) 1 (fun k => (gapPts i k : ℚ)) (fun k => (gapPts j k : ℚ))) + ((1 / 4 : ℚ) : WithTop ℚ) ∧
      id (rdist (roundedArith (id : ℚ → ℚ)) 1 (fun k => (gapPts i k : ℚ)) (fun k => (gapPts j k : ℚ))) ≤ exOff i j + ((1 / 4 : ℚ) : WithTop ℚ) := by decide +kernel
  exact ⟨t, t1, c1, ht, r1, ⟨by decide +kernel, by decide +kernel⟩, fun i hi j hj => key i hi j hj⟩

/-- Three pairs of rows. -/
def exEomTrue : List ℚ := [0, 9, 27, 39, 221 / 2, 225 / 2]

/-- The same with the last pair moved by 1. -/
def exEomMeasured : List ℚ := [0, 9, 27, 39, 223 / 2, 227 / 2]

/-- The excess of mass method does not have this property: it compares sums of lambdas, and the first two pairs are two clusters first and one cluster in the end. -/
theorem C120_eom :
    (∀ i < 6, ∀ j < 6, onLine exEomTrue i j ≤ onLine exEomMeasured i j + ((1 : ℚ) : WithTop ℚ) ∧ onLine exEomMeasured i j ≤ onLine exEomTrue i j + ((1 : ℚ) : WithTop ℚ)) ∧
    ((kruskalBrute 6 1 (onLine exEomTrue) CLParams.none).map Edge.w).Nodup ∧
    (∀ e ∈ kruskalBrute 6 1 (onLine exEomTrue) CLParams.none, ∀ f ∈ kruskalBrute 6 1 (onLine exEomTrue) CLParams.none, e.w < f.w →
      e.w + ((1 : ℚ) : WithTop ℚ) + ((1 : ℚ) : WithTop ℚ) < f.w) ∧
    (clustersFromMst lamq (fun _ => 1) ⟨2, .eom, none, false, 0, 0⟩ (kruskalBrute 6 1 (onLine exEomTrue) CLParams.none)).map ClusterResult.labels =
      some [2, 2, 1, 1, 0, 0] ∧
    (clustersFromMst lamq (fun _ => 1) ⟨2, .eom, none, false, 0, 0⟩ (kruskalBrute 6 1 (onLine exEomMeasured) CLParams.none)).map ClusterResult.labels =
      some [0, 0, 0, 0, 1, 1] := by
  refine ⟨?_, ?_, ?_, ?_, ?_⟩ <;> decide +kernel

end Verif
