import Verif.Props.Precomputed
import Verif.Props.Dbscan
import Verif.Props.SameTree
import Verif.Props.Rename
import Verif.Props.TopCluster
import Verif.Lemmas.PreTrees

/-!
# C109: a precomputed graph of all distances gives the tree of the rows
-/

namespace Verif
variable {W : Type*}

/-! ### Lists -/

/-- Stable sorting and filtering commute. -/
theorem filter_orderedInsert {α : Type*} (r : α → α → Prop) [DecidableRel r] [IsTrans α r] (p : α → Bool) (a : α) (l : List α)
    (hs : l.Pairwise r) : (l.orderedInsert r a).filter p = if p a then (l.filter p).orderedInsert r a else l.filter p := by
  induction l with
  | nil => by_cases hp : p a <;> simp [hp]
  | cons b l ih =>
    rw [List.orderedInsert_cons]
    obtain ⟨h1, h2⟩ := List.pairwise_cons.1 hs
    by_cases hab : r a b
    · rw [if_pos hab]
      by_cases hp : p a
      · rw [List.filter_cons_of_pos hp, if_pos hp]
        cases hf : (b :: l).filter p with
        | nil => rfl
        | cons c t =>
          rw [List.orderedInsert_cons, if_pos]
          have hc : c ∈ (b :: l).filter p := by rw [hf]; simp
          rcases List.mem_cons.1 (List.mem_filter.1 hc).1 with rfl | hc
          · exact hab
          · exact _root_.trans hab (h1 c hc)
      · rw [List.filter_cons_of_neg hp, if_neg hp]
    · rw [if_neg hab]
      by_cases hb : p b
      · rw [List.filter_cons_of_pos hb, List.filter_cons_of_pos hb, ih h2]
        by_cases hp : p a
        · rw [if_pos hp, if_pos hp, List.orderedInsert_cons, if_neg hab]
        · rw [if_neg hp, if_neg hp]
      · rw [List.filter_cons_of_neg hb, List.filter_cons_of_neg hb, ih h2]

theorem filter_insertionSort {α : Type*} (r : α → α → Prop) [DecidableRel r] [IsTrans α r] [Std.Total r] (p : α → Bool) (l : List α) :
    (l.insertionSort r).filter p = (l.filter p).insertionSort r := by
  induction l with
  | nil => rfl
  | cons a l ih =>
    rw [List.insertionSort_cons, filter_orderedInsert r p a _ (List.pairwise_insertionSort r l), ih]
    by_cases hp : p a
    · rw [if_pos hp, List.filter_cons_of_pos hp, List.insertionSort_cons]
    · rw [if_neg hp, List.filter_cons_of_neg hp]

theorem pair_sublist {α : Type*} {R : α → α → Prop} {l : List α} (hs : l.Pairwise R) {a b : α} (ha : a ∈ l) (hb : b ∈ l) (hne : a ≠ b) (hba : ¬ R b a) : [a, b].Sublist l := by
  obtain ⟨s, t, rfl⟩ := List.append_of_mem ha
  rw [List.pairwise_append] at hs
  rcases List.mem_append.1 hb with h | h
  · exact absurd (hs.2.2 b h a (by simp)) hba
  · rcases List.mem_cons.1 h with h | h
    · exact absurd h.symm hne
    · exact (List.Sublist.cons_cons a (List.singleton_sublist.2 h)).trans (List.sublist_append_right _ _)

theorem mem_of_pair_sublist {α : Type*} {m e : α} {pre post : List α} (hnd : (pre ++ e :: post).Nodup) (h : [m, e].Sublist (pre ++ e :: post)) : m ∈ pre := by
  have he : e ∉ post := by
    have := (List.nodup_append.1 hnd).2.1
    exact (List.nodup_cons.1 this).1
  obtain ⟨l₁, l₂, h1, h2, h3⟩ := List.sublist_append_iff.1 h
  rcases l₁ with _ | ⟨a, l₁⟩
  · simp only [List.nil_append] at h1
    subst h1
    cases h3 with
    | cons _ h => exact absurd (h.subset (by simp)) he
    | cons_cons _ h => exact absurd (h.subset (by simp)) he
  · simp only [List.cons_append, List.cons.injEq] at h1
    rw [h1.1]
    exact h2.subset (by simp)

/-! ### The greedy process skips mirrored edges -/

theorem Permitted.mirror {cl : ℕ → ℕ → Prop} (hs : ∀ x y, cl x y → cl y x) {acc : List (Edge W)} {e m : Edge W} (hu : m.u = e.v) (hv : m.v = e.u)
    (h : Permitted cl acc e) : Permitted cl acc m := by
  unfold Permitted at h ⊢
  rw [hu, hv]
  exact ⟨fun hc => h.1 hc.symm, fun x y hx hy hc => h.2 y x hy hx (hs _ _ hc)⟩

theorem Greedy.of_mirrored {cl : ℕ → ℕ → Prop} (hs : ∀ x y, cl x y → cl y x) {p : Edge W → Bool} {es acc : List (Edge W)} (h : Greedy cl es acc)
    (hm : ∀ pre e, (pre ++ [e]) <+: es → p e = false → ∃ m ∈ pre, m.u = e.v ∧ m.v = e.u) : Greedy cl (es.filter p) acc := by
  induction h with
  | nil => exact Greedy.nil
  | @take es acc e hg hp ih =>
    have ih' := ih fun pre e' h1 h2 => hm pre e' (h1.trans (List.prefix_append _ _)) h2
    rw [List.filter_append]
    cases hpe : p e with
    | true => rw [List.filter_cons_of_pos hpe]; exact Greedy.take ih' hp
    | false =>
      obtain ⟨m, h1, h2, h3⟩ := hm es e List.prefix_rfl hpe
      obtain ⟨h4, h5⟩ := hp.mirror hs h2 h3
      obtain ⟨x, y, hx, hy, hc⟩ := hg.maximal h1 h4
      exact absurd hc (h5 x y hx hy)
  | @skip es acc e hg hp ih =>
    have ih' := ih fun pre e' h1 h2 => hm pre e' (h1.trans (List.prefix_append _ _)) h2
    rw [List.filter_append]
    cases hpe : p e with
    | true => rw [List.filter_cons_of_pos hpe]; exact Greedy.skip ih' hp
    | false => rw [List.filter_cons_of_neg (by simp [hpe])]; simpa using ih'

/-! ### Bridging depends on the components only -/

theorem finishMst_same [LE W] [OrderTop W] {n : ℕ} {s s' : KState W} (hm : s.mst = s'.mst) (h : Represents n s.pred s.mst) (h' : Represents n s'.pred s'.mst) :
    finishMst s n = finishMst s' n := by
  have hl : ∀ i j, i < n → j < n → (componentLabel n s.pred i = componentLabel n s.pred j ↔ Conn s.mst i j) := fun i j _ _ => by
    rw [componentLabel_eq h.forest, componentLabel_eq h.forest, h.conn]
  have hl' : ∀ i j, i < n → j < n → (componentLabel n s'.pred i = componentLabel n s'.pred j ↔ Conn s.mst i j) := fun i j _ _ => by
    rw [componentLabel_eq h'.forest, componentLabel_eq h'.forest, h'.conn, hm]
  have e1 : (uniqueLabels n (componentLabel n s.pred)).length = (uniqueLabels n (componentLabel n s'.pred)).length := by
    rw [uniqueLabels_length hl, uniqueLabels_length hl']
  have e2 : bridgeReps n (componentLabel n s.pred) = bridgeReps n (componentLabel n s'.pred) := by
    rw [bridgeReps_eq, bridgeReps_eq]
    refine List.filter_congr fun x hx => ?_
    have hx := List.mem_range.1 hx
    rw [decide_eq_decide]
    refine forall₂_congr fun y hy => not_congr ?_
    rw [hl y x (by omega) hx, hl' y x (by omega) hx]
  unfold finishMst bridgeForest
  rw [e1, e2, hm]

/-! ### The stored graph -/

section
variable [LinearOrder W]

/-- All pairs of different samples are stored, with distance `D`. -/
def FullGraph (n : ℕ) (coo : List (Edge W)) (D : ℕ → ℕ → W) : Prop :=
  InRange n coo ∧ ∀ i j, i < n → j < n → i ≠ j → IsDist coo i j (D i j)

theorem canonMin_keys {n : ℕ} {coo : List (Edge W)} (hr : InRange n coo) : (canonMin n coo).Pairwise fun a b => pairKey n a < pairKey n b := by
  unfold canonMin
  refine (reduceMin_spec n _ ?_).1
  refine (pairLexLe_sorted _).imp_of_mem fun {a b} ha _ hab => pairKey_le ?_ hab
  rw [List.mem_insertionSort, List.mem_map] at ha
  obtain ⟨e, he, rfl⟩ := ha
  have := hr e (List.mem_filter.1 he).1
  simp only; omega

theorem upper_row {n : ℕ} {coo : List (Edge W)} {D : ℕ → ℕ → W} (hf : FullGraph n coo D) {i : ℕ} (hi : i < n) :
    ((symmetrizeMin n coo).row i).filter (fun p => decide (i < p.1)) = ((List.range n).filter (i < ·)).map fun j => (j, D i j) := by
  obtain ⟨hr, hd⟩ := hf
  have : Std.Total fun a b : Edge W => a.u ≤ b.u := ⟨fun a b => le_total _ _⟩
  have : IsTrans (Edge W) fun a b => a.u ≤ b.u := ⟨fun _ _ _ h1 h2 => le_trans h1 h2⟩
  rw [symmetrizeMin_eq, csrOf_row (symList_sorted n coo), List.filter_map, List.filter_filter]
  unfold symList
  rw [filter_insertionSort, List.filter_append, List.filter_map]
  have hsw : (canonMin n coo).filter ((fun e : Edge W => ((fun p : ℕ × W => decide (i < p.1)) ∘ fun e : Edge W => (e.v, e.w)) e && decide (e.u = i)) ∘ swapEdge) = [] := by
    rw [List.filter_eq_nil_iff]
    intro e he
    have := (((canonMin_spec hr).2 e).1 he).1
    have h2 : ¬ (i < e.u ∧ e.v = i) := by omega
    intro h
    obtain ⟨h3, h4⟩ := Bool.and_eq_true_iff.1 h
    exact h2 ⟨of_decide_eq_true h3, of_decide_eq_true h4⟩
  rw [hsw, List.map_nil, List.append_nil, List.Pairwise.insertionSort_eq]
  · refine List.Perm.eq_of_pairwise (le := fun a b : ℕ × W => a.1 < b.1) (fun a b _ _ h1 h2 => by omega) ?_ ?_ ?_
    · rw [List.pairwise_map]
      refine ((canonMin_keys hr).filter _).imp_of_mem fun {a b} ha hb hab => ?_
      have h1 := (List.mem_filter.1 ha).2
      have h2 := (List.mem_filter.1 hb).2
      simp only [Function.comp, Bool.and_eq_true, decide_eq_true_eq] at h1 h2
      unfold pairKey at hab
      rw [h1.2, h2.2] at hab
      simp only; omega
    · rw [List.pairwise_map]
      exact (List.pairwise_lt_range).filter _
    · rw [List.perm_ext_iff_of_nodup]
      · rintro ⟨j, w⟩
        simp only [List.mem_map, List.mem_filter, Function.comp, Bool.and_eq_true, decide_eq_true_eq, List.mem_range, Prod.mk.injEq]
        constructor
        · rintro ⟨e, ⟨he, h1, rfl⟩, rfl, rfl⟩
          have h2 := ((canonMin_spec hr).2 e).1 he
          exact ⟨e.v, ⟨h2.2.1, h1⟩, rfl, (hd _ _ hi h2.2.1 (by omega)).unique h2.2.2⟩
        · rintro ⟨_, ⟨h1, h2⟩, rfl, rfl⟩
          exact ⟨⟨i, _, _⟩, ⟨((canonMin_spec hr).2 _).2 ⟨h2, h1, hd _ _ hi h1 (by omega)⟩, h2, rfl⟩, rfl, rfl⟩
      · refine List.Nodup.of_map Prod.fst ?_
        rw [List.map_map]
        refine List.Pairwise.imp (R := (· < ·)) (fun h => ne_of_lt h) ?_
        rw [List.pairwise_map]
        refine ((canonMin_keys hr).filter _).imp_of_mem fun {a b} ha hb hab => ?_
        have h1 := (List.mem_filter.1 ha).2
        have h2 := (List.mem_filter.1 hb).2
        simp only [Function.comp, Bool.and_eq_true, decide_eq_true_eq] at h1 h2
        unfold pairKey at hab
        rw [h1.2, h2.2] at hab
        simp only [Function.comp]; omega
      · refine List.Nodup.of_map Prod.fst ?_
        rw [List.map_map]
        have : (Prod.fst ∘ fun j => (j, D i j)) = id := rfl
        rw [this, List.map_id]
        exact List.nodup_range.filter _
  · refine List.pairwise_of_forall_mem_list fun a ha b hb => ?_
    have h1 := (List.mem_filter.1 ha).2
    have h2 := (List.mem_filter.1 hb).2
    simp only [Function.comp, Bool.and_eq_true, decide_eq_true_eq] at h1 h2
    omega

theorem row_perm {n : ℕ} {coo : List (Edge W)} {D : ℕ → ℕ → W} (hf : FullGraph n coo D) {i : ℕ} (hi : i < n) :
    ((symmetrizeMin n coo).row i).Perm (((List.range n).filter (· ≠ i)).map fun j => (j, D i j)) := by
  obtain ⟨hr, hd⟩ := hf
  obtain ⟨h1, h2⟩ := symmetrize_row hr i
  rw [List.perm_ext_iff_of_nodup h2.of_map]
  · rintro ⟨j, w⟩
    rw [h1]
    simp only [List.mem_map, List.mem_filter, List.mem_range, decide_eq_true_eq, Prod.mk.injEq]
    constructor
    · intro h
      have := h.lt hr
      exact ⟨j, ⟨this.2, h.1.symm⟩, rfl, (hd _ _ hi this.2 h.1).unique h⟩
    · rintro ⟨_, ⟨h1, h2⟩, rfl, rfl⟩
      exact hd _ _ hi h1 (Ne.symm h2)
  · refine List.Nodup.of_map Prod.fst ?_
    rw [List.map_map]
    have : (Prod.fst ∘ fun j => (j, D i j)) = id := rfl
    rw [this, List.map_id]
    exact List.nodup_range.filter _

/-- The core distances agree. -/
theorem full_core [OrderTop W] [Zero W] {n : ℕ} {coo : List (Edge W)} {D : ℕ → ℕ → W} (hf : FullGraph n coo D) (h0 : ∀ i, i < n → D i i = 0)
    (hpos : ∀ i j, i < n → j < n → 0 ≤ D i j) (ms : ℕ) {i : ℕ} (hi : i < n) : csrCore ms ((symmetrizeMin n coo).row i) = bruteCore n ms D i := by
  have hp := row_perm hf hi
  have hpr : (List.range n).Perm (i :: (List.range n).filter (· ≠ i)) := by
    rw [List.perm_ext_iff_of_nodup List.nodup_range]
    · intro a
      simp only [List.mem_range, List.mem_cons, List.mem_filter, decide_eq_true_eq]
      by_cases h : a = i <;> simp [h, hi]
    · rw [List.nodup_cons]
      exact ⟨by simp, List.nodup_range.filter _⟩
  have hlen : ((symmetrizeMin n coo).row i).length + 1 = n := by
    have := hpr.length_eq
    rw [hp.length_eq, List.length_map]
    simpa using this.symm
  unfold csrCore bruteCore
  by_cases hms : ms ≤ 1
  · simp [hms, Nat.not_lt.2 hms]
  have hms' : 1 < ms := by omega
  rw [if_neg hms, if_pos hms', if_pos hms']
  by_cases hlt : ms < n
  · rw [if_neg (by omega), if_pos (by omega), if_pos hlt]
    have e1 : ((sortRow ((symmetrizeMin n coo).row i)).map Prod.snd) = (((List.range n).filter (· ≠ i)).map (D i)).insertionSort (· ≤ ·) := by
      have : Std.Total fun a b : ℕ × W => a.2 ≤ b.2 := ⟨fun a b => le_total _ _⟩
      have : IsTrans (ℕ × W) fun a b => a.2 ≤ b.2 := ⟨fun _ _ _ h1 h2 => le_trans h1 h2⟩
      refine List.Perm.eq_of_pairwise (le := (· ≤ ·)) (fun a b _ _ h1 h2 => le_antisymm h1 h2) ?_ (List.pairwise_insertionSort _ _) ?_
      · rw [List.pairwise_map]
        exact List.pairwise_insertionSort (fun a b : ℕ × W => a.2 ≤ b.2) _
      · refine (((List.perm_insertionSort _ _).trans hp).map _).trans ?_
        rw [List.map_map]
        exact (List.perm_insertionSort _ _).symm
    have e2 : ((List.range n).map (D i)).insertionSort (· ≤ ·) = 0 :: (((List.range n).filter (· ≠ i)).map (D i)).insertionSort (· ≤ ·) := by
      refine List.Perm.eq_of_pairwise (le := (· ≤ ·)) (fun a b _ _ h1 h2 => le_antisymm h1 h2) (List.pairwise_insertionSort _ _) ?_ ?_
      · refine List.pairwise_cons.2 ⟨fun a ha => ?_, List.pairwise_insertionSort _ _⟩
        rw [List.mem_insertionSort, List.mem_map] at ha
        obtain ⟨j, hj, rfl⟩ := ha
        exact hpos i j hi (List.mem_range.1 (List.mem_filter.1 hj).1)
      · refine (List.perm_insertionSort _ _).trans ((hpr.map _).trans ?_)
        rw [List.map_cons, h0 i hi]
        exact (List.perm_insertionSort _ _).symm.cons 0
    rw [e2, ← e1, List.getD_eq_getElem?_getD]
    obtain ⟨k, rfl⟩ : ∃ k, ms = k + 1 := ⟨ms - 1, by omega⟩
    rw [List.getElem?_cons_succ, List.getElem?_map]
    rfl
  · rw [if_neg hlt]
    by_cases hz : ((symmetrizeMin n coo).row i).length = 0
    · rw [if_pos hz]
    · rw [if_neg hz, if_neg (by omega)]

theorem csrEdges_congr {n : ℕ} {rows : ℕ → List (ℕ × W)} {cd cd' : ℕ → W} (hrow : ∀ i, i < n → ∀ p ∈ rows i, p.1 < n) (h : ∀ i, i < n → cd i = cd' i) :
    csrEdges n rows cd = csrEdges n rows cd' := by
  unfold csrEdges
  refine List.flatMap_congr fun i hi => List.map_congr_left fun p hp => ?_
  have hi := List.mem_range.1 hi
  rw [h i hi, h p.1 (hrow i hi p hp)]

/-- The edges above the diagonal come in the order of the brute force routine, the others after their mirror images. -/
theorem full_edges {n : ℕ} {coo : List (Edge W)} {D : ℕ → ℕ → W} (hf : FullGraph n coo D) (cd : ℕ → W) :
    (csrEdges n (fun i => (symmetrizeMin n coo).row i) cd).filter (fun e => decide (e.u < e.v)) = triuEdges n D cd ∧
      ∀ e ∈ csrEdges n (fun i => (symmetrizeMin n coo).row i) cd, ¬ e.u < e.v →
        [(⟨e.v, e.u, e.w⟩ : Edge W), e].Sublist (csrEdges n (fun i => (symmetrizeMin n coo).row i) cd) := by
  obtain ⟨hr, hd⟩ := hf
  constructor
  · unfold csrEdges triuEdges
    rw [List.filter_flatMap]
    refine List.flatMap_congr fun i hi => ?_
    have := upper_row ⟨hr, hd⟩ (List.mem_range.1 hi)
    rw [List.filter_map]
    have e : ((fun e : Edge W => decide (e.u < e.v)) ∘ fun p : ℕ × W => (⟨i, p.1, mrdW (cd i) (cd p.1) p.2⟩ : Edge W)) = fun p => decide (i < p.1) := rfl
    rw [e, this, List.map_map]
    rfl
  · intro e he hlt
    have hmem : ∀ e : Edge W, e ∈ csrEdges n (fun i => (symmetrizeMin n coo).row i) cd ↔ ∃ i < n, ∃ j w, IsDist coo i j w ∧ e = ⟨i, j, mrdW (cd i) (cd j) w⟩ := by
      intro e
      unfold csrEdges
      simp only [List.mem_flatMap, List.mem_range, List.mem_map, Prod.exists]
      constructor
      · rintro ⟨i, hi, j, w, h, rfl⟩; exact ⟨i, hi, j, w, ((symmetrize_row hr i).1 j w).1 h, rfl⟩
      · rintro ⟨i, hi, j, w, h, rfl⟩; exact ⟨i, hi, j, w, ((symmetrize_row hr i).1 j w).2 h, rfl⟩
    obtain ⟨i, hi, j, w, h, rfl⟩ := (hmem e).1 he
    simp only at hlt ⊢
    have hne := h.1
    have hjn := (h.lt hr).2
    refine pair_sublist (R := fun a b : Edge W => a.u ≤ b.u) ?_ ((hmem _).2 ⟨j, hjn, i, w, h.symm, ?_⟩) he ?_ ?_
    · unfold csrEdges
      rw [List.pairwise_flatMap]
      refine ⟨fun i _ => ?_, ?_⟩
      · rw [List.pairwise_map]; exact List.pairwise_of_forall fun _ _ => le_rfl
      · refine List.pairwise_lt_range.imp fun {a b} hab x hx y hy => ?_
        obtain ⟨_, _, rfl⟩ := List.mem_map.1 hx
        obtain ⟨_, _, rfl⟩ := List.mem_map.1 hy
        exact hab.le
    · rw [mrdW_eq, mrdW_eq, max_comm (cd i)]
    · intro h; simp only [Edge.mk.injEq] at h; exact hne h.1.symm
    · simp only; omega

/-- The two routines take the same edges, whatever symmetric constraints the core enforces. -/
theorem full_tree [OrderTop W] [Zero W] {n : ℕ} {coo : List (Edge W)} {D : ℕ → ℕ → W} (hf : FullGraph n coo D) (h0 : ∀ i, i < n → D i i = 0)
    (hpos : ∀ i j, i < n → j < n → 0 ≤ D i j) (ms : ℕ) {cl : CLParams} {R : ℕ → ℕ → Prop} (hsym : ∀ x y, R x y → R y x)
    (hrun : ∀ es : List (Edge W), InRange n es → KInv n R es (runKruskalCore n cl es)) :
    preKruskal n coo ms cl = kruskalBrute n ms D cl := by
  have hr := hf.1
  have hcore : csrEdges n (fun i => (symmetrizeMin n coo).row i) (fun i => csrCore ms ((symmetrizeMin n coo).row i)) =
      csrEdges n (fun i => (symmetrizeMin n coo).row i) (bruteCore n ms D) :=
    csrEdges_congr (fun i _ p hp => ((((symmetrize_row hr i).1 p.1 p.2).1 hp).lt hr).2) fun i hi => full_core hf h0 hpos ms hi
  obtain ⟨hup, hlow⟩ := full_edges hf (bruteCore n ms D)
  set L := csrEdges n (fun i => (symmetrizeMin n coo).row i) (bruteCore n ms D) with hL
  have hLr : InRange n L := by
    intro e he
    rw [hL] at he
    unfold csrEdges at he
    simp only [List.mem_flatMap, List.mem_range, List.mem_map, Prod.exists] at he
    obtain ⟨i, hi, j, w, h, rfl⟩ := he
    exact ((((symmetrize_row hr i).1 j w).1 h).lt hr)
  have hLnd : L.Nodup := by
    rw [hL]
    unfold csrEdges
    rw [List.nodup_flatMap]
    refine ⟨fun i _ => ?_, ?_⟩
    · refine List.Nodup.of_map Edge.v ?_
      rw [List.map_map]
      exact (symmetrize_row hr i).2
    · refine List.pairwise_lt_range.imp fun {a b} hab x hx hy => ?_
      obtain ⟨_, _, rfl⟩ := List.mem_map.1 hx
      obtain ⟨_, _, h⟩ := List.mem_map.1 hy
      simp only [Edge.mk.injEq] at h
      omega
  have hUr : InRange n (triuEdges n D (bruteCore n ms D)) := by
    rw [← hup]; exact fun e he => hLr e (List.mem_filter.1 he).1
  have : Std.Total fun a b : Edge W => a.w ≤ b.w := ⟨fun a b => le_total _ _⟩
  have : IsTrans (Edge W) fun a b => a.w ≤ b.w := ⟨fun _ _ _ h1 h2 => le_trans h1 h2⟩
  have h1 := hrun _ (sortEdges_inRange hLr)
  have h2 := hrun _ (sortEdges_inRange hUr)
  have hfil : (sortEdges L).filter (fun e => decide (e.u < e.v)) = sortEdges (triuEdges n D (bruteCore n ms D)) := by
    unfold sortEdges
    rw [filter_insertionSort, hup]
  have h3 : Greedy R (sortEdges (triuEdges n D (bruteCore n ms D))) (runKruskalCore n cl (sortEdges L)).mst := by
    rw [← hfil]
    refine h1.greedy.of_mirrored hsym fun pre e hpre hpe => ?_
    have he : e ∈ sortEdges L := hpre.subset (by simp)
    have hsub : [(⟨e.v, e.u, e.w⟩ : Edge W), e].Sublist (sortEdges L) :=
      List.sublist_insertionSort (r := fun a b : Edge W => a.w ≤ b.w) (by simp) (hlow e ((sortEdges_perm L).mem_iff.1 he) (by simpa using hpe))
    obtain ⟨post, hpost⟩ := hpre
    rw [List.append_assoc, List.singleton_append] at hpost
    have hnd : (sortEdges L).Nodup := (sortEdges_perm L).nodup_iff.2 hLnd
    rw [← hpost] at hsub hnd
    exact ⟨_, mem_of_pair_sublist hnd hsub, rfl, rfl⟩
  have hmst := h3.deterministic h2.greedy
  have hfin := finishMst_same hmst h1.rep h2.rep
  unfold preKruskal kruskalFromCsr kruskalBrute
  simp only
  rw [hcore, ← hfin]
  rfl

/-- **C109**: `metric='precomputed'` with all distances of the rows stored (in one or both directions, in any order, explicit zeros included) and `algorithm='kruskal'` gives the spanning tree,
edge for edge, and the core distances that `metric='euclidean'` with `algorithm='kruskal'` gives for the rows; with the same validated constraints, if any. -/
theorem C109_same_tree [OrderTop W] [Zero W] {V : Type*} [AddCommMonoid V] [DecidableEq V] (n : ℕ) (coo : List (Edge W)) (D : ℕ → ℕ → W) (hf : FullGraph n coo D)
    (h0 : ∀ i, i < n → D i i = 0) (hpos : ∀ i j, i < n → j < n → 0 ≤ D i j) (ms : ℕ) (cannotLink : Option (SparseCL V)) (groups : Option (ℕ × (ℕ → ℤ))) (cl : CLParams)
    (hcl : resolveCL n cannotLink true groups = .ok cl) :
    preKruskal n coo ms cl = kruskalBrute n ms D cl ∧ ∀ i, i < n → csrCore ms ((symmetrizeMin n coo).row i) = bruteCore n ms D i := by
  refine ⟨?_, fun i hi => full_core hf h0 hpos ms hi⟩
  rcases cannotLink with _ | m
  · rcases groups with _ | ⟨len, g⟩
    · obtain rfl : CLParams.none = cl := by
        unfold resolveCL at hcl
        simpa using hcl
      exact full_tree hf h0 hpos ms (R := fun _ _ => False) (fun _ _ h => h) fun es h => by rw [run_none]; exact kruskalCore_inv h
    · rw [resolve_groups_ok hcl]
      exact full_tree hf h0 hpos ms (R := GroupRel n g) (fun x y h => ⟨h.2.1, h.1, h.2.2.2 ▸ h.2.2.1, h.2.2.2.symm⟩) fun es h => run_groups_inv h
  · rcases groups with _ | _
    · obtain ⟨-, -, -, rfl⟩ := resolve_pairwise_ok hcl
      have hs : ∀ x y, CLRel n (fun i => (List.range n).filter fun j => m.val i j + m.val j i ≠ 0) x y →
          CLRel n (fun i => (List.range n).filter fun j => m.val i j + m.val j i ≠ 0) y x := by
        rintro x y ⟨h1, h2⟩
        rw [List.mem_filter, List.mem_range, decide_eq_true_eq] at h2
        exact ⟨h2.1, List.mem_filter.2 ⟨List.mem_range.2 h1, by rw [decide_eq_true_eq, add_comm]; exact h2.2⟩⟩
      exact full_tree hf h0 hpos ms hs fun es h => run_pairwise_inv hs h
    · simp [resolveCL] at hcl

/-- A forest that is minimum for weights changed by a function that keeps them apart is minimum. -/
theorem MinSpanningForest.of_mapW {V : Type*} [LinearOrder V] {g f : List (Edge W)} {rnd : W → V} (hm : Monotone rnd) (hinj : ∀ e ∈ g, ∀ e' ∈ g, rnd e.w = rnd e'.w → e.w = e'.w)
    (hf : SpanningForest g f) (h : MinSpanningForest (g.map (Edge.mapW rnd)) (f.map (Edge.mapW rnd))) : MinSpanningForest g f := by
  refine minSpanningForest_of_threshold hf fun e he => ?_
  have h1 := h.threshold (Edge.mapW rnd e) (List.mem_map_of_mem he)
  have h2 : ∀ x ∈ upTo (Edge.mapW rnd e).w (f.map (Edge.mapW rnd)), x ∈ (upTo e.w f).map (Edge.mapW rnd) := by
    intro x hx
    rw [mem_upTo, List.mem_map] at hx
    obtain ⟨⟨y, hy, rfl⟩, hle⟩ := hx
    refine List.mem_map_of_mem (mem_upTo.2 ⟨hy, ?_⟩)
    by_contra hlt
    have hlt := not_le.1 hlt
    have heq := le_antisymm hle (hm hlt.le)
    exact absurd (hinj y (hf.sub.subset hy) e he heq) hlt.ne'
  exact (conn_mapW rnd _ _ _).1 (h1.mono h2)

/-- **C109** for `algorithm='boruvka'` (partial): the clustering is that of the rows if the lengths of the edges of the spanning tree are pairwise different and rounding to single precision keeps
different mutual reachability distances apart.
Missing: ties, where the two routines may choose different trees (`C91_ties`), and distances that rounding makes equal (`C43_rounding_not_minimal`). -/
theorem C109_boruvka_partial {K : Type*} [OrderTop W] [Zero W] [Inhabited W] [Field K] [LinearOrder K] [Inhabited K] (n : ℕ) (hn : 2 ≤ n) (coo : List (Edge W)) (D : ℕ → ℕ → W) (hf : FullGraph n coo D)
    (h0 : ∀ i, i < n → D i i = 0) (hpos : ∀ i j, i < n → j < n → 0 ≤ D i j) (ms : ℕ) (rnd : W → W) (hrnd : Rounding rnd)
    (hinj : ∀ e e' : Edge W, IsMrd n coo ms e → IsMrd n coo ms e' → rnd e.w = rnd e'.w → e.w = e'.w)
    (hd : ((kruskalBrute n ms D CLParams.none).map Edge.w).Nodup) (lam : W → K) (wt : ℕ → K) (o : ClusterOpts K) :
    (clustersFromMst lam wt o (preBoruvka rnd n coo ms)).map ClusterResult.clustering =
      (clustersFromMst lam wt o (kruskalBrute n ms D CLParams.none)).map ClusterResult.clustering := by
  have htree := (C109_same_tree (V := ℤ) n coo D hf h0 hpos ms none none CLParams.none rfl).1
  have hr := hf.1
  have hiso : ∀ i, i < n → ¬ Isolated coo i := by
    intro i hi hI
    obtain ⟨j, hj, hne⟩ : ∃ j, j < n ∧ i ≠ j := by
      rcases Nat.eq_zero_or_pos i with h | h
      · exact ⟨1, by omega, by omega⟩
      · exact ⟨0, by omega, by omega⟩
    exact hI j _ hne (hf.2 i j hi hj hne).2.1
  set g := csrEdges n (fun i => (symmetrizeMin n coo).row i) (preCd n coo ms) with hgdef
  have hg : ∀ e, e ∈ g ↔ IsMrd n coo ms e := mem_csrEdges hr ms
  have hcc : compCount n g = 1 := by
    refine compCount_eq_one (by omega) fun a b ha hb => ?_
    by_cases hab : a = b
    · rw [hab]; exact Conn.refl _ _
    · have : (⟨a, b, mrdW (preCd n coo ms a) (preCd n coo ms b) (D a b)⟩ : Edge W) ∈ g := by
        rw [hgdef]
        unfold csrEdges
        simp only [List.mem_flatMap, List.mem_range, List.mem_map, Prod.exists]
        exact ⟨a, ha, b, D a b, ((symmetrize_row hr a).1 b _).2 (hf.2 a b ha hb hab), rfl⟩
      exact Conn.edge this
  obtain ⟨F, b, h1, h2, h3, -, h5, h6⟩ := preBoruvka_spec (by omega) hr hrnd ms (fun i j hij hj hI => absurd hI (hiso i (by omega))) hg
  obtain ⟨F', b', h1', h2', -, h4', h5'⟩ := preKruskal_spec (by omega) hr ms hg
  obtain rfl : b = [] := List.length_eq_zero_iff.1 (by omega)
  obtain rfl : b' = [] := List.length_eq_zero_iff.1 (by omega)
  rw [List.append_nil] at h1 h1' h5' h6
  rw [← htree, h1', h1]
  have hB := MinSpanningForest.of_mapW hrnd.mono (fun e he e' he' => hinj e e' ((hg e).1 he) ((hg e').1 he')) h2 h3
  exact (C91_any_tree_partial (by omega) h5' h6 h2' hB (by rw [← h1', htree]; exact hd) lam wt o).1

/-- All distances, stored in both directions. -/
def denseCoo (n : ℕ) (D : ℕ → ℕ → W) : List (Edge W) := (List.range n).flatMap fun i => ((List.range n).filter (· ≠ i)).map fun j => ⟨i, j, D i j⟩

theorem denseCoo_full {n : ℕ} {D : ℕ → ℕ → W} (hD : ∀ i j, D i j = D j i) : FullGraph n (denseCoo n D) D := by
  have hmem : ∀ e : Edge W, e ∈ denseCoo n D ↔ e.u < n ∧ e.v < n ∧ e.v ≠ e.u ∧ e.w = D e.u e.v := by
    intro e
    unfold denseCoo
    simp only [List.mem_flatMap, List.mem_map, List.mem_filter, List.mem_range, decide_eq_true_eq]
    constructor
    · rintro ⟨i, hi, j, ⟨hj, hne⟩, rfl⟩; exact ⟨hi, hj, hne, rfl⟩
    · rintro ⟨h1, h2, h3, h4⟩
      exact ⟨e.u, h1, e.v, ⟨h2, h3⟩, by cases e; simp only at h4; rw [h4]⟩
  refine ⟨fun e he => ⟨((hmem e).1 he).1, ((hmem e).1 he).2.1⟩, fun i j hi hj hne => ⟨hne, .inl ((hmem _).2 ⟨hi, hj, hne.symm, rfl⟩), fun w hw => ?_⟩⟩
  rcases hw with hw | hw
  · exact ((hmem _).1 hw).2.2.2.ge
  · exact (((hmem _).1 hw).2.2.2.trans (hD j i)).ge

end

/-- The hypotheses hold for seven samples on a line, and the theorem gives their tree. -/
example : preKruskal 7 (denseCoo 7 (onLine gaps7)) 2 CLParams.none = kruskalBrute 7 2 (onLine gaps7) CLParams.none :=
  (C109_same_tree (V := ℤ) 7 _ _ (denseCoo_full (onLine_comm _)) (fun i _ => by unfold onLine; simp) (fun i j _ _ => by unfold onLine; exact_mod_cast abs_nonneg _) 2 none none _ rfl).1

/-- The hypotheses of `C109_boruvka_partial` hold for six samples at distances 1, 2, 4, 8, 16. -/
example : (clustersFromMst lamq (fun _ => 1) ⟨2, .leaf, none, false, 0, 0⟩ (preBoruvka id 6 (denseCoo 6 (onLine [0, 1, 3, 7, 15, 31])) 1)).map ClusterResult.clustering =
    (clustersFromMst lamq (fun _ => 1) ⟨2, .leaf, none, false, 0, 0⟩ (kruskalBrute 6 1 (onLine [0, 1, 3, 7, 15, 31]) CLParams.none)).map ClusterResult.clustering :=
  C109_boruvka_partial 6 (by omega) _ _ (denseCoo_full (onLine_comm _)) (fun i _ => by unfold onLine; simp) (fun i j _ _ => by unfold onLine; exact_mod_cast abs_nonneg _) 1 id
    ⟨monotone_id, fun _ => Iff.rfl⟩ (fun _ _ _ _ h => h) (by decide +kernel) lamq _ _

/-- **C109** needs zeros to be stored: two pairs of identical samples; the zero distances inside the pairs are missing from the graph, as scipy's conversion of a dense matrix leaves them.
The pairs are clusters of the rows; in the graph, every edge has length 5 and nothing is found. -/
theorem C109_zeros_not_stored :
    (clustersFromMst lamq (fun _ => 1) ⟨2, .eom, none, false, 0, 0⟩ (kruskalBrute 4 1 (onLine [0, 0, 5, 5]) CLParams.none)).map ClusterResult.labels = some [1, 1, 0, 0] ∧
    (clustersFromMst lamq (fun _ => 1) ⟨2, .eom, none, false, 0, 0⟩ (preKruskal 4 ((denseCoo 4 (onLine [0, 0, 5, 5])).filter fun e => e.w ≠ 0) 1 CLParams.none)).map ClusterResult.labels =
      some [-1, -1, -1, -1] := ⟨by decide +kernel, by decide +kernel⟩

end Verif
