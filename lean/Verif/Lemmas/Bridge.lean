import Verif.Lemmas.Kruskal
import Verif.Model.KruskalApi

namespace Verif
variable {W : Type*}

theorem compCount_add_length_ge {n : ℕ} {es : List (Edge W)} (hr : InRange n es) :
    n ≤ compCount n es + es.length := by
  induction es using List.reverseRecOn with
  | nil => simp [compCount_nil]
  | append_singleton es e ih =>
    have hr' : InRange n es := fun x hx => hr x (by simp [hx])
    have he := hr e (by simp)
    have := ih hr'
    by_cases hc : Conn es e.u e.v
    · have h1 : compCount n (es ++ [e]) = compCount n es := by
        apply compCount_congr
        intro a b _ _
        rw [Conn.snoc_iff]
        constructor
        · rintro (h | ⟨h1, h2⟩ | ⟨h1, h2⟩)
          · exact h
          · exact (h1.trans hc).trans h2
          · exact (h1.trans hc.symm).trans h2
        · exact Or.inl
      simp only [List.length_append, List.length_cons, List.length_nil]
      omega
    · have := compCount_snoc he.1 he.2 hc
      simp only [List.length_append, List.length_cons, List.length_nil]
      omega

/-- A connected graph with `n - 1` edges has no cycle. -/
theorem acyclic_of_connected {n : ℕ} {es : List (Edge W)} (hr : InRange n es)
    (hc : ∀ a b, a < n → b < n → Conn es a b) (hl : es.length + 1 = n) : Acyclic es := by
  intro l₁ e l₂ heq hcon
  have hr' : InRange n (l₁ ++ l₂) := by
    intro x hx
    apply hr
    rw [heq]
    simp only [List.mem_append, List.mem_cons] at hx ⊢
    tauto
  have h1 := compCount_add_length_ge hr'
  have h2 : compCount n (l₁ ++ l₂) = 1 := by
    apply compCount_eq_one (by omega)
    intro a b ha hb
    refine Conn.of_forall ?_ (hc a b ha hb)
    intro x hx
    rw [heq] at hx
    simp only [List.mem_append, List.mem_cons] at hx
    rcases hx with hx | rfl | hx
    · exact Conn.edge (by simp [hx])
    · exact hcon
    · exact Conn.edge (by simp [hx])
  rw [heq] at hl
  simp only [List.length_append, List.length_cons] at hl h1
  omega

theorem mem_uniqueLabels {n : ℕ} {lab : ℕ → ℕ} {c : ℕ} :
    c ∈ uniqueLabels n lab ↔ ∃ i, i < n ∧ lab i = c := by
  simp [uniqueLabels, List.mem_insertionSort]

theorem nodup_uniqueLabels {n : ℕ} {lab : ℕ → ℕ} : (uniqueLabels n lab).Nodup :=
  (List.perm_insertionSort _ _).nodup_iff.2 (List.nodup_dedup _)

/-- First node carrying a label. -/
theorem find_label {n : ℕ} {lab : ℕ → ℕ} {i : ℕ} (hi : i < n) :
    ∃ m, ((List.range n).find? fun j => lab j = lab i) = some m ∧ m ≤ i ∧ lab m = lab i ∧
      ∀ y < m, lab y ≠ lab i := by
  have hsome : ((List.range n).find? fun j => lab j = lab i).isSome := by
    rw [List.find?_isSome]
    exact ⟨i, by simpa using hi, by simp⟩
  obtain ⟨m, hm⟩ := Option.isSome_iff_exists.1 hsome
  have h1 := hm
  rw [List.find?_range_eq_some] at h1
  have h2 : ∀ y < m, lab y ≠ lab i := by
    intro y hy
    have := h1.2.2 y hy
    simpa using this
  refine ⟨m, hm, ?_, by simpa using h1.1, h2⟩
  by_contra hlt
  exact h2 i (by omega) rfl

theorem bridgeReps_eq (n : ℕ) (lab : ℕ → ℕ) :
    bridgeReps n lab = (List.range n).filter (fun x => ∀ y < x, lab y ≠ lab x) := by
  unfold bridgeReps
  set g : ℕ → ℕ := fun c => ((List.range n).find? fun i => lab i = c).getD 0
  have hg : ∀ i, i < n → g (lab i) ≤ i ∧ lab (g (lab i)) = lab i ∧ ∀ y < g (lab i), lab y ≠ lab i := by
    intro i hi
    obtain ⟨m, h1, h2, h3, h4⟩ := find_label (lab := lab) hi
    simp only [g, h1, Option.getD_some]
    exact ⟨h2, h3, h4⟩
  have hnd : ((uniqueLabels n lab).map g).Nodup := by
    apply List.Nodup.map_on _ nodup_uniqueLabels
    intro c hc d hd hcd
    obtain ⟨i, hi, rfl⟩ := mem_uniqueLabels.1 hc
    obtain ⟨j, hj, rfl⟩ := mem_uniqueLabels.1 hd
    rw [← (hg i hi).2.1, hcd, (hg j hj).2.1]
  have hperm : ((uniqueLabels n lab).map g).Perm
      ((List.range n).filter (fun x => ∀ y < x, lab y ≠ lab x)) := by
    rw [List.perm_ext_iff_of_nodup hnd (List.nodup_range.filter _)]
    intro a
    simp only [List.mem_map, mem_uniqueLabels, List.mem_filter, List.mem_range, decide_eq_true_eq]
    constructor
    · rintro ⟨c, ⟨i, hi, rfl⟩, rfl⟩
      obtain ⟨h1, h2, h3⟩ := hg i hi
      exact ⟨by omega, fun y hy => by rw [h2]; exact h3 y hy⟩
    · rintro ⟨ha, h⟩
      refine ⟨lab a, ⟨a, ha, rfl⟩, ?_⟩
      obtain ⟨h1, h2, h3⟩ := hg a ha
      rcases Nat.lt_or_ge (g (lab a)) a with hlt | hge
      · exact absurd h2 (h _ hlt)
      · omega
  refine ((List.perm_insertionSort _ _).trans hperm).eq_of_pairwise
    (fun a b _ _ h1 h2 => le_antisymm h1 h2) (List.pairwise_insertionSort _ _) ?_
  exact (List.pairwise_le_range).filter _

theorem bridgeReps_length {n : ℕ} {lab : ℕ → ℕ} {f : List (Edge W)}
    (hlab : ∀ i j, i < n → j < n → (lab i = lab j ↔ Conn f i j)) :
    (bridgeReps n lab).length = compCount n f := by
  classical
  rw [bridgeReps_eq]
  unfold compCount
  rw [← List.toFinset_card_of_nodup (List.nodup_range.filter _)]
  congr 1
  ext x
  simp only [List.mem_toFinset, List.mem_filter, List.mem_range, decide_eq_true_eq,
    Finset.mem_filter, Finset.mem_range]
  constructor
  · rintro ⟨hx, h⟩
    exact ⟨hx, fun y hy hc => h y hy ((hlab y x (by omega) hx).2 hc.symm)⟩
  · rintro ⟨hx, h⟩
    exact ⟨hx, fun y hy hc => h y hy ((hlab y x (by omega) hx).1 hc).symm⟩

theorem uniqueLabels_length {n : ℕ} {lab : ℕ → ℕ} {f : List (Edge W)}
    (hlab : ∀ i j, i < n → j < n → (lab i = lab j ↔ Conn f i j)) :
    (uniqueLabels n lab).length = compCount n f := by
  rw [← bridgeReps_length hlab]
  unfold bridgeReps
  rw [List.length_insertionSort, List.length_map]

theorem bridgeEdges_length [LE W] [OrderTop W] (reps : List ℕ) :
    (bridgeEdges (W := W) reps).length = reps.length - 1 := by
  simp [bridgeEdges]

theorem bridgeEdges_cons [LE W] [OrderTop W] (a b : ℕ) (l : List ℕ) :
    bridgeEdges (W := W) (a :: b :: l) = ⟨a, b, ⊤⟩ :: bridgeEdges (b :: l) := by
  simp [bridgeEdges]

theorem bridgeEdges_mem [LE W] [OrderTop W] {reps : List ℕ} {e : Edge W}
    (he : e ∈ bridgeEdges reps) : e.u ∈ reps ∧ e.v ∈ reps ∧ e.w = ⊤ := by
  unfold bridgeEdges at he
  rw [List.mem_map] at he
  obtain ⟨p, hp, rfl⟩ := he
  have := List.of_mem_zip hp
  exact ⟨this.1, List.mem_of_mem_tail this.2, rfl⟩

theorem bridgeEdges_conn [LE W] [OrderTop W] (a : ℕ) (l : List ℕ) {x : ℕ} (hx : x ∈ a :: l) :
    Conn (bridgeEdges (W := W) (a :: l)) a x := by
  induction l generalizing a with
  | nil => simp only [List.mem_singleton] at hx; subst hx; exact Conn.refl _ _
  | cons b l ih =>
    rcases List.mem_cons.1 hx with rfl | hx
    · exact Conn.refl _ _
    · rw [bridgeEdges_cons]
      have h1 : Conn (⟨a, b, ⊤⟩ :: bridgeEdges (W := W) (b :: l)) a b :=
        Conn.edge (e := ⟨a, b, ⊤⟩) (by simp)
      refine h1.trans ((ih b hx).mono fun e he => by simp [he])

/-- Bridging gives a spanning tree. -/
theorem bridgeForest_spec [LE W] [OrderTop W] {n : ℕ} (hn : 0 < n) {f : List (Edge W)} {lab : ℕ → ℕ}
    (hr : InRange n f) (ha : Acyclic f)
    (hlab : ∀ i j, i < n → j < n → (lab i = lab j ↔ Conn f i j)) :
    SpanningTree n (bridgeForest f lab n) ∧
      ∃ b, bridgeForest f lab n = f ++ b ∧ (∀ e ∈ b, e.w = ⊤) ∧ b.length + 1 = compCount n f := by
  have hul := uniqueLabels_length hlab
  have hrl := bridgeReps_length hlab
  have hcnt := ha.length_add_compCount hr
  have hpos := compCount_pos hn (es := f)
  unfold bridgeForest
  split
  · rename_i h1
    refine ⟨⟨hr, ha, fun a b hA hB => conn_of_compCount_le_one (by omega) hA hB⟩, [], by simp,
      by simp, ?_⟩
    simp only [List.length_nil]; omega
  · have hform : (if f.length = 0 then bridgeEdges (W := W) (bridgeReps n lab)
        else f ++ bridgeEdges (bridgeReps n lab)) = f ++ bridgeEdges (bridgeReps n lab) := by
      split
      · rename_i h0
        rw [List.length_eq_zero_iff] at h0
        subst h0; simp
      · rfl
    rw [hform]
    have hmem : ∀ x ∈ bridgeReps n lab, x < n := by
      intro x hx
      rw [bridgeReps_eq] at hx
      simp only [List.mem_filter, List.mem_range] at hx
      exact hx.1
    have hlen : (bridgeEdges (W := W) (bridgeReps n lab)).length + 1 = compCount n f := by
      rw [bridgeEdges_length]; omega
    have hrange : InRange n (f ++ bridgeEdges (W := W) (bridgeReps n lab)) := by
      intro e he
      rcases List.mem_append.1 he with he | he
      · exact hr e he
      · obtain ⟨h1, h2, _⟩ := bridgeEdges_mem he
        exact ⟨hmem _ h1, hmem _ h2⟩
    have hrep : ∀ a, a < n → ∃ m ∈ bridgeReps n lab, Conn f a m := by
      intro a hA
      obtain ⟨m, _, h2, h3, h4⟩ := find_label (lab := lab) hA
      refine ⟨m, ?_, (hlab a m hA (by omega)).1 h3.symm⟩
      rw [bridgeReps_eq]
      simp only [List.mem_filter, List.mem_range, decide_eq_true_eq]
      exact ⟨by omega, fun y hy => by rw [h3]; exact h4 y hy⟩
    have hconn : ∀ a b, a < n → b < n →
        Conn (f ++ bridgeEdges (W := W) (bridgeReps n lab)) a b := by
      intro a b hA hB
      obtain ⟨m, hm, hc⟩ := hrep a hA
      obtain ⟨m', hm', hc'⟩ := hrep b hB
      cases hreps : bridgeReps n lab with
      | nil => rw [hreps] at hm; simp at hm
      | cons r l =>
        rw [hreps] at hm hm'
        have h1 := (bridgeEdges_conn (W := W) r l hm).append_right (es := f)
        have h2 := (bridgeEdges_conn (W := W) r l hm').append_right (es := f)
        exact (hc.append_left.trans (h1.symm.trans h2)).trans hc'.append_left.symm
    refine ⟨⟨hrange, acyclic_of_connected hrange hconn ?_, hconn⟩, _, rfl, ?_, hlen⟩
    · rw [List.length_append]; omega
    · intro e he; exact (bridgeEdges_mem he).2.2

/-! ### Unbridging -/

theorem PForest.halve {n : ℕ} {p : ℕ → ℕ} (hp : PForest n p) (x : ℕ) :
    PForest n (Function.update p x (p (p x))) ∧
      ∀ y, root n (Function.update p x (p (p x))) y = root n p y := by
  have hmain : PForest n (Function.update p x (p (p x))) := by
    refine ⟨?_, ?_, ?_⟩
    · intro y hy
      by_cases h : y = x
      · subst h; rw [Function.update_self]; exact hp.lt _ (hp.lt _ hy)
      · rw [Function.update_of_ne h]; exact hp.lt _ hy
    · intro y hy
      by_cases h : y = x
      · subst h; rw [Function.update_self, hp.out _ hy, hp.out _ hy]
      · rw [Function.update_of_ne h]; exact hp.out _ hy
    · obtain ⟨h, hh⟩ := hp.wf
      refine ⟨h, fun y hy => ?_⟩
      by_cases hyx : y = x
      · subst hyx
        rw [Function.update_self] at hy ⊢
        by_cases h1 : p y = y
        · rw [h1, h1] at hy; exact absurd rfl hy
        · by_cases h2 : p (p y) = p y
          · rw [h2]; exact hh y h1
          · exact (hh y h1).trans (hh _ h2)
      · rw [Function.update_of_ne hyx] at hy ⊢
        exact hh y hy
  refine ⟨hmain, fun y => ?_⟩
  set q := Function.update p x (p (p x)) with hq
  -- the root under p is a fixed point of q, and q-steps preserve p-roots
  have hstep : ∀ y, root n p (q y) = root n p y := by
    intro y
    by_cases h : y = x
    · subst h; rw [hq, Function.update_self, hp.root_parent, hp.root_parent]
    · rw [hq, Function.update_of_ne h, hp.root_parent]
  have hit : ∀ k y, root n p (q^[k] y) = root n p y := by
    intro k
    induction k with
    | zero => intro y; rfl
    | succ k ih => intro y; rw [Function.iterate_succ_apply, ih, hstep]
  obtain ⟨k, _, hk⟩ := chase_iterate q n y
  have h1 : root n p (root n q y) = root n p y := by
    have := hit k y
    rw [hk] at this
    exact this
  have h2 : p (root n q y) = root n q y := by
    have hf := hmain.root_fixed y
    by_contra hne
    by_cases h : root n q y = x
    · rw [h] at hf hne
      rw [hq, Function.update_self] at hf
      obtain ⟨h, hh⟩ := hp.wf
      have a1 := hh x hne
      have hne2 : p (p x) ≠ p x := by rw [hf]; exact fun h => hne h.symm
      have a2 := hh (p x) hne2
      rw [hf] at a2
      omega
    · rw [hq, Function.update_of_ne h] at hf
      exact hne hf
  rw [hp.root_of_fixed h2] at h1
  exact h1


theorem halve_height {p h : ℕ → ℕ} (hh : ∀ x, p x ≠ x → h x < h (p x)) (x : ℕ) :
    ∀ y, Function.update p x (p (p x)) y ≠ y → h y < h (Function.update p x (p (p x)) y) := by
  intro y hy
  by_cases hyx : y = x
  · subst hyx
    rw [Function.update_self] at hy ⊢
    by_cases h1 : p y = y
    · rw [h1, h1] at hy; exact absurd rfl hy
    · by_cases h2 : p (p y) = p y
      · rw [h2]; exact hh y h1
      · exact (hh y h1).trans (hh _ h2)
  · rw [Function.update_of_ne hyx] at hy ⊢
    exact hh y hy

theorem halvingFind_aux {n : ℕ} {h : ℕ → ℕ} (f : ℕ) {p : ℕ → ℕ} (hp : PForest n p)
    (hh : ∀ x, p x ≠ x → h x < h (p x)) (x : ℕ)
    (hc : ((Finset.range n).filter (fun y => h x < h y)).card ≤ f) :
    (halvingFind f p x).2 = root n p x ∧ PForest n (halvingFind f p x).1 ∧
      ∀ y, root n (halvingFind f p x).1 y = root n p y := by
  induction f generalizing p x with
  | zero =>
    have := chase_fixed hp h hh 0 x hc
    simp only [chase] at this
    exact ⟨(hp.root_of_fixed this).symm, hp, fun _ => rfl⟩
  | succ f ih =>
    unfold halvingFind
    split
    · rename_i hne
      obtain ⟨h1, h2⟩ := hp.halve x
      have h3 := halve_height hh x
      have hx : x < n := by
        by_contra hx; exact hne (hp.out x (by omega))
      have hne' : p (p x) ≠ x := by
        intro heq
        have a1 := hh x hne
        have a2 := hh (p x) (by rw [heq]; exact fun h => hne h.symm)
        rw [heq] at a2
        omega
      simp only [Function.update_self]
      have hlt : h x < h (p (p x)) := by
        have := h3 x (by rw [Function.update_self]; exact hne')
        rwa [Function.update_self] at this
      obtain ⟨a, b, c⟩ := ih h1 h3 (p (p x)) (by
        have hm : p (p x) ∈ (Finset.range n).filter (fun y => h x < h y) := by
          simp only [Finset.mem_filter, Finset.mem_range]
          exact ⟨hp.lt _ (hp.lt x hx), hlt⟩
        have hlt : ((Finset.range n).filter (fun y => h (p (p x)) < h y)).card <
            ((Finset.range n).filter (fun y => h x < h y)).card := by
          apply Finset.card_lt_card
          refine ⟨?_, fun hsub => ?_⟩
          · intro y hy
            simp only [Finset.mem_filter] at hy ⊢
            exact ⟨hy.1, hlt.trans hy.2⟩
          · have := hsub hm
            simp at this
        omega)
      refine ⟨?_, b, fun y => by rw [c, h2]⟩
      rw [a, h2, hp.root_parent, hp.root_parent]
    · rename_i hne
      push Not at hne
      exact ⟨(hp.root_of_fixed hne).symm, hp, fun _ => rfl⟩

theorem halvingFind_spec {n : ℕ} {p : ℕ → ℕ} (hp : PForest n p) (x : ℕ) :
    (halvingFind n p x).2 = root n p x ∧ PForest n (halvingFind n p x).1 ∧
      ∀ y, root n (halvingFind n p x).1 y = root n p y := by
  obtain ⟨h, hh⟩ := hp.wf
  exact halvingFind_aux n hp hh x ((Finset.card_filter_le _ _).trans (by simp))

/-- The parent array represents connectivity of the edges processed so far (which need not be
acyclic). -/
structure RepConn (n : ℕ) (p : ℕ → ℕ) (es : List (Edge W)) : Prop where
  forest : PForest n p
  conn : ∀ x y, root n p x = root n p y ↔ Conn es x y

theorem unbridgeStep_spec {n : ℕ} {p : ℕ → ℕ} {es : List (Edge W)} {e : Edge W}
    (h : RepConn n p es) (hu : e.u < n) (hv : e.v < n) :
    RepConn n (unbridgeStep n p e) (es ++ [e]) := by
  obtain ⟨h1, h2, h3⟩ := halvingFind_spec h.forest e.u
  obtain ⟨h4, h5, h6⟩ := halvingFind_spec h2 e.v
  unfold unbridgeStep
  simp only
  rw [h3] at h4
  have hroot : ∀ y, root n (halvingFind n (halvingFind n p e.u).1 e.v).1 y = root n p y :=
    fun y => by rw [h6, h3]
  rw [h1, h4]
  split
  · rename_i hne
    set q := (halvingFind n (halvingFind n p e.u).1 e.v).1
    have fa : q (root n p e.u) = root n p e.u := by rw [← hroot]; exact h5.root_fixed _
    have fb : q (root n p e.v) = root n p e.v := by rw [← hroot]; exact h5.root_fixed _
    have la := h.forest.root_lt hu
    have lb := h.forest.root_lt hv
    refine ⟨h5.link fa fb hne la lb, fun x y => ?_⟩
    rw [h5.root_link fa fb hne la lb, h5.root_link fa fb hne la lb, hroot, hroot, Conn.snoc_iff,
      ← h.conn, ← h.conn, ← h.conn, ← h.conn, ← h.conn]
    generalize root n p x = a at *
    generalize root n p y = b at *
    generalize root n p e.u = c at *
    generalize root n p e.v = d at *
    split_ifs <;> omega
  · rename_i heq
    push Not at heq
    refine ⟨h5, fun x y => ?_⟩
    rw [hroot, hroot, Conn.snoc_iff, ← h.conn, ← h.conn, ← h.conn, ← h.conn, ← h.conn]
    omega

theorem unbridge_fold {n : ℕ} {es : List (Edge W)} (hr : InRange n es) :
    RepConn n (es.foldl (unbridgeStep n) fun x => x) es := by
  induction es using List.reverseRecOn with
  | nil =>
    refine ⟨PForest.id n, fun x y => ?_⟩
    have := (Represents.id (W := W) n).conn x y
    exact this
  | append_singleton es e ih =>
    have hr' : InRange n es := fun x hx => hr x (by simp [hx])
    have he := hr e (by simp)
    rw [List.foldl_append]
    exact unbridgeStep_spec (ih hr') he.1 he.2

theorem unbridgeRoots_spec {n : ℕ} {p : ℕ → ℕ} (hp : PForest n p) (k : ℕ) :
    (unbridgeRoots n p k).2 = (List.range k).map (root n p) ∧
      PForest n (unbridgeRoots n p k).1 ∧ ∀ y, root n (unbridgeRoots n p k).1 y = root n p y := by
  induction k with
  | zero => exact ⟨rfl, hp, fun _ => rfl⟩
  | succ k ih =>
    obtain ⟨h1, h2, h3⟩ := ih
    obtain ⟨h4, h5, h6⟩ := halvingFind_spec h2 k
    simp only [unbridgeRoots]
    refine ⟨?_, h5, fun y => by rw [h6, h3]⟩
    rw [h1, h4, h3, List.range_succ, List.map_append]
    rfl

end Verif
