import Verif.Lemmas.Precomputed
import Verif.Lemmas.Safe
import Mathlib.Data.Finset.Max

namespace Verif
variable {W : Type*}

/-! ### Changing weights -/

theorem adj_mapW {V : Type*} (f : W → V) (l : List (Edge W)) (a b : ℕ) : Adj (l.map (Edge.mapW f)) a b ↔ Adj l a b := by
  unfold Adj
  simp only [List.mem_map]
  constructor
  · rintro ⟨_, ⟨e, he, rfl⟩, h⟩; exact ⟨e, he, h⟩
  · rintro ⟨e, he, h⟩; exact ⟨_, ⟨e, he, rfl⟩, h⟩

theorem conn_mapW {V : Type*} (f : W → V) (l : List (Edge W)) (a b : ℕ) : Conn (l.map (Edge.mapW f)) a b ↔ Conn l a b := by
  unfold Conn
  rw [show Adj (l.map (Edge.mapW f)) = Adj l from by
    funext a b; exact propext (adj_mapW f l a b)]

theorem acyclic_mapW {V : Type*} (f : W → V) (l : List (Edge W)) : Acyclic (l.map (Edge.mapW f)) ↔ Acyclic l := by
  constructor
  · intro h l₁ e l₂ hl hc
    refine h (l₁.map (Edge.mapW f)) (e.mapW f) (l₂.map (Edge.mapW f)) (by rw [hl]; simp) ?_
    rw [← List.map_append, conn_mapW]; exact hc
  · intro h l₁ e l₂ hl hc
    rw [List.map_eq_append_iff] at hl
    obtain ⟨m₁, m', rfl, rfl, h2⟩ := hl
    rw [List.map_eq_cons_iff] at h2
    obtain ⟨d, m₂, rfl, rfl, rfl⟩ := h2
    rw [← List.map_append, conn_mapW] at hc
    exact h m₁ d m₂ rfl hc

theorem inRange_mapW {V : Type*} {n : ℕ} (f : W → V) (l : List (Edge W)) : InRange n (l.map (Edge.mapW f)) ↔ InRange n l := by
  unfold InRange
  simp only [List.mem_map, forall_exists_index, and_imp, forall_apply_eq_imp_iff₂]
  rfl

theorem spanningTree_mapW {V : Type*} {n : ℕ} (f : W → V) (l : List (Edge W)) :
    SpanningTree n (l.map (Edge.mapW f)) ↔ SpanningTree n l :=
  ⟨fun h => ⟨(inRange_mapW f l).1 h.inRange, (acyclic_mapW f l).1 h.acyclic, fun a b ha hb =>
    (conn_mapW f l a b).1 (h.conn a b ha hb)⟩,
  fun h => ⟨(inRange_mapW f l).2 h.inRange, (acyclic_mapW f l).2 h.acyclic, fun a b ha hb =>
    (conn_mapW f l a b).2 (h.conn a b ha hb)⟩⟩

theorem compCount_mapW {n : ℕ} (f : W → W) (l : List (Edge W)) :
    compCount n (l.map (Edge.mapW f)) = compCount n l := compCount_congr fun a b _ _ => conn_mapW f l a b

/-- Which spanning forests there are depends only on which edges there are. -/
theorem SpanningForest.congr_mem {g g' f : List (Edge W)} (hg : ∀ e, e ∈ g ↔ e ∈ g') (h : SpanningForest g f) :
    SpanningForest g' f := by
  refine ⟨List.subperm_of_subset h.acyclic.nodup fun e he => (hg e).1 (h.sub.subset he), h.acyclic, fun a b => ?_⟩
  rw [h.conn]
  exact ⟨Conn.mono fun e he => (hg e).1 he, Conn.mono fun e he => (hg e).2 he⟩

theorem MinSpanningForest.congr_mem [LinearOrder W] {g g' f : List (Edge W)} (hg : ∀ e, e ∈ g ↔ e ∈ g')
    (h : MinSpanningForest g f) : MinSpanningForest g' f :=
  ⟨h.forest.congr_mem hg, fun f' hf' => h.minimal f' (hf'.congr_mem fun e => (hg e).symm)⟩

/-- Rounding keeps minimum spanning forests. -/
theorem MinSpanningForest.mapW {V : Type*} [LinearOrder W] [LinearOrder V] {g f : List (Edge W)} {rnd : W → V}
    (hm : Monotone rnd) (h : MinSpanningForest g f) :
    MinSpanningForest (g.map (Edge.mapW rnd)) (f.map (Edge.mapW rnd)) := by
  have ha := (acyclic_mapW rnd f).2 h.forest.acyclic
  refine minSpanningForest_of_threshold ⟨?_, ha, fun a b => ?_⟩ ?_
  · refine List.subperm_of_subset ha.nodup fun e he => ?_
    obtain ⟨d, hd, rfl⟩ := List.mem_map.1 he
    exact List.mem_map_of_mem (h.forest.sub.subset hd)
  · rw [conn_mapW, conn_mapW]; exact h.forest.conn a b
  · intro e he
    obtain ⟨d, hd, rfl⟩ := List.mem_map.1 he
    have h1 := (conn_mapW rnd _ _ _).2 (h.threshold d hd)
    refine h1.mono fun x hx => ?_
    obtain ⟨y, hy, rfl⟩ := List.mem_map.1 hx
    rw [mem_upTo] at hy ⊢
    exact ⟨List.mem_map_of_mem hy.1, hm hy.2⟩

/-! ### Core distances -/

section
variable [LinearOrder W]

theorem nbrCount_row {n : ℕ} {coo : List (Edge W)} (hr : InRange n coo) (i : ℕ) (P : W → Prop) [DecidablePred P] :
    nbrCount n coo i P = (((symmetrizeMin n coo).row i).filter fun p => decide (P p.2)).length := by
  obtain ⟨h1, h2⟩ := symmetrize_row hr i
  unfold nbrCount
  have hnd : ((((symmetrizeMin n coo).row i).filter fun p => decide (P p.2)).map Prod.fst).Nodup :=
    h2.sublist (List.filter_sublist.map _)
  rw [← List.length_map (f := Prod.fst), ← List.toFinset_card_of_nodup hnd]
  congr 1
  ext j
  simp only [Finset.mem_filter, Finset.mem_range, List.mem_toFinset, List.mem_map, List.mem_filter, decide_eq_true_eq]
  constructor
  · rintro ⟨_, w, hd, hP⟩; exact ⟨(j, w), ⟨(h1 j w).2 hd, hP⟩, rfl⟩
  · rintro ⟨⟨j', w⟩, ⟨hm, hP⟩, rfl⟩
    have hd := (h1 _ _).1 hm
    exact ⟨(hd.lt hr).2, w, hd, hP⟩

theorem sortRow_sorted (row : List (ℕ × W)) : (sortRow row).Pairwise fun a b => a.2 ≤ b.2 := by
  have : Std.Total fun a b : ℕ × W => a.2 ≤ b.2 := ⟨fun a b => le_total _ _⟩
  have : IsTrans (ℕ × W) fun a b => a.2 ≤ b.2 := ⟨fun _ _ _ h1 h2 => le_trans h1 h2⟩
  exact List.pairwise_insertionSort _ _

theorem sortRow_perm (row : List (ℕ × W)) : (sortRow row).Perm row := List.perm_insertionSort _ _

/-- The entry at position `k` of a sorted list is its `k+1`-st smallest. -/
theorem sorted_kth {s : List (ℕ × W)} (hs : s.Pairwise fun a b => a.2 ≤ b.2) {k : ℕ} (hk : k < s.length) :
    (s.filter fun p => decide (p.2 < s[k].2)).length ≤ k ∧ k < (s.filter fun p => decide (p.2 ≤ s[k].2)).length := by
  rw [List.pairwise_iff_getElem] at hs
  have hmono : ∀ i j (hi : i < s.length) (hj : j < s.length), i ≤ j → s[i].2 ≤ s[j].2 := by
    intro i j hi hj hij
    rcases Nat.lt_or_eq_of_le hij with h | rfl
    · exact hs i j hi hj h
    · exact le_refl _
  generalize hx : s[k].2 = x
  constructor
  · conv_lhs => rw [← List.take_append_drop k s]
    rw [List.filter_append, List.length_append]
    have h2 : (s.drop k).filter (fun p => decide (p.2 < x)) = [] := by
      rw [List.filter_eq_nil_iff]
      intro p hp
      obtain ⟨m, hm, rfl⟩ := List.getElem_of_mem hp
      rw [List.getElem_drop]
      simp only [decide_eq_true_eq, not_lt]
      subst hx
      rw [List.length_drop] at hm
      exact hmono _ _ hk (by omega) (by omega)
    rw [h2, List.length_nil, Nat.add_zero]
    exact (List.length_filter_le _ _).trans (by rw [List.length_take]; omega)
  · conv_rhs => rw [← List.take_append_drop (k + 1) s]
    rw [List.filter_append, List.length_append]
    have h2 : (s.take (k + 1)).filter (fun p => decide (p.2 ≤ x)) = s.take (k + 1) := by
      rw [List.filter_eq_self]
      intro p hp
      obtain ⟨m, hm, rfl⟩ := List.getElem_of_mem hp
      rw [List.getElem_take]
      rw [List.length_take] at hm
      simp only [decide_eq_true_eq]
      subst hx
      exact hmono _ _ (by omega) hk (by omega)
    rw [h2, List.length_take]
    omega

variable [OrderTop W] [Zero W]

theorem csrCore_spec {n : ℕ} {coo : List (Edge W)} (hr : InRange n coo) (k i : ℕ) :
    IsCoreDist n coo k i (csrCore k ((symmetrizeMin n coo).row i)) := by
  obtain ⟨h1, _⟩ := symmetrize_row hr i
  unfold IsCoreDist csrCore
  rw [nbrCount_row hr i (fun _ => True)]
  have hf : (((symmetrizeMin n coo).row i).filter fun _ => decide True) = (symmetrizeMin n coo).row i := by simp
  rw [hf]
  set row := (symmetrizeMin n coo).row i with hrow
  by_cases hk : k ≤ 1
  · rw [if_pos hk]
    split
    · rw [if_neg (by omega)]
    · rw [if_neg (by omega)]
  · rw [if_neg hk]
    by_cases hlen : row.length < k
    · rw [if_pos hlen]
      split
      · rw [if_pos (by omega)]
      · rw [if_pos (by omega), if_neg (by omega)]
    · rw [if_neg hlen, if_neg (by omega), if_pos (by omega), if_pos (by omega)]
      have hsl : (sortRow row).length = row.length := (sortRow_perm row).length_eq
      have hk' : k - 1 < (sortRow row).length := by omega
      rw [List.getElem?_eq_getElem hk']
      simp only [Option.map_some, Option.getD_some]
      have hmem : (sortRow row)[k - 1] ∈ row := (sortRow_perm row).mem_iff.1 (List.getElem_mem hk')
      have hd := (h1 _ _).1 hmem
      obtain ⟨ha, hb⟩ := sorted_kth (sortRow_sorted row) hk'
      refine ⟨⟨_, (hd.lt hr).2, hd⟩, ?_, ?_⟩
      · rw [nbrCount_row hr, ← ((sortRow_perm row).filter _).length_eq]
        omega
      · rw [nbrCount_row hr, ← ((sortRow_perm row).filter _).length_eq]
        omega

omit [OrderTop W] [Zero W] in
theorem KthNearest.unique {n : ℕ} {coo : List (Edge W)} {i k : ℕ} {x y : W} (hx : KthNearest n coo i k x)
    (hy : KthNearest n coo i k y) : x = y := by
  classical
  have key : ∀ {x y : W}, KthNearest n coo i k x → KthNearest n coo i k y → ¬ x < y := by
    intro x y hx hy hlt
    have h : nbrCount n coo i (· ≤ x) ≤ nbrCount n coo i (· < y) := by
      unfold nbrCount
      refine Finset.card_le_card fun j hj => ?_
      simp only [Finset.mem_filter] at hj ⊢
      obtain ⟨h1, w, h2, h3⟩ := hj
      exact ⟨h1, w, h2, lt_of_le_of_lt h3 hlt⟩
    have := hx.2.2
    have := hy.2.1
    omega
  exact le_antisymm (not_lt.1 (key hy hx)) (not_lt.1 (key hx hy))

theorem IsCoreDist.unique {n : ℕ} {coo : List (Edge W)} {i k : ℕ} {x y : W} (hx : IsCoreDist n coo k i x)
    (hy : IsCoreDist n coo k i y) : x = y := by
  unfold IsCoreDist at hx hy
  split at hx
  · rename_i h; rw [if_pos h] at hy; rw [hx, hy]
  · rename_i h
    rw [if_neg h] at hy
    split at hx
    · rename_i h'; rw [if_pos h'] at hy; rw [hx, hy]
    · rename_i h'; rw [if_neg h'] at hy; exact hx.unique hy

/-! ### Mutual reachability edges -/

/-- The core distances of the two routines. -/
def preCd (n : ℕ) (coo : List (Edge W)) (k i : ℕ) : W := csrCore k ((symmetrizeMin n coo).row i)

omit [OrderTop W] [Zero W] in
theorem mrdW_eq (a b d : W) : mrdW a b d = max (max a b) d := by
  unfold mrdW
  simp only [gt_iff_lt]
  rcases lt_or_ge a b with h | h
  · rw [if_pos h, max_eq_right h.le]
    split
    · rename_i h'; rw [max_eq_right h'.le]
    · rename_i h'; rw [max_eq_left (not_lt.1 h')]
  · rw [if_neg (not_lt.2 h), max_eq_left h]
    split
    · rename_i h'; rw [max_eq_right h'.le]
    · rename_i h'; rw [max_eq_left (not_lt.1 h')]

theorem isMrd_iff {n : ℕ} {coo : List (Edge W)} (hr : InRange n coo) (k : ℕ) (e : Edge W) :
    IsMrd n coo k e ↔ ∃ d, IsDist coo e.u e.v d ∧ e.w = max (max (preCd n coo k e.u) (preCd n coo k e.v)) d := by
  constructor
  · rintro ⟨ci, cj, d, h1, h2, h3, h4⟩
    refine ⟨d, h3, ?_⟩
    rw [h4, h1.unique (csrCore_spec hr k e.u), h2.unique (csrCore_spec hr k e.v)]; rfl
  · rintro ⟨d, h3, h4⟩
    exact ⟨_, _, d, csrCore_spec hr k e.u, csrCore_spec hr k e.v, h3, h4⟩

theorem mem_csrEdges {n : ℕ} {coo : List (Edge W)} (hr : InRange n coo) (k : ℕ) (e : Edge W) :
    e ∈ csrEdges n (fun i => (symmetrizeMin n coo).row i) (preCd n coo k) ↔ IsMrd n coo k e := by
  rw [isMrd_iff hr]
  unfold csrEdges
  simp only [List.mem_flatMap, List.mem_range, List.mem_map]
  constructor
  · rintro ⟨i, hi, ⟨j, w⟩, hp, rfl⟩
    exact ⟨w, ((symmetrize_row hr i).1 j w).1 hp, mrdW_eq _ _ _⟩
  · rintro ⟨d, hd, hw⟩
    refine ⟨e.u, (hd.lt hr).1, (e.v, d), ((symmetrize_row hr _).1 _ _).2 hd, ?_⟩
    rw [mrdW_eq, ← hw]

theorem IsMrd.inRange {n : ℕ} {coo : List (Edge W)} (hr : InRange n coo) {k : ℕ} {g : List (Edge W)}
    (hg : ∀ e, e ∈ g ↔ IsMrd n coo k e) : InRange n g := by
  intro e he
  obtain ⟨_, _, d, _, _, h, _⟩ := (hg e).1 he
  exact h.lt hr

/-! ### The Kruskal routine -/

theorem preKruskal_spec {n : ℕ} (hn : 0 < n) {coo : List (Edge W)} (hr : InRange n coo) (k : ℕ) {g : List (Edge W)}
    (hg : ∀ e, e ∈ g ↔ IsMrd n coo k e) :
    ∃ F b, preKruskal n coo k CLParams.none = F ++ b ∧ MinSpanningForest g F ∧ (∀ e ∈ b, e.w = ⊤) ∧
      b.length + 1 = compCount n g ∧ SpanningTree n (F ++ b) := by
  set es := csrEdges n (fun i => (symmetrizeMin n coo).row i) (preCd n coo k) with hes
  have hmem : ∀ e, e ∈ es ↔ e ∈ g := fun e => (mem_csrEdges hr k e).trans (hg e).symm
  have hre : InRange n es := fun e he => IsMrd.inRange hr hg e ((hmem e).1 he)
  obtain ⟨hm, _⟩ := kruskal_msf hre
  have hmg := hm.congr_mem hmem
  have hinv := kruskalCore_inv (sortEdges_inRange hre)
  set s := kruskalCore n (sortEdges es) with hs
  have hlab : ∀ i j, i < n → j < n → (componentLabel n s.pred i = componentLabel n s.pred j ↔ Conn s.mst i j) := by
    intro i j _ _
    rw [componentLabel_eq hinv.rep.forest, componentLabel_eq hinv.rep.forest, hinv.rep.conn]
  have hcc : compCount n s.mst = compCount n g := compCount_congr fun a b _ _ => hmg.forest.conn a b
  have hrs : InRange n s.mst := fun e he => IsMrd.inRange hr hg e (hmg.forest.sub.subset he)
  obtain ⟨ht, b, hb, htop, hlen⟩ := bridgeForest_spec hn hrs hmg.forest.acyclic hlab
  have hul := uniqueLabels_length hlab
  have hval : preKruskal n coo k CLParams.none =
      if 1 < (uniqueLabels n (componentLabel n s.pred)).length then bridgeForest s.mst (componentLabel n s.pred) n
      else s.mst := rfl
  rw [hval]
  split
  · exact ⟨s.mst, b, hb, hmg, htop, by omega, hb ▸ ht⟩
  · have hb0 : b = [] := List.length_eq_zero_iff.1 (by omega)
    subst hb0
    exact ⟨s.mst, [], by simp, hmg, by simp, by omega, hb ▸ ht⟩

/-! ### The Borůvka routine -/

omit [OrderTop W] [Zero W] in
theorem exists_isDist {coo : List (Edge W)} {i j : ℕ} {w : W} (hij : i ≠ j) (h : Stored coo i j w) :
    ∃ w', IsDist coo i j w' := by
  classical
  set l := coo.filter fun e => decide ((e.u = i ∧ e.v = j) ∨ (e.u = j ∧ e.v = i)) with hl
  have hmem : ∀ w', Stored coo i j w' ↔ w' ∈ (l.map Edge.w).toFinset := by
    intro w'
    rw [List.mem_toFinset, List.mem_map]
    constructor
    · rintro (h | h)
      · exact ⟨_, List.mem_filter.2 ⟨h, by simp⟩, rfl⟩
      · exact ⟨_, List.mem_filter.2 ⟨h, by simp⟩, rfl⟩
    · rintro ⟨e, he, rfl⟩
      obtain ⟨h1, h2⟩ := List.mem_filter.1 he
      simp only [decide_eq_true_eq] at h2
      rcases h2 with ⟨rfl, rfl⟩ | ⟨rfl, rfl⟩
      · exact Or.inl h1
      · exact Or.inr h1
  obtain ⟨m, hm, hmin⟩ := Finset.exists_min_image (l.map Edge.w).toFinset id ⟨w, (hmem w).1 h⟩
  exact ⟨m, hij, (hmem m).2 hm, fun w' hw' => hmin w' ((hmem w').1 hw')⟩

omit [OrderTop W] [Zero W] in
theorem row_nil_iff {n : ℕ} {coo : List (Edge W)} (hr : InRange n coo) (i : ℕ) :
    (symmetrizeMin n coo).row i = [] ↔ Isolated coo i := by
  constructor
  · intro h j w hij hs
    obtain ⟨w', hd⟩ := exists_isDist hij hs
    have := ((symmetrize_row hr i).1 j w').2 hd
    rw [h] at this; simp at this
  · intro h
    rw [List.eq_nil_iff_forall_not_mem]
    rintro ⟨j, w⟩ hm
    have := ((symmetrize_row hr i).1 j w).1 hm
    exact h j w this.1 this.2.1

omit [OrderTop W] [Zero W] in
theorem coreGraphRow_perm (rnd : W → W) (cd : ℕ → W) (i : ℕ) (row : List (ℕ × W)) :
    (coreGraphRow rnd cd i row).Perm (row.map fun p => (p.1, rnd (max (max (cd i) (cd p.1)) p.2))) :=
  (sortRow_perm _).trans (List.perm_insertionSort _ _)

omit [OrderTop W] [Zero W] in
theorem build_rows {n : ℕ} {coo : List (Edge W)} (hr : InRange n coo) (rnd : W → W) (cd : ℕ → W) :
    let B := buildCoreGraph rnd n (symmetrizeMin n coo) cd
    (∀ i < n, B.row i = coreGraphRow rnd cd i ((symmetrizeMin n coo).row i)) ∧ B.ent.length = (symmetrizeMin n coo).ent.length := by
  intro B
  have hm := symmetrize_mono n coo
  have hl := symmetrize_last hr
  obtain ⟨h1, h2⟩ := row_flatMap (n := n) (fun i => coreGraphRow rnd cd i ((symmetrizeMin n coo).row i))
    (symmetrizeMin n coo).indptr (symmetrize_zero n coo) (fun i hi => by
      have h3 := (coreGraphRow_perm rnd cd i ((symmetrizeMin n coo).row i)).length_eq
      rw [List.length_map] at h3
      rw [h3, Csr.row_length hm hl hi]
      have := hm (Nat.le_succ i)
      simp only [Nat.succ_eq_add_one] at this
      omega)
  exact ⟨h2, (h1 n le_rfl).trans hl⟩

omit [OrderTop W] [Zero W] in
theorem mem_build {n : ℕ} {coo : List (Edge W)} (hr : InRange n coo) (rnd : W → W) (cd : ℕ → W) {i : ℕ} (hi : i < n)
    (p : ℕ × W) : p ∈ (buildCoreGraph rnd n (symmetrizeMin n coo) cd).row i ↔
      ∃ d, IsDist coo i p.1 d ∧ p.2 = rnd (max (max (cd i) (cd p.1)) d) := by
  rw [(build_rows hr rnd cd).1 i hi, (coreGraphRow_perm _ _ _ _).mem_iff, List.mem_map]
  constructor
  · rintro ⟨⟨j, w⟩, hm, rfl⟩
    exact ⟨w, ((symmetrize_row hr i).1 j w).1 hm, rfl⟩
  · rintro ⟨d, hd, hw⟩
    refine ⟨(p.1, d), ((symmetrize_row hr i).1 _ _).2 hd, ?_⟩
    rw [← hw]

omit [OrderTop W] [Zero W] in
theorem build_sortedSym {n : ℕ} {coo : List (Edge W)} (hr : InRange n coo) (rnd : W → W) (cd : ℕ → W) :
    (buildCoreGraph rnd n (symmetrizeMin n coo) cd).SortedSym n := by
  refine ⟨symmetrize_mono n coo, ?_, fun i hi p hp => ?_, fun i hi => ?_, fun i hi p hp => ?_⟩
  · rw [(build_rows hr rnd cd).2]; exact symmetrize_last hr
  · obtain ⟨d, hd, _⟩ := (mem_build hr rnd cd hi p).1 hp
    exact ⟨(hd.lt hr).2, hd.1.symm⟩
  · rw [(build_rows hr rnd cd).1 i hi]; exact sortRow_sorted _
  · obtain ⟨d, hd, hw⟩ := (mem_build hr rnd cd hi p).1 hp
    refine (mem_build hr rnd cd (hd.lt hr).2 _).2 ⟨d, hd.symm, ?_⟩
    rw [hw, max_comm (cd i)]

omit [OrderTop W] [Zero W] in
theorem build_noGaps {n : ℕ} {coo : List (Edge W)} (hr : InRange n coo) (rnd : W → W) (cd : ℕ → W)
    (hiso : ∀ i j, i ≤ j → j < n → Isolated coo i → Isolated coo j) :
    (buildCoreGraph rnd n (symmetrizeMin n coo) cd).NoGaps n := by
  intro i hi hrow
  rw [(build_rows hr rnd cd).2, ← symmetrize_last hr]
  rw [(build_rows hr rnd cd).1 i hi] at hrow
  have h0 : (symmetrizeMin n coo).row i = [] := by
    have := (coreGraphRow_perm rnd cd i ((symmetrizeMin n coo).row i)).length_eq
    rw [hrow, List.length_map] at this
    exact List.length_eq_zero_iff.1 this.symm
  have hI := (row_nil_iff hr i).1 h0
  show (symmetrizeMin n coo).indptr i = (symmetrizeMin n coo).indptr n
  have hstep : ∀ m, i ≤ m → m ≤ n → (symmetrizeMin n coo).indptr m = (symmetrizeMin n coo).indptr i := by
    intro m hm
    induction m, hm using Nat.le_induction with
    | base => intro _; rfl
    | succ m hm ih =>
      intro hmn
      have h1 := (row_nil_iff hr m).2 (hiso i m hm (by omega) hI)
      have h2 := Csr.row_length (symmetrize_mono n coo) (symmetrize_last hr) (i := m) (by omega)
      rw [h1, List.length_nil] at h2
      have h3 := symmetrize_mono n coo (Nat.le_succ m)
      simp only [Nat.succ_eq_add_one] at h3
      have := ih (by omega)
      omega
  exact (hstep n hi.le le_rfl).symm

theorem find_row {n : ℕ} {coo : List (Edge W)} (hr : InRange n coo) {i j : ℕ} {d : W} (hd : IsDist coo i j d) :
    (((symmetrizeMin n coo).row i).find? fun p => p.1 = j) = some (j, d) := by
  have hm := ((symmetrize_row hr i).1 j d).2 hd
  cases hf : ((symmetrizeMin n coo).row i).find? fun p => decide (p.1 = j) with
  | none =>
    rw [List.find?_eq_none] at hf
    exact absurd (by simp) (hf _ hm)
  | some q =>
    have h1 := List.find?_some hf
    have h2 := List.mem_of_find?_eq_some hf
    simp only [decide_eq_true_eq] at h1
    obtain ⟨j', w⟩ := q
    simp only at h1
    subst h1
    have h3 := ((symmetrize_row hr i).1 j' w).1 h2
    rw [h3.unique hd]

theorem preBoruvka_spec {n : ℕ} (hn : 0 < n) {coo : List (Edge W)} (hr : InRange n coo) {rnd : W → W} (hrnd : Rounding rnd)
    (k : ℕ) (hiso : ∀ i j, i ≤ j → j < n → Isolated coo i → Isolated coo j) {g : List (Edge W)}
    (hg : ∀ e, e ∈ g ↔ IsMrd n coo k e) :
    ∃ F b, preBoruvka rnd n coo k = F ++ b ∧ SpanningForest g F ∧
      MinSpanningForest (g.map (Edge.mapW rnd)) (F.map (Edge.mapW rnd)) ∧ (∀ e ∈ b, e.w = ⊤) ∧
      b.length + 1 = compCount n g ∧ SpanningTree n (F ++ b) := by
  set c := symmetrizeMin n coo with hc
  set B := buildCoreGraph rnd n c (preCd n coo k) with hB
  obtain ⟨hrun, hdone, hri, hlab, hcnt⟩ := boruvkaMst_spec (build_sortedSym hr rnd (preCd n coo k))
    (build_noGaps hr rnd (preCd n coo k) hiso)
  rw [← hc, ← hB] at hrun hdone hri hlab hcnt
  set r := boruvkaMst n B with hrdef
  have hmem : ∀ e, e ∈ B.graph n ↔ e ∈ g.map (Edge.mapW rnd) := by
    intro e
    rw [Csr.mem_graph, List.mem_map]
    constructor
    · rintro ⟨hu, hm⟩
      obtain ⟨d, hd, hw⟩ := (mem_build hr rnd _ hu _).1 hm
      refine ⟨⟨e.u, e.v, max (max (preCd n coo k e.u) (preCd n coo k e.v)) d⟩, (hg _).2 ((isMrd_iff hr k _).2 ⟨d, hd, rfl⟩), ?_⟩
      unfold Edge.mapW
      simp only at hw ⊢
      rw [← hw]
    · rintro ⟨e0, he0, rfl⟩
      obtain ⟨d, hd, hw⟩ := (isMrd_iff hr k _).1 ((hg _).1 he0)
      refine ⟨(hd.lt hr).1, (mem_build hr rnd _ (hd.lt hr).1 _).2 ⟨d, hd, ?_⟩⟩
      unfold Edge.mapW
      simp only
      rw [hw]
  have hms := (hrun.safe.minSpanningForest hdone).congr_mem hmem
  have hpatch : ∀ e0 ∈ g, patchEdge c (preCd n coo k) (e0.mapW rnd) = e0 := by
    intro e0 he0
    obtain ⟨d, hd, hw⟩ := (isMrd_iff hr k _).1 ((hg _).1 he0)
    unfold patchEdge
    split
    · rename_i htop
      have h1 : e0.w = ⊤ := (hrnd.top _).1 htop
      have h2 : rnd e0.w = e0.w := by rw [(hrnd.top _).2 h1, h1]
      unfold Edge.mapW
      rw [h2]
    · have hf := find_row hr hd
      unfold Edge.mapW
      simp only
      rw [← hc] at hf
      rw [hf]
      simp only [Option.map_some, Option.getD_some]
      rw [← hw]
  set F := r.2.2.map (patchEdge c (preCd n coo k)) with hF
  have hFr : F.map (Edge.mapW rnd) = r.2.2 := by
    rw [hF, List.map_map]
    conv_rhs => rw [← List.map_id r.2.2]
    apply List.map_congr_left
    intro e he
    obtain ⟨e0, he0, rfl⟩ := List.mem_map.1 (hms.forest.sub.subset he)
    simp only [Function.comp, id]
    rw [hpatch e0 he0]
  have hFg : ∀ e ∈ F, e ∈ g := by
    intro e he
    obtain ⟨e', he', rfl⟩ := List.mem_map.1 he
    obtain ⟨e0, he0, rfl⟩ := List.mem_map.1 (hms.forest.sub.subset he')
    rw [hpatch e0 he0]; exact he0
  rw [← hFr] at hms
  have hconn : ∀ a b, Conn F a b ↔ Conn g a b := fun a b => by
    rw [← conn_mapW rnd F, ← conn_mapW rnd g]; exact hms.forest.conn a b
  have hac := (acyclic_mapW rnd F).1 hms.forest.acyclic
  have hsf : SpanningForest g F := ⟨List.subperm_of_subset hac.nodup hFg, hac, hconn⟩
  have hcc : compCount n r.2.2 = compCount n g := by
    rw [← hFr, compCount_mapW]; exact compCount_congr fun a b _ _ => hconn a b
  have hacr : Acyclic r.2.2 := by rw [← hFr]; exact hms.forest.acyclic
  obtain ⟨ht, b, hb, htop, hlen⟩ := bridgeForest_spec hn hri hacr (lab := r.2.1) fun i j _ _ => hlab i j
  have hbp : b.map (patchEdge c (preCd n coo k)) = b := by
    conv_rhs => rw [← List.map_id b]
    apply List.map_congr_left
    intro e he
    unfold patchEdge
    rw [if_pos (htop e he)]; rfl
  have hbm : b.map (Edge.mapW rnd) = b := by
    conv_rhs => rw [← List.map_id b]
    apply List.map_congr_left
    intro e he
    unfold Edge.mapW
    rw [(hrnd.top _).2 (htop e he), ← htop e he]; rfl
  have htree : SpanningTree n (F ++ b) := by
    rw [← spanningTree_mapW rnd, List.map_append, hFr, hbm, ← hb]; exact ht
  have hval : preBoruvka rnd n coo k =
      (if 1 < r.1 then bridgeForest r.2.2 r.2.1 n else r.2.2).map (patchEdge c (preCd n coo k)) := rfl
  rw [hval]
  split
  · exact ⟨F, b, by rw [hb, List.map_append, hbp], hsf, hms, htop, by omega, htree⟩
  · have hb0 : b = [] := List.length_eq_zero_iff.1 (by omega)
    subst hb0
    exact ⟨F, [], by simp [hF], hsf, hms, by simp, by omega, htree⟩

end
end Verif
