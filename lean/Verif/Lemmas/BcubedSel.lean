import Verif.Lemmas.BcubedOpt
import Verif.Lemmas.BcubedElems
import Verif.Lemmas.EomSel

/-!
# Lemmas: what `extract_clusters_bcubed` selects
-/

namespace Verif
variable {L S V K : Type*} {n k : ℕ}

/-- Distance from the bottom. -/
def rkB (n k c : ℕ) : ℕ := if c < n then 0 else n + k - c

/-- A table between the cluster tree and the condensed tree. -/
structure BTree [One S] [LT S] [DecidableLT S] (n k : ℕ) (rows ctb : List (CRow L S)) : Prop where
  tree : CondTree n k rows
  kind : ∀ row ∈ rows, 1 < row.size ↔ n ≤ row.child
  sub : ctb.Sublist rows
  sup : (clusterTree rows).Sublist ctb
  empty : k = 1 → ctb = []

section
variable [One S] [LT S] [DecidableLT S] {rows ctb : List (CRow L S)}

theorem BTree.rtree (h : BTree n k rows ctb) : RTree (rkB n k) ctb where
  nodup := h.tree.nodup.sublist (h.sub.map _)
  down := fun row hr => by
    have hr := h.sub.subset hr
    have h1 := h.tree.parents row hr
    have h2 := (h.tree.children row.child).1 (List.mem_map_of_mem hr)
    unfold rkB
    rw [if_neg (show ¬ row.parent < n by omega)]
    split
    · omega
    · have := h.tree.down row hr (by omega)
      omega

theorem BTree.mono (h : BTree n k rows ctb) {a b : ℕ} (hd : CDesc ctb a b) : CDesc rows a b :=
  Relation.ReflTransGen.mono (p := CStep rows) (fun _ _ ⟨r, h1, h2⟩ => ⟨r, h.sub.subset h1, h2⟩) _ _ hd

theorem BTree.desc_cluster (h : BTree n k rows ctb) {a b : ℕ} (hb : n ≤ b) : CDesc ctb a b ↔ CDesc rows a b := by
  refine ⟨h.mono, fun hd => ?_⟩
  rw [← h.tree.desc_clusterTree h.kind hb] at hd
  exact Relation.ReflTransGen.mono (p := CStep ctb) (fun _ _ ⟨r, h1, h2⟩ => ⟨r, h.sup.subset h1, h2⟩) _ _ hd

theorem BTree.desc_node (h : BTree n k rows ctb) {a b : ℕ} (hb : b = n ∨ b ∈ ctb.map CRow.child) :
    CDesc ctb a b ↔ CDesc rows a b := by
  rcases hb with rfl | hb
  · exact h.desc_cluster le_rfl
  refine ⟨h.mono, fun hd => ?_⟩
  obtain ⟨r, h1, rfl⟩ := List.mem_map.1 hb
  rcases Relation.ReflTransGen.cases_tail hd with h2 | ⟨p, h2, r', h3, h4, h5⟩
  · rw [h2]; exact .refl
  · have := List.inj_on_of_nodup_map h.tree.nodup h3 (h.sub.subset h1) h5
    subst this; subst h4
    exact ((h.desc_cluster (h.tree.parents r' h3).1).2 h2).tail ⟨r', h1, rfl, rfl⟩

theorem BTree.root (h : BTree n k rows ctb) (hk : 1 < k) :
    ∃ row rest, ctb = row :: rest ∧ (ctb.map CRow.parent).foldl min row.parent = n ∧ rkB n k n < ctb.length + 2 := by
  have hc := h.tree.clTree h.kind
  obtain ⟨r, h1, h2, h3⟩ := hc.first hk
  have h1 := h.sup.subset h1
  obtain ⟨row, rest, h4⟩ := List.exists_cons_of_ne_nil (List.ne_nil_of_mem h1)
  have hge : ∀ x ∈ ctb.map CRow.parent, n ≤ x := by
    intro x hx
    obtain ⟨r, h5, rfl⟩ := List.mem_map.1 hx
    exact (h.tree.parents r (h.sub.subset h5)).1
  refine ⟨row, rest, h4, foldl_min_eq _ _ _ (hge _ ?_) hge (.inr (h2 ▸ List.mem_map_of_mem h1)), ?_⟩
  · rw [h4]; simp
  · have := h.sup.length_le
    have := hc.length
    unfold rkB
    rw [if_neg (by omega)]
    omega

theorem BTree.desc_mem (h : BTree n k rows ctb) {x : ℕ} (hd : CDesc ctb n x) : x = n ∨ x ∈ ctb.map CRow.child := by
  rcases Relation.ReflTransGen.cases_tail hd with h1 | ⟨p, _, r, h3, _, h5⟩
  · exact .inl h1
  · exact .inr (List.mem_map.2 ⟨r, h3, h5⟩)

theorem BTree.desc_root (h : BTree n k rows ctb) {x : ℕ} (hx : x = n ∨ x ∈ ctb.map CRow.child) : CDesc ctb n x := by
  rcases hx with rfl | hx
  · exact .refl
  · rw [h.desc_node (.inr hx)]
    obtain ⟨r, h1, rfl⟩ := List.mem_map.1 hx
    have h1 := h.sub.subset h1
    have hp := h.tree.parents r h1
    have := (h.tree.clTree h.kind).desc_root hp.1 hp.2
    rw [h.tree.desc_clusterTree h.kind hp.1] at this
    exact this.tail ⟨r, h1, rfl, rfl⟩

/-- The selection made by the code. -/
theorem BTree.mem_sel (h : BTree n k rows ctb) (hk : 1 < k) (o : ScoreOps V) (score : ℕ → V) (keys virt : List ℕ) (hkeys : 1 < keys.length)
    (s : Bool) (x : ℕ) :
    x ∈ bcubedClusters ctb o score keys virt s ↔ x ∈ keys ∧ x ∉ virt ∧
      (if s then h.rtree.Top o score n x else ∃ c ∈ kidsOf ctb n, h.rtree.Top o score c x) := by
  classical
  obtain ⟨row, rest, h1, h2, h3⟩ := h.root hk
  have hrk : ∀ c ∈ kidsOf ctb n, rkB n k c < ctb.length + 2 := fun c hc => by have := h.rtree.kid_lt hc; omega
  have hunf : bcubedClusters ctb o score keys virt s = keys.filter fun c =>
      (if s then (eomRecB ctb o score (ctb.length + 2) n ⟨fun _ => false, fun _ => false⟩).2
        else (kidsOf ctb n).foldl (fun s c => (eomRecB ctb o score (ctb.length + 2) c s).2)
          ⟨fun _ => false, fun _ => false⟩).sel c && decide (c ∉ virt) := by
    rw [← h2]
    subst h1
    simp only [bcubedClusters, if_pos hkeys]
  rw [hunf, List.mem_filter, Bool.and_eq_true, decide_eq_true_eq]
  cases s
  · simp only [Bool.false_eq_true, if_false]
    rw [(h.rtree.fold_state o score (fun c s => (eomRecB ctb o score (ctb.length + 2) c s).2) n
      (fun c hc s hs x => h.rtree.rec_state o score _ c (hrk c hc) s hs x) (kidsOf ctb n) (fun _ h => h)
      (h.rtree.kids_nodup n) ⟨fun _ => false, fun _ => false⟩ (fun _ _ _ _ => ⟨rfl, rfl⟩) x).1]
    have : (if ∃ c ∈ kidsOf ctb n, CDesc ctb c x then decide (∃ c ∈ kidsOf ctb n, h.rtree.Top o score c x) else false) = true ↔
        ∃ c ∈ kidsOf ctb n, h.rtree.Top o score c x := by
      split
      · exact decide_eq_true_iff
      · rename_i hn
        simp only [Bool.false_eq_true, false_iff]
        rintro ⟨c, h5, h6⟩; exact hn ⟨c, h5, h6.1⟩
    rw [this]
    tauto
  · simp only [if_true]
    rw [(h.rtree.rec_state o score _ n h3 ⟨fun _ => false, fun _ => false⟩ (fun _ _ => ⟨rfl, rfl⟩) x).1]
    have : (if CDesc ctb n x then decide (h.rtree.Top o score n x) else false) = true ↔ h.rtree.Top o score n x := by
      split
      · exact decide_eq_true_iff
      · rename_i hn
        simp only [Bool.false_eq_true, false_iff]
        intro h6; exact hn h6.1
    rw [this]
    tauto

/-- Nodes selected by the recursion, before artificial ones are dropped. -/
def BTree.Sel (h : BTree n k rows ctb) (o : ScoreOps V) (score : ℕ → V) (s : Bool) (x : ℕ) : Prop :=
  if s then h.rtree.Top o score n x else ∃ c ∈ kidsOf ctb n, h.rtree.Top o score c x

theorem BTree.Sel.desc {h : BTree n k rows ctb} {o : ScoreOps V} {score : ℕ → V} {s : Bool} {x : ℕ} (hx : h.Sel o score s x) :
    CDesc ctb n x := by
  unfold BTree.Sel at hx
  cases s
  · simp only [Bool.false_eq_true, if_false] at hx
    obtain ⟨c, h1, h2⟩ := hx
    exact desc_of_kid h1 h2.1
  · simp only [if_true] at hx
    exact hx.1

theorem BTree.Sel.anti {h : BTree n k rows ctb} {o : ScoreOps V} {score : ℕ → V} {s : Bool} {x y : ℕ}
    (hx : h.Sel o score s x) (hy : h.Sel o score s y) (hd : CDesc rows x y) : x = y := by
  rw [← h.desc_node (h.desc_mem hy.desc)] at hd
  by_contra hne
  unfold BTree.Sel at hx hy
  cases s
  · simp only [Bool.false_eq_true, if_false] at hx hy
    obtain ⟨c, h1, h2⟩ := hx
    obtain ⟨d, h3, h4⟩ := hy
    have := h.rtree.kids_disjoint h1 h3 (h2.1.trans hd) h4.1
    subst this
    have := h4.2.2 x h2.1 hd hne
    rw [h2.2.1] at this; cases this
  · simp only [if_true] at hx hy
    have := hy.2.2 x hx.1 hd hne
    rw [hx.2.1] at this; cases this

theorem BTree.Sel.ne_root {h : BTree n k rows ctb} {o : ScoreOps V} {score : ℕ → V} {x : ℕ}
    (hx : h.Sel o score false x) : x ≠ n := by
  rintro rfl
  unfold BTree.Sel at hx
  simp only [Bool.false_eq_true, if_false] at hx
  obtain ⟨c, h1, h2⟩ := hx
  exact h.rtree.kid_not_above h1 h2.1

/-- The selected nodes have the best total among all sets of non-nested nodes. -/
theorem BTree.sel_opt [AddCommMonoid V] [LinearOrder V] [IsOrderedAddMonoid V] (h : BTree n k rows ctb)
    (score : ℕ → V) (s : Bool) (B : Finset ℕ) (hB : ∀ x, x ∈ B ↔ h.Sel (plainOps V) score s x) (A : Finset ℕ)
    (hA : ∀ x ∈ A, (x = n ∧ s = true) ∨ x ∈ ctb.map CRow.child) (ha : ∀ x ∈ A, ∀ y ∈ A, CDesc rows x y → x = y) :
    ∑ x ∈ A, score x ≤ ∑ x ∈ B, score x := by
  have hnode : ∀ x ∈ A, x = n ∨ x ∈ ctb.map CRow.child := fun x hx => (hA x hx).imp (fun h => h.1) id
  have hdesc : ∀ x ∈ A, CDesc ctb n x := fun x hx => h.desc_root (hnode x hx)
  have hanti : ∀ x ∈ A, ∀ y ∈ A, CDesc ctb x y → x = y := fun x hx y hy hd => ha x hx y hy (h.mono hd)
  unfold BTree.Sel at hB
  cases s
  · simp only [Bool.false_eq_true, if_false] at hB
    rw [h.rtree.sum_kids score (fun c _ B hB => h.rtree.sum_tops score B hB) B hB]
    refine h.rtree.antichain_kids score (fun c _ A hA ha => h.rtree.antichain_le score A hA ha) A hdesc ?_ hanti
    intro hn
    rcases hA n hn with h1 | h1
    · exact absurd h1.2 (by simp)
    · obtain ⟨r, h2, h3⟩ := List.mem_map.1 h1
      have := (h.tree.children n).1 (h3 ▸ List.mem_map_of_mem (h.sub.subset h2))
      omega
  · simp only [if_true] at hB
    rw [h.rtree.sum_tops score B hB]
    exact h.rtree.antichain_le score A hdesc hanti

/-- Below a node that lies strictly above a selected one, the selected nodes are those selected by the recursion from there. -/
theorem RTree.top_below {ct : List (CRow L S)} {rk : ℕ → ℕ} (h : RTree rk ct) (o : ScoreOps V) (score : ℕ → V) {r x t : ℕ}
    (hT : h.Top o score r t) (h1 : CDesc ct r x) (h2 : CDesc ct x t) (hne : x ≠ t) {y : ℕ} (hy : CDesc ct x y) :
    h.Top o score r y ↔ h.Top o score x y := by
  constructor
  · intro h3
    exact ⟨hy, h3.2.1, fun d h4 h5 h6 => h3.2.2 d (h1.trans h4) h5 h6⟩
  · intro h3
    refine ⟨h1.trans hy, h3.2.1, fun d h4 h5 h6 => ?_⟩
    rcases h.comparable hy h5 with h7 | h7
    · exact h3.2.2 d h7 h5 h6
    · refine hT.2.2 d h4 (h7.trans h2) ?_
      rintro rfl
      exact hne (h.desc_antisymm h2 h7)

/-- A node strictly above a selected one is worse than the nodes selected below it. -/
theorem BTree.sel_strict [AddCommMonoid V] [LinearOrder V] [IsOrderedAddMonoid V] (h : BTree n k rows ctb)
    (score : ℕ → V) (s : Bool) (x t : ℕ) (hx : (x = n ∧ s = true) ∨ x ∈ ctb.map CRow.child)
    (ht : h.Sel (plainOps V) score s t) (hd : CDesc rows x t) (hne : x ≠ t)
    (B : Finset ℕ) (hB : ∀ y, y ∈ B ↔ h.Sel (plainOps V) score s y ∧ CDesc rows x y) :
    score x < ∑ y ∈ B, score y := by
  have hnx : CDesc ctb n x := h.desc_root (hx.imp (fun h => h.1) id)
  have hxt : CDesc ctb x t := (h.desc_node (h.desc_mem ht.desc)).2 hd
  obtain ⟨r, hr, h1, h2⟩ : ∃ r, (∀ y, CDesc ctb r y → (h.Sel (plainOps V) score s y ↔ h.rtree.Top (plainOps V) score r y)) ∧
      h.rtree.Top (plainOps V) score r t ∧ CDesc ctb r x := by
    unfold BTree.Sel at ht ⊢
    cases s
    · simp only [Bool.false_eq_true, if_false] at ht ⊢
      obtain ⟨c, h3, h4⟩ := ht
      refine ⟨c, fun y hy => ⟨fun ⟨d, h5, h6⟩ => ?_, fun h5 => ⟨c, h3, h5⟩⟩, h4, ?_⟩
      · have := h.rtree.kids_disjoint h3 h5 hy h6.1
        subst this; exact h6
      · rcases desc_cases hnx with h5 | ⟨d, h5, h6⟩
        · subst h5
          rcases hx with h6 | h6
          · exact absurd h6.2 (by simp)
          · obtain ⟨r, h7, h8⟩ := List.mem_map.1 h6
            have := (h.tree.children x).1 (h8 ▸ List.mem_map_of_mem (h.sub.subset h7))
            omega
        · have := h.rtree.kids_disjoint h3 h5 h4.1 (h6.trans hxt)
          subst this; exact h6
    · simp only [if_true] at ht ⊢
      exact ⟨n, fun _ _ => Iff.rfl, ht, hnx⟩
  have htake : h.rtree.take (plainOps V) score x = false := h1.2.2 x h2 hxt hne
  have hsum : ∑ y ∈ B, score y = h.rtree.val (plainOps V) score x := by
    refine h.rtree.sum_tops score B fun y => ?_
    rw [hB]
    constructor
    · rintro ⟨h3, h4⟩
      have h5 : CDesc ctb x y := (h.desc_node (h.desc_mem h3.desc)).2 h4
      exact (h.rtree.top_below _ score h1 h2 hxt hne h5).1 ((hr y (h2.trans h5)).1 h3)
    · intro h3
      exact ⟨(hr y (h2.trans h3.1)).2 ((h.rtree.top_below _ score h1 h2 hxt hne h3.1).2 h3), h.mono h3.1⟩
  rw [hsum, h.rtree.val_eq, htake]
  simp only [Bool.false_eq_true, if_false]
  simp only [RTree.take, Bool.not_eq_false', plainOps, decide_eq_true_eq] at htake
  exact htake

end

/-! ## The two trees used by the code -/

section
variable [One S] [LinearOrder S] {rows : List (CRow L S)}

theorem CondTree.bTree_plain (h : CondTree n k rows) (hk : ∀ row ∈ rows, 1 < row.size ↔ n ≤ row.child) :
    BTree n k rows (clusterTree rows) where
  tree := h
  kind := hk
  sub := List.filter_sublist
  sup := .refl _
  empty := fun h1 => by
    have := (h.clTree hk).length
    exact List.length_eq_zero_iff.1 (by omega)

theorem CondTree.bTree_virtual (h : CondTree n k rows) (hk : ∀ row ∈ rows, 1 < row.size ↔ n ≤ row.child) (m : ℕ) (lab : ℕ → ℤ) :
    BTree n k rows (bcubedTree rows (clusterTree rows) m lab) where
  tree := h
  kind := hk
  sub := List.filter_sublist
  sup := by
    unfold clusterTree bcubedTree
    apply List.monotone_filter_right
    intro row h1
    rw [decide_eq_true_eq] at h1 ⊢
    exact .inl h1
  empty := fun h1 => by
    have hc := h.clTree hk
    have h2 : clusterTree rows = [] := List.length_eq_zero_iff.1 (by have := hc.length; omega)
    unfold bcubedTree
    rw [List.filter_eq_nil_iff]
    intro row hr
    rw [h2, decide_eq_true_eq]
    rintro (h3 | ⟨_, _, h3⟩)
    · have : row ∈ clusterTree rows := List.mem_filter.2 ⟨hr, decide_eq_true h3⟩
      rw [h2] at this; simp at this
    · simp at h3

/-- Parents in the cluster tree are the clusters with child clusters. -/
theorem CondTree.splits_iff (_ : CondTree n k rows) (hk : ∀ row ∈ rows, 1 < row.size ↔ n ≤ row.child) {p : ℕ} :
    p ∈ (clusterTree rows).map CRow.parent ↔ ¬ Childless n rows p := by
  unfold Childless
  push Not
  rw [List.mem_map]
  constructor
  · rintro ⟨r, h1, h2⟩
    obtain ⟨h3, h4⟩ := List.mem_filter.1 h1
    exact ⟨r, h3, h2, (hk r h3).1 (of_decide_eq_true h4)⟩
  · rintro ⟨r, h1, h2, h3⟩
    exact ⟨r, List.mem_filter.2 ⟨h1, decide_eq_true ((hk r h1).2 h3)⟩, h2⟩

theorem CondTree.mem_virtual (h : CondTree n k rows) (hk : ∀ row ∈ rows, 1 < row.size ↔ n ≤ row.child)
    (hone : ∀ row ∈ rows, row.child < n → row.size = 1) (m : ℕ) (hm : m ≤ n) (lab : ℕ → ℤ) {x : ℕ} :
    x ∈ virtualNodes (bcubedTree rows (clusterTree rows) m lab) (clusterTree rows) ↔ LabelledNoise n rows m lab x := by
  have hmem : x ∈ labelIdx m lab ↔ x ∈ labelledSamples m lab := by rw [← labelIdx_toFinset, List.mem_toFinset]
  unfold virtualNodes LabelledNoise bcubedTree
  rw [List.mem_dedup, List.mem_filter, decide_eq_true_eq, ← hmem]
  constructor
  · rintro ⟨h1, h2⟩
    obtain ⟨r, h3, rfl⟩ := List.mem_map.1 h1
    obtain ⟨h4, h5⟩ := List.mem_filter.1 h3
    rw [decide_eq_true_eq] at h5
    rcases h5 with h5 | ⟨_, h6, h7⟩
    · exact absurd (List.mem_map_of_mem (List.mem_filter.2 ⟨h4, decide_eq_true h5⟩)) h2
    · exact ⟨h6, r.parent, ⟨r, h4, rfl, rfl⟩, (h.splits_iff hk).1 h7⟩
  · rintro ⟨h1, p, ⟨r, h2, rfl, rfl⟩, h3⟩
    have hlt : r.child < n := by have := (mem_labelIdx.1 h1).1; omega
    refine ⟨List.mem_map_of_mem (List.mem_filter.2 ⟨h2, decide_eq_true (.inr ⟨hone r h2 hlt, h1, (h.splits_iff hk).2 h3⟩)⟩), ?_⟩
    intro h4
    have := ((h.clTree hk).mem).1 h4
    omega

theorem CondTree.mem_bcubedTree (h : CondTree n k rows) (hk : ∀ row ∈ rows, 1 < row.size ↔ n ≤ row.child)
    (hone : ∀ row ∈ rows, row.child < n → row.size = 1) (m : ℕ) (hm : m ≤ n) (lab : ℕ → ℤ) {x : ℕ} :
    x ∈ (bcubedTree rows (clusterTree rows) m lab).map CRow.child ↔ (n < x ∧ x < n + k) ∨ LabelledNoise n rows m lab x := by
  rw [← h.mem_virtual hk hone m hm lab, ← (h.clTree hk).mem]
  unfold virtualNodes
  rw [List.mem_dedup, List.mem_filter, decide_eq_true_eq]
  constructor
  · intro h1
    by_cases h2 : x ∈ (clusterTree rows).map CRow.child
    · exact .inl h2
    · exact .inr ⟨h1, h2⟩
  · rintro (h1 | h1)
    · exact ((h.bTree_virtual hk m lab).sup.map _).subset h1
    · exact h1.1

end

/-! ## Dictionaries -/

theorem dict_sets {V : Type*} (l : List ℕ) (g : ℕ → V) (d : ScoreDict V) :
    (∀ c, c ∈ (l.foldl (fun d v => d.set v (g v)) d).keys ↔ c ∈ d.keys ∨ c ∈ l) ∧
    (d.keys.Nodup → (l.foldl (fun d v => d.set v (g v)) d).keys.Nodup) ∧
    ∀ c, (l.foldl (fun d v => d.set v (g v)) d).val c = if c ∈ l then g c else d.val c := by
  induction l generalizing d with
  | nil => simp
  | cons v l ih =>
    obtain ⟨h1, h2, h3⟩ := ih (d.set v (g v))
    refine ⟨fun c => ?_, fun hd => h2 (nodup_dict_set _ _ _ hd), fun c => ?_⟩
    · rw [List.foldl_cons, h1, mem_dict_set, List.mem_cons, or_assoc]
    · rw [List.foldl_cons, h3]
      by_cases hc : c ∈ l
      · simp [hc]
      · by_cases hcv : c = v
        · subst hcv; simp [ScoreDict.set]
        · simp [hc, hcv, ScoreDict.set]

end Verif
