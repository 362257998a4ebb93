import Verif.Props.PlscanRows
import Verif.Lemmas.Groups

/-!
# C107: the layers of `PLSCAN` are nested
-/

namespace Verif
variable {W K S : Type*}

section
variable [LinearOrder S] {H : Hier W S} {wt : ℕ → S} {θ θ' : S}

theorem splitRows_le (hle : θ ≤ θ') {i : ℕ} (hi : i ∈ H.splitRows wt θ') : i ∈ H.splitRows wt θ := by
  obtain ⟨h1, h2, h3⟩ := mem_splitRows.1 hi
  exact mem_splitRows.2 ⟨h1, hle.trans h2, hle.trans h3⟩

theorem sample_below (hv : H.Valid) : ∀ v, v ≤ H.root → ∃ z, z < H.n ∧ H.Sub v z := by
  intro v
  induction v using Nat.strong_induction_on with
  | _ v ih =>
    intro hr
    by_cases h : v < H.n
    · exact ⟨v, h, Hier.Sub.refl _⟩
    · have hre := H.root_eq
      have hk : H.IsKid v (H.l (v - H.n)) := ⟨by omega, by omega, .inl rfl⟩
      have hlt := hk.lt hv
      obtain ⟨z, h1, h2⟩ := ih _ hlt (by omega)
      exact ⟨z, h1, (Hier.Sub.kid hk).trans h2⟩

theorem leafNode_le (hv : H.Valid) {v : ℕ} (h : H.LeafNode wt θ v) : v ≤ H.root := by
  rcases h.1 with rfl | ⟨i, hi, hk⟩
  · exact le_rfl
  · have := hk.lt hv
    have := (mem_splitRows.1 hi).1
    have := H.root_eq
    omega

/-- A leaf for a larger threshold is not strictly inside a leaf for a smaller one. -/
theorem leafNode_nested (hv : H.Valid) (hle : θ ≤ θ') {a b : ℕ} (ha : H.LeafNode wt θ a) (hb : H.LeafNode wt θ' b) (h : H.Sub a b) : a = b := by
  rcases h.cases_tail with h | ⟨w, hw, hk⟩
  · exact h.symm
  rcases hb.1 with rfl | ⟨i, hi, hk'⟩
  · have h1 := hk.lt hv
    have h2 := hw.le hv
    have h3 := leafNode_le hv ha
    omega
  · have := hk.unique hv hk'
    subst this
    exact absurd hw (ha.2 i (splitRows_le hle hi))

theorem leafNode_count (hroot : θ ≤ H.count wt H.root) {v : ℕ} (h : H.LeafNode wt θ v) : θ ≤ H.count wt v := by
  rcases h.1 with rfl | ⟨i, hi, hk⟩
  · exact hroot
  · have h1 := hk.2.2
    rw [show H.n + i - H.n = i by omega] at h1
    obtain ⟨_, h2, h3⟩ := mem_splitRows.1 hi
    rcases h1 with rfl | rfl
    · exact h2
    · exact h3

/-- A large part without a large merge above it inside a leaf contains a leaf. -/
theorem leaf_below (hh : CondHyp H wt θ) {q a : ℕ} (hq : q ∈ H.splitRows wt θ) (hk : H.IsKid (H.n + q) a) (hc : θ ≤ H.count wt a) :
    ∃ u, H.LeafNode wt θ u ∧ H.Sub a u := by
  have h1 := hk.lt hh.valid
  have h2 := (mem_splitRows.1 hq).1
  have h3 := H.root_eq
  obtain ⟨u, hu, _, hs⟩ := exists_leafNode hh (v := a) (by omega) hc
  rcases hs with hs | hs
  · exact ⟨u, hu, hs⟩
  · rcases hs.cases_tail with e | ⟨w, hw, hk'⟩
    · exact ⟨u, hu, e ▸ Hier.Sub.refl _⟩
    · have := hk'.unique hh.valid hk
      subst this
      exact absurd hw (hu.2 q hq)

/-- The classes of the labels are the samples of the leaves for threshold `θ`. -/
def LeafClasses (H : Hier W S) (wt : ℕ → S) (θ : S) (n : ℕ) (labels : List ℤ) : Prop :=
  (∀ l ∈ labels, l ≠ -1 → 0 ≤ l ∧ ∃ v, H.LeafNode wt θ v ∧ ∀ z, labels[z]? = some l ↔ z < n ∧ H.Sub v z) ∧
  ∀ v, H.LeafNode wt θ v → ∃ l ∈ labels, l ≠ -1 ∧ ∀ z, labels[z]? = some l ↔ z < n ∧ H.Sub v z

/-- The number of clusters. -/
def clusterSet (labels : List ℤ) : Finset ℤ := labels.toFinset.filter fun l => l ≠ -1

theorem mem_clusterSet {labels : List ℤ} {l : ℤ} : l ∈ clusterSet labels ↔ l ∈ labels ∧ l ≠ -1 := by
  unfold clusterSet
  rw [Finset.mem_filter, List.mem_toFinset]

/-- If a larger threshold gives as many leaves then they are the same. -/
theorem same_leaves (hh : CondHyp H wt θ) (hle : θ ≤ θ') (hroot : θ' ≤ H.count wt H.root) {labels labels' : List ℤ}
    (h : LeafClasses H wt θ H.n labels) (h' : LeafClasses H wt θ' H.n labels') (hcard : (clusterSet labels).card ≤ (clusterSet labels').card) {v : ℕ}
    (hv : H.LeafNode wt θ' v) : H.LeafNode wt θ v := by
  have hval := hh.valid
  have hex : ∀ l ∈ clusterSet labels', ∃ m ∈ clusterSet labels, ∀ z : ℕ, labels[z]? = some m → labels'[z]? = some l := by
    intro l hl
    obtain ⟨h1, h2⟩ := mem_clusterSet.1 hl
    obtain ⟨_, w, hw, hz⟩ := h'.1 l h1 h2
    obtain ⟨u, hu, _, hs⟩ := exists_leafNode hh (leafNode_le hval hw) (hle.trans (leafNode_count hroot hw))
    have hs : H.Sub w u := by
      rcases hs with hs | hs
      · exact hs
      · rw [leafNode_nested hval hle hu hw hs]; exact Hier.Sub.refl _
    obtain ⟨m, m1, m2, m3⟩ := h.2 u hu
    exact ⟨m, mem_clusterSet.2 ⟨m1, m2⟩, fun z hzm => (hz z).2 ⟨((m3 z).1 hzm).1, hs.trans ((m3 z).1 hzm).2⟩⟩
  choose! ψ hψ1 hψ2 using hex
  have hne : ∀ m ∈ clusterSet labels, ∃ z : ℕ, labels[z]? = some m := fun m hm => List.mem_iff_getElem?.1 (mem_clusterSet.1 hm).1
  have hinj : Set.InjOn ψ (clusterSet labels') := by
    intro a ha b hb hab
    obtain ⟨z, hz⟩ := hne _ (hψ1 a ha)
    have e1 := hψ2 a ha z hz
    have e2 := hψ2 b hb z (hab ▸ hz)
    rw [e1] at e2
    exact Option.some.inj e2
  have hsurj : Set.SurjOn ψ (clusterSet labels') (clusterSet labels) := Finset.surjOn_of_injOn_of_card_le ψ (fun a ha => hψ1 a ha) hinj hcard
  obtain ⟨lv, lv1, lv2, lv3⟩ := h'.2 v hv
  have hlv := mem_clusterSet.2 ⟨lv1, lv2⟩
  -- every leaf below `v` has the label of `v`
  have hone : ∀ u, H.LeafNode wt θ u → H.Sub v u → ∀ z, z < H.n → H.Sub u z → labels[z]? = some (ψ lv) := by
    intro u hu hs z hzn hz
    obtain ⟨m, m1, m2, m3⟩ := h.2 u hu
    obtain ⟨a, ha, e⟩ := hsurj (mem_clusterSet.2 ⟨m1, m2⟩)
    have hzm := (m3 z).2 ⟨hzn, hz⟩
    have e1 := hψ2 a ha z (e ▸ hzm)
    have e2 := (lv3 z).2 ⟨hzn, hs.trans hz⟩
    rw [e1] at e2
    rw [hzm, ← e, Option.some.inj e2]
  refine ⟨hv.1.imp_right fun ⟨i, hi, hk⟩ => ⟨i, splitRows_le hle hi, hk⟩, fun q hq hs => ?_⟩
  obtain ⟨hlt, h2, h3⟩ := mem_splitRows.1 hq
  obtain ⟨_, _, kl, kr⟩ := splitRows_alive hh hq
  obtain ⟨u1, a1, a2⟩ := leaf_below hh hq kl h2
  obtain ⟨u2, b1, b2⟩ := leaf_below hh hq kr h3
  obtain ⟨z1, c1, c2⟩ := sample_below hval u1 (leafNode_le hval a1)
  obtain ⟨z2, d1, d2⟩ := sample_below hval u2 (leafNode_le hval b1)
  have e1 := hone u1 a1 ((hs.trans (Hier.Sub.kid kl)).trans a2) z1 c1 c2
  have e2 := hone u2 b1 ((hs.trans (Hier.Sub.kid kr)).trans b2) z2 d1 d2
  obtain ⟨m, m1, m2, m3⟩ := h.2 u1 a1
  have e3 := (m3 z1).2 ⟨c1, c2⟩
  rw [e1] at e3
  have e4 := ((m3 z2).1 (by rw [e2]; exact e3)).2
  have hlr : H.l q ≠ H.r q := fun e => hval.lr q q hlt hlt e
  exact hlr (Hier.kids_disjoint hval kl kr (a2.trans e4) (b2.trans d2))

/-- Clusters of the finer of two layers are inside a cluster of the coarser one or have no sample in common with it. -/
theorem classes_nested (hh : CondHyp H wt θ) (hh' : CondHyp H wt θ') (hroot : θ ≤ H.count wt H.root) {labels labels' : List ℤ}
    (h : LeafClasses H wt θ H.n labels) (h' : LeafClasses H wt θ' H.n labels') (hcard : (clusterSet labels').card ≤ (clusterSet labels).card)
    {a b : ℤ} (ha : 0 ≤ a) (hb : 0 ≤ b) {z : ℕ} (hz : labels[z]? = some a) (hz' : labels'[z]? = some b) :
    ∀ x : ℕ, labels[x]? = some a → labels'[x]? = some b := by
  have hval := hh.valid
  obtain ⟨_, v, hv, hva⟩ := h.1 a (List.mem_of_getElem? hz) (by omega)
  obtain ⟨_, w, hw, hwb⟩ := h'.1 b (List.mem_of_getElem? hz') (by omega)
  have hcmp := ((hva z).1 hz).2.comparable hval ((hwb z).1 hz').2
  have hsub : H.Sub w v := by
    rcases hcmp with h1 | h1
    · rcases le_total θ θ' with hle | hle
      · rw [leafNode_nested hval hle hv hw h1]; exact Hier.Sub.refl _
      · rw [leafNode_nested hval le_rfl (same_leaves hh' hle hroot h' h hcard hv) hw h1]; exact Hier.Sub.refl _
    · exact h1
  intro x hx
  obtain ⟨x1, x2⟩ := (hva x).1 hx
  exact (hwb x).2 ⟨x1, hsub.trans x2⟩

end

section
variable [Field K] [LinearOrder K] [IsStrictOrderedRing K] [LinearOrder W] [Inhabited W] [Inhabited K]

/-- The samples of the leaves of the condensed tree are those of the leaf nodes of the linkage table. -/
theorem leaf_sets {n : ℕ} (hn : 2 ≤ n) {linkage : List (LRow W K)} (h : Dendrogram n (fun _ => (1 : K)) linkage) {lam : W → K} (hpos : ∀ d, 0 ≤ lam d)
    {s : ℕ} (hs : 2 ≤ s) {leaves : List ℕ} (hext : extractLeaves (searchTree lam linkage s) = some leaves) :
    sampleSets n (searchTree lam linkage s) leaves =
      {X | ∃ v, (Hier.ofRows linkage).LeafNode (fun _ => (1 : K)) (s : K) v ∧ X = {x | x < n ∧ (Hier.ofRows linkage).Sub v x}} := by
  have hN := h.hier_n
  have hM : 0 < (Hier.ofRows linkage).m := by
    have := h.length; change 0 < linkage.length; omega
  have hyp : CondHyp (Hier.ofRows linkage) (fun _ => (1 : K)) (s : K) :=
    h.condHyp (fun _ _ => zero_le_one) (fun _ _ => by exact_mod_cast (show 1 < s by omega))
  obtain ⟨k, relabel, top, hr⟩ := condense_res (mx := none) hyp hM lam
  obtain ⟨r, hr1, ⟨_, _, _, ⟨k', hct', hleaf⟩, _⟩, _⟩ := leafResult_total n hn linkage h lam hpos s hs
  have hext' : extractLeaves (searchTree lam linkage s) = some r.leaves := by
    unfold leafResult at hr1
    obtain ⟨ls, e1, e2⟩ := Option.bind_eq_some_iff.1 hr1
    obtain ⟨lb, e3, e4⟩ := Option.bind_eq_some_iff.1 e2
    obtain ⟨st, e5, e6⟩ := Option.map_eq_some_iff.1 e4
    rw [e1, ← e6]
  rw [hext, Option.some_inj] at hext'
  subst hext'
  have hct : CondTree n k (searchTree lam linkage s) := by have := hr.condTree; rw [hN] at this; exact this
  have hkk := CondTree.k_unique hct hct'
  subst hkk
  have hset : ∀ c, n ≤ c → c < n + k → {x | x < n ∧ CDesc (searchTree lam linkage s) c x} = {x | x < n ∧ (Hier.ofRows linkage).Sub (top c) x} := by
    intro c h1 h2
    ext x
    exact and_congr_right fun hx => hr.below_iff hyp (by omega) (by omega) (by omega)
  ext A
  unfold sampleSets
  constructor
  · rintro ⟨c, hc, rfl⟩
    obtain ⟨h1, h2, h3⟩ := (hleaf c).1 hc
    exact ⟨top c, hr.leafNode hyp (by omega) (by omega) (by rw [hN]; exact h3), hset c h1 h2⟩
  · rintro ⟨v, hv, rfl⟩
    obtain ⟨c, h1, h2, h3, rfl⟩ := hr.leaf_of_node hyp hv
    rw [hN] at h1 h2 h3
    exact ⟨c, (hleaf c).2 ⟨h1, h2, h3⟩, (hset c h1 h2).symm⟩

omit [LinearOrder W] [Inhabited W] in
/-- Labels that mark clusters with the samples of the leaf nodes. -/
theorem leafClasses_of_sets {V : Type*} [LinearOrder V] [Inhabited V] {n k : ℕ} {linkage : List (LRow V K)} {lam : V → K} {m : ℕ}
    (hct : CondTree n k (searchTree lam linkage m)) (hlam : ∀ row ∈ searchTree lam linkage m, row.lam ≠ 0) {sel : List ℕ}
    (hn : n ∉ sel) {labels : List ℤ} (hl : LabelsMean n (searchTree lam linkage m) sel none labels)
    (hne : ∀ c ∈ sel, ∃ x, x < n ∧ CDesc (searchTree lam linkage m) c x) {H : Hier W K} {wt : ℕ → K} {θ : K}
    (hsets : sampleSets n (searchTree lam linkage m) sel = {X | ∃ v, H.LeafNode wt θ v ∧ X = {x | x < n ∧ H.Sub v x}}) :
    LeafClasses H wt θ n labels := by
  refine ⟨fun l hmem hl0 => ?_, fun v hv => ?_⟩
  · obtain ⟨h0, c, hc, hz⟩ := label_cluster hct hlam hn hl hmem hl0
    have : {x | x < n ∧ CDesc (searchTree lam linkage m) c x} ∈ sampleSets n (searchTree lam linkage m) sel := ⟨c, hc, rfl⟩
    rw [hsets] at this
    obtain ⟨v, hv, e⟩ := this
    exact ⟨h0, v, hv, fun z => (hz z).trans (Set.ext_iff.1 e z)⟩
  · have : {x | x < n ∧ H.Sub v x} ∈ sampleSets n (searchTree lam linkage m) sel := by rw [hsets]; exact ⟨v, hv, rfl⟩
    obtain ⟨c, hc, e⟩ := this
    obtain ⟨x, hx, hd⟩ := hne c hc
    obtain ⟨row, hrow, rfl⟩ := List.mem_map.1 ((hct.children x).2 (.inl hx))
    obtain ⟨i, hi⟩ := List.mem_iff_getElem?.1 ((List.mem_insertionSort (· ≤ ·)).2 hc)
    have hlab := ((hl.2 row hrow hx).1 hn i).2 ⟨hlam _ hrow, c, hi, hd⟩
    have hmem := List.mem_of_getElem? hlab
    obtain ⟨_, c', hc', hz⟩ := label_cluster hct hlam hn hl hmem (by omega)
    refine ⟨i, hmem, by omega, fun z => ?_⟩
    -- the label of `c` marks `c`
    have key : ∀ z, labels[z]? = some (i : ℤ) ↔ z < n ∧ CDesc (searchTree lam linkage m) c z := by
      intro z
      constructor
      · intro h
        have hzn : z < n := by rw [← hl.1]; exact (List.getElem?_eq_some_iff.1 h).1
        obtain ⟨row', hrow', rfl⟩ := List.mem_map.1 ((hct.children z).2 (.inl hzn))
        obtain ⟨_, c2, e1, e2⟩ := ((hl.2 row' hrow' hzn).1 hn i).1 h
        rw [hi, Option.some.injEq] at e1
        exact ⟨hzn, e1 ▸ e2⟩
      · rintro ⟨hzn, h⟩
        obtain ⟨row', hrow', rfl⟩ := List.mem_map.1 ((hct.children z).2 (.inl hzn))
        exact ((hl.2 row' hrow' hzn).1 hn i).2 ⟨hlam _ hrow', c, hi, h⟩
    exact (key z).trans (Set.ext_iff.1 e z).symm


omit [Field K] [LinearOrder K] [IsStrictOrderedRing K] [LinearOrder W] [Inhabited W] [Inhabited K] in
theorem clusterSet_card {l l' : List ℤ} (h : DenseLayer l) (h' : DenseLayer l') (hle : maxLabel l' ≤ maxLabel l) : (clusterSet l').card ≤ (clusterSet l).card := by
  refine Finset.card_le_card fun v hv => ?_
  obtain ⟨h1, h2⟩ := mem_clusterSet.1 hv
  have h0 : 0 ≤ v := by have := (h' v h1).1; omega
  exact mem_clusterSet.2 ⟨(h.mem_iff h0).2 (((h'.mem_iff h0).1 h1).trans hle), h2⟩

end

section
variable [Field K] [LinearOrder K] [IsStrictOrderedRing K] [Inhabited K]

/-- **C107** for any base layer. -/
theorem shape_nested {n : ℕ} (hn : 2 ≤ n) {linkage : List (LRow (WithTop K) K)} (hden : Dendrogram n (fun _ => (1 : K)) linkage) {lamB lam : WithTop K → K} {mB m : ℕ}
    (hmB : 2 ≤ mB) (hle : mB ≤ m) (hposB : ∀ d, 0 ≤ lamB d) (hpos : ∀ d, 0 ≤ lam d) (hrowsB : ∀ row ∈ searchTree lamB linkage mB, row.lam ≠ 0)
    (hrows : ∀ row ∈ searchTree lam linkage m, row.lam ≠ 0) {r : PlscanFit K} {base : Layer K} {leaves : List ℕ} {others : List (ℕ × List ℕ × Layer K)}
    (h : FitShape n linkage lamB mB lam m r base leaves others) :
    (∀ (i j : ℕ) (fine coarse : Layer K), i < j → r.layers[i]? = some fine → r.layers[j]? = some coarse → ∀ a b : ℤ, 0 ≤ a → 0 ≤ b →
        (∀ x : ℕ, fine.labels[x]? = some a → coarse.labels[x]? = some b) ∨ ∀ x : ℕ, fine.labels[x]? = some a → coarse.labels[x]? ≠ some b) ∧
      ∀ k ks, (k, ks) ∈ r.tree → ∀ l c, (l, c) ∈ ks → k = (r.layers.length, 0) ∨
        ∃ (child parent : Layer K), r.layers[l]? = some child ∧ r.layers[k.1]? = some parent ∧ ∀ x : ℕ, child.labels[x]? = some c → parent.labels[x]? = some k.2 := by
  classical
  have hm : 2 ≤ m := hmB.trans hle
  have hN := hden.hier_n
  have hyp : ∀ t : ℕ, 2 ≤ t → CondHyp (Hier.ofRows linkage) (fun _ => (1 : K)) (t : K) := fun t ht =>
    hden.condHyp (fun _ _ => zero_le_one) (fun _ _ => by exact_mod_cast (show 1 < t by omega))
  have hcount : (Hier.ofRows linkage).count (fun _ => (1 : K)) (Hier.ofRows linkage).root = n := by
    have hre := (Hier.ofRows linkage).root_eq
    have hR : ((Finset.range n).filter fun x => (Hier.ofRows linkage).Sub (Hier.ofRows linkage).root x) = Finset.range n :=
      Finset.filter_true_of_mem fun x hx => Hier.sub_root (hyp m hm).valid (by have := Finset.mem_range.1 hx; omega)
    rw [hden.count_eq le_rfl, hR, Finset.sum_const, nsmul_eq_mul, mul_one, Finset.card_range]
  obtain ⟨k, hct, hcard⟩ := cluster_card hn hden lam hm
  -- the layers above the base layer
  have hlayer : ∀ o ∈ others, m ≤ o.1 ∧ o.1 < n ∧ DenseLayer o.2.2.labels ∧
      LeafClasses (Hier.ofRows linkage) (fun _ => (1 : K)) ((o.1 + 1 : ℕ) : K) n o.2.2.labels := by
    intro o ho
    have hl := h.others_layer o ho
    obtain ⟨hms, hsn⟩ := hl.size
    refine ⟨hms, hsn, (layer_labels hn hden hpos hm hrows hl).1, ?_⟩
    obtain ⟨lv, hx, hsets⟩ := hl.leaves
    refine leafClasses_of_sets hct hrows (fun hc => absurd (hl.two.2 n hc) (lt_irrefl _)) hl.labels (fun c hc => ?_)
      (hsets.trans (leaf_sets hn hden hpos (by omega) hx))
    have h3 := layer_big hn hden hpos hm hl c hc ((Finset.range n).filter fun x => CDesc _ c x) fun x => by rw [Finset.mem_filter, Finset.mem_range]
    obtain ⟨x, hx⟩ := Finset.card_pos.1 (Nat.lt_of_le_of_lt (Nat.zero_le _) h3)
    obtain ⟨hxn, hx⟩ := Finset.mem_filter.1 hx
    exact ⟨x, Finset.mem_range.1 hxn, hx⟩
  have hall : 1 < r.layers.length → ∀ layer ∈ r.layers, DenseLayer layer.labels ∧ ∃ t : ℕ, 2 ≤ t ∧ t ≤ n ∧
      LeafClasses (Hier.ofRows linkage) (fun _ => (1 : K)) (t : K) n layer.labels := by
    intro hlen layer hmem
    rcases List.mem_cons.1 (h.perm.mem_iff.1 hmem) with rfl | h'
    · have hne := h.others_ne hlen
      obtain ⟨o, ho⟩ := List.exists_mem_of_ne_nil _ hne
      obtain ⟨e1, e2, -⟩ := hlayer o ho
      refine ⟨base_dense hn hden hmB hrowsB h.base_leaf, mB, hmB, by omega, ?_⟩
      have htop := h.no_top hn hden hmB hle hpos hne
      obtain ⟨_, _, h3, ⟨k', hct', hleaf⟩, _⟩ := h.base_leaf
      obtain ⟨k'', hct'', hcard⟩ := cluster_card hn hden lamB hmB
      have hkk := CondTree.k_unique hct' hct''
      subst hkk
      refine leafClasses_of_sets hct' hrowsB htop h3 (fun c hc => ?_) (leaf_sets hn hden hposB hmB h.extract)
      obtain ⟨f1, f2, _⟩ := (hleaf c).1 hc
      have h3 := hcard c (lt_of_le_of_ne f1 fun e => htop (by rw [e]; exact hc)) f2 ((Finset.range n).filter fun x => CDesc _ c x) fun x => by
        rw [Finset.mem_filter, Finset.mem_range]
      obtain ⟨x, hx⟩ := Finset.card_pos.1 (Nat.lt_of_lt_of_le (by omega) h3)
      obtain ⟨hxn, hx⟩ := Finset.mem_filter.1 hx
      exact ⟨x, Finset.mem_range.1 hxn, hx⟩
    · obtain ⟨o, ho, rfl⟩ := List.mem_map.1 h'
      obtain ⟨e1, e2, e3, e4⟩ := hlayer o ho
      exact ⟨e3, o.1 + 1, by omega, by omega, e4⟩
  have hnest : ∀ (i j : ℕ) (fine coarse : Layer K), i < j → r.layers[i]? = some fine → r.layers[j]? = some coarse → ∀ a b : ℤ, 0 ≤ a → 0 ≤ b →
      ∀ z : ℕ, fine.labels[z]? = some a → coarse.labels[z]? = some b → ∀ x : ℕ, fine.labels[x]? = some a → coarse.labels[x]? = some b := by
    intro i j fine coarse hij hi hj a b ha hb z hz hz'
    obtain ⟨hil, hi'⟩ := List.getElem?_eq_some_iff.1 hi
    obtain ⟨hjl, hj'⟩ := List.getElem?_eq_some_iff.1 hj
    obtain ⟨d1, t1, t2, t3, t4⟩ := hall (by omega) fine (List.mem_of_getElem? hi)
    obtain ⟨d1', t1', t2', t3', t4'⟩ := hall (by omega) coarse (List.mem_of_getElem? hj)
    have hord := List.pairwise_iff_getElem.1 h.sorted i j hil hjl hij
    rw [hi', hj'] at hord
    rw [← hN] at t4 t4'
    exact classes_nested (hyp t1 t2) (hyp t1' t2') (by rw [hcount]; exact_mod_cast t3) t4 t4' (clusterSet_card d1 d1' hord) ha hb hz hz'
  obtain ⟨-, c2, c3, -⟩ := shape_tree hn hden hmB hm hpos hrowsB hrows h
  refine ⟨fun i j fine coarse hij hi hj a b ha hb => ?_, fun key ks hk l c hc => ?_⟩
  · by_cases hz : ∃ z : ℕ, fine.labels[z]? = some a ∧ coarse.labels[z]? = some b
    · obtain ⟨z, hz, hz'⟩ := hz
      exact .inl (hnest i j fine coarse hij hi hj a b ha hb z hz hz')
    · exact .inr fun x hx hx' => hz ⟨x, hx, hx'⟩
  · rcases c3 key ks hk l c hc with ⟨⟨q1, q2, q3, z, q4, q5⟩, -⟩ | ⟨h0, -⟩
    · right
      obtain ⟨child, hch, hc0, -⟩ := (c2 l c).1 ⟨key, ks, hk, hc⟩
      have hpa : r.layers[key.1]? = some r.layers[key.1] := List.getElem?_eq_getElem q2
      unfold layerLabels at q4 q5
      rw [hpa] at q4
      rw [hch] at q5
      exact ⟨child, _, hch, hpa, hnest l key.1 child _ q1 hch hpa c key.2 hc0 q3 z q5 q4⟩
    · exact .inl h0


/-- **C107** (partial): for a spanning tree without infinite edges, `base_min_cluster_size` at least 2 and `max_layers` at least 1, the layers are nested.  Each cluster of a
layer is inside a cluster of a later layer or has no sample in common with it.  So in the tree of the layers each cluster is inside its parent, except under the
artificial root `(number of layers, 0)`.
Missing: infinite edges.  For `base_n_clusters` see `C107_by_count_partial`. -/
theorem C107_nested_partial (n : ℕ) (hn : 2 ≤ n) (core : List (WithTop K)) (edges : List (Edge (WithTop K))) (ht : SpanningTree n edges)
    (hfin : ∀ e ∈ edges, e.w ≠ ⊤)
    (sortE : List (Edge (WithTop K)) → List (Edge (WithTop K))) (hsortE : ∀ l, (sortE l).Perm l ∧ (sortE l).Pairwise fun a b => a.w ≤ b.w)
    (lamSearch lam : WithTop K → K) (hpos : ∀ d, 0 ≤ lam d) (hlam : ∀ d, d ≠ ⊤ → lam d ≠ 0)
    (expInv : K → K) (hexp : ∀ x, 0 < x → expInv x ≤ 1) (order : (ℕ → K) → List ℕ → List ℕ)
    (horder : ∀ x l, (order x l).Perm l ∧ (order x l).Pairwise fun a b => x b ≤ x a) (sortLayers : List (Layer K) → List (Layer K))
    (hsort : ∀ l, (sortLayers l).Perm l ∧ (sortLayers l).Pairwise fun a b => maxLabel b.labels ≤ maxLabel a.labels) (thr : ℚ) (maxLayers : ℕ)
    (hmax : 1 ≤ maxLayers) (m : ℕ) (hm : 2 ≤ m) :
    ∃ r : PlscanFit K, plscanFit expInv order sortLayers sortE lamSearch lam thr maxLayers m none n core edges = some r ∧
      (∀ (i j : ℕ) (fine coarse : Layer K), i < j → r.layers[i]? = some fine → r.layers[j]? = some coarse → ∀ a b : ℤ, 0 ≤ a → 0 ≤ b →
        (∀ x : ℕ, fine.labels[x]? = some a → coarse.labels[x]? = some b) ∨ ∀ x : ℕ, fine.labels[x]? = some a → coarse.labels[x]? ≠ some b) ∧
      ∀ k ks, (k, ks) ∈ r.tree → ∀ l c, (l, c) ∈ ks → k = (r.layers.length, 0) ∨
        ∃ (child parent : Layer K), r.layers[l]? = some child ∧ r.layers[k.1]? = some parent ∧ ∀ x : ℕ, child.labels[x]? = some c → parent.labels[x]? = some k.2 := by
  obtain ⟨r, base, leaves, others, g1, h⟩ := fit_shape n hn core edges ht sortE hsortE lamSearch lam hpos expInv hexp order horder sortLayers hsort thr
    maxLayers hmax m hm
  obtain ⟨hden, hrows⟩ := fit_tree hn core ht hfin hsortE
  exact ⟨r, g1, shape_nested hn hden hm le_rfl hpos hpos (hrows lam hlam m hm) (hrows lam hlam m hm) h⟩

end

/-- The hypotheses hold, and there are two layers: the first two of three clusters make up the first of two. -/
example : (plscanFit exExpInv exOrder exSortLayers plSort plLam plLam (1 / 2) 10 2 none 11 [1, 1] (exPl 1 100)).map (fun r => (r.layers.map (·.labels), r.tree)) =
    some ([[2, 2, 2, 1, 1, 1, 0, 0, 0, 0, 0], [0, 0, 0, 0, 0, 0, 1, 1, 1, 1, 1]], [((1, 0), [(0, 2), (0, 1)]), ((1, 1), [(0, 0)]), ((2, 0), [(1, 0), (1, 1)])]) ∧
    ∃ r : PlscanFit ℚ, plscanFit exExpInv exOrder exSortLayers plSort plLam plLam (1 / 2) 10 2 none 11 [1, 1] (exPl 1 100) = some r ∧
      ∀ k ks, (k, ks) ∈ r.tree → ∀ l c, (l, c) ∈ ks → k = (r.layers.length, 0) ∨
        ∃ (child parent : Layer ℚ), r.layers[l]? = some child ∧ r.layers[k.1]? = some parent ∧ ∀ x : ℕ, child.labels[x]? = some c → parent.labels[x]? = some k.2 := by
  refine ⟨by decide +kernel, ?_⟩
  obtain ⟨r, h1, _, h2⟩ := C107_nested_partial 11 (by decide) [1, 1] (exPl 1 100) (exPl_tree 1 100) (by decide) plSort plSort_sorts plLam plLam plLam_nonneg
    plLam_ne_zero exExpInv (fun x hx => by unfold exExpInv; rw [div_le_one (by linarith)]; linarith) exOrder exOrder_sorts exSortLayers exSortLayers_sorts
    (1 / 2) 10 (by decide) 2 (by decide)
  exact ⟨r, h1, h2⟩

end Verif
