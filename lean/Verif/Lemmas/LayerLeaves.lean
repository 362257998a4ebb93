import Verif.Props.Barcode

/-!
# Layers are leaf clusterings for larger minimum cluster sizes
-/

namespace Verif
variable {W K S L : Type*}

section
variable [LinearOrder S] [One S] {H : Hier W S} {wt : ℕ → S} {mcs : S} {lam : W → L} {rows : List (CRow L S)} {k : ℕ} {relabel top : ℕ → ℕ}

/-- Node `v` is the top of a part for threshold `θ` that has no large merge inside. -/
def Hier.LeafNode (H : Hier W S) (wt : ℕ → S) (θ : S) (v : ℕ) : Prop :=
  (v = H.root ∨ ∃ i ∈ H.splitRows wt θ, H.IsKid (H.n + i) v) ∧ ∀ j ∈ H.splitRows wt θ, ¬ H.Sub v (H.n + j)

theorem childless_of_desc {n : ℕ} (hct : CondTree n k rows) {c d : ℕ} (hc : Childless n rows c) (hd : n ≤ d) (hs : CDesc rows c d) : d = c := by
  rcases Relation.ReflTransGen.cases_head hs with h1 | ⟨e, ⟨row, hr, hp, he⟩, h2⟩
  · exact h1.symm
  · have h3 := hc row hr hp
    rcases Relation.ReflTransGen.cases_head h2 with h4 | ⟨e', ⟨row', hr', hp', _⟩, _⟩
    · omega
    · have := (hct.parents row' hr').1
      omega

/-- Clusters other than the top one come from large merges. -/
theorem CondRes.kid_of_split (h : CondRes H wt mcs none lam rows k relabel top) {c : ℕ} (h1 : H.n < c) (h2 : c < H.n + k) :
    ∃ i ∈ H.splitRows wt mcs, H.IsKid (H.n + i) (top c) ∧ ∃ row ∈ rows, row.child = c ∧ row.parent = relabel (H.n + i) := by
  have hct := h.condTree
  obtain ⟨row, hrow, rfl⟩ := List.mem_map.1 ((hct.children c).2 (.inr ⟨h1, h2⟩))
  obtain ⟨_, _, v, hv, hk, hp, _, _, _, hs⟩ := h.rows_cl row hrow (by omega)
  have g1 := hk.1
  have g2 := hk.2.1
  have e : H.n + (v - H.n) = v := by omega
  exact ⟨v - H.n, mem_splitRows.2 ⟨by omega, hs.1, hs.2.1⟩, by rw [e]; exact hk, row, hrow, rfl, by rw [e]; exact hp⟩

theorem CondRes.leafNode (hh : CondHyp H wt mcs) (h : CondRes H wt mcs none lam rows k relabel top) {c : ℕ} (h1 : H.n ≤ c) (h2 : c < H.n + k)
    (hc : Childless H.n rows c) : H.LeafNode wt mcs (top c) := by
  refine ⟨?_, fun j hj hs => ?_⟩
  · rcases h1.eq_or_lt with h3 | h3
    · subst h3; exact .inl h.top_root
    · obtain ⟨i, hi, hk, _⟩ := h.kid_of_split h3 h2
      exact .inr ⟨i, hi, hk⟩
  · obtain ⟨ha, _⟩ := splitRows_alive hh hj
    obtain ⟨g1, g2⟩ := h.tops c h1 h2
    have h3 := h.desc_of_sub hh g1.2.1 hs ha
    rw [g2] at h3
    have h4 := childless_of_desc h.condTree hc (h.lab _ ha).1 h3
    exact (h.not_childless_iff hh).2 ⟨j, hj, rfl⟩ (h4 ▸ hc)

theorem CondRes.leaf_of_node (hh : CondHyp H wt mcs) (h : CondRes H wt mcs none lam rows k relabel top) {v : ℕ} (hv : H.LeafNode wt mcs v) :
    ∃ c, H.n ≤ c ∧ c < H.n + k ∧ Childless H.n rows c ∧ top c = v := by
  have hpos := h.condTree.pos
  obtain ⟨hv1, hv2⟩ := hv
  have key : ∀ c, H.n ≤ c → c < H.n + k → top c = v → Childless H.n rows c := by
    intro c h1 h2 ht
    by_contra hc
    obtain ⟨j, hj, rfl⟩ := (h.not_childless_iff hh).1 hc
    obtain ⟨ha, _⟩ := splitRows_alive hh hj
    exact hv2 j hj (ht ▸ (h.lab _ ha).2.2)
  rcases hv1 with rfl | ⟨i, hi, hk⟩
  · exact ⟨H.n, le_rfl, by omega, key _ le_rfl (by omega) h.top_root, h.top_root⟩
  · have ht := h.top_kid hh hi
    have hcl := h.cluster_ids hh
    have hin : ∀ c, c ∈ (H.splitRows wt mcs).image (fun i => relabel (H.l i)) ∪ (H.splitRows wt mcs).image (fun i => relabel (H.r i)) →
        H.n + 1 ≤ c ∧ c < H.n + k := fun c hc => by rw [← hcl] at hc; exact Finset.mem_Ico.1 hc
    have hk := hk.2.2
    rw [show H.n + i - H.n = i by omega] at hk
    rcases hk with rfl | rfl
    · have := hin _ (Finset.mem_union_left _ (Finset.mem_image.2 ⟨i, hi, rfl⟩))
      exact ⟨_, by omega, this.2, key _ (by omega) this.2 ht.1, ht.1⟩
    · have := hin _ (Finset.mem_union_right _ (Finset.mem_image.2 ⟨i, hi, rfl⟩))
      exact ⟨_, by omega, this.2, key _ (by omega) this.2 ht.2, ht.2⟩

end

section
variable [Field K] [LinearOrder K] [Inhabited K] {H : Hier W K} {wt : ℕ → K} {m0 θ s : K} {lam : W → K} {rows : List (CRow K K)} {k : ℕ}
  {relabel top : ℕ → ℕ}

/-- Both sides of a large merge die together, at the weight of the lighter one. -/
theorem CondRes.death_eq (hh : CondHyp H wt m0) (h : CondRes H wt m0 none lam rows k relabel top) (hk : 1 < k) (expInv : K → K) (minSize : K)
    {i : ℕ} (hi : i ∈ H.splitRows wt m0) {c : ℕ} (hc : c = relabel (H.l i) ∨ c = relabel (H.r i)) :
    (sizeBarcode expInv H.n minSize (clusterRows H.n rows)).deaths (c - H.n) = min (H.count wt (H.l i)) (H.count wt (H.r i)) := by
  obtain ⟨_, _, _, _, hd, _⟩ := C66_barcode rows h.condTree (h.binary hh) hk expInv minSize
  obtain ⟨ha, hs, _⟩ := splitRows_alive hh hi
  obtain ⟨g1, g2, _, _, _, g3, g4⟩ := h.two _ ha hs
  rw [show H.n + i - H.n = i by omega] at g1 g2 g3 g4
  have hl := (h.lab _ ha).1
  rcases hc with rfl | rfl
  · exact hd _ g3 _ g4 (by dsimp only; omega) (by dsimp only; omega) rfl (fun e => by
      have := congrArg CRow.child e
      simp only at this; omega)
  · rw [min_comm]
    exact hd _ g4 _ g3 (by dsimp only; omega) (by dsimp only; omega) rfl (fun e => by
      have := congrArg CRow.child e
      simp only at this; omega)

theorem CondRes.kid_label_eq (hh : CondHyp H wt m0) (h : CondRes H wt m0 none lam rows k relabel top) {c : ℕ} (h1 : H.n < c)
    (h2 : c < H.n + k) {i : ℕ} (hk : H.IsKid (H.n + i) (top c)) : c = relabel (H.l i) ∨ c = relabel (H.r i) := by
  have ht := (h.tops c (by omega) h2).2
  have := hk.2.2
  rw [show H.n + i - H.n = i by omega] at this
  rcases this with e | e
  · exact .inl (by rw [← e, ht])
  · exact .inr (by rw [← e, ht])

theorem splitRows_anti (hle : m0 ≤ θ) {i : ℕ} (hi : i ∈ H.splitRows wt θ) : i ∈ H.splitRows wt m0 := by
  obtain ⟨h1, h2, h3⟩ := mem_splitRows.1 hi
  exact mem_splitRows.2 ⟨h1, hle.trans h2, hle.trans h3⟩

/-- The tops of the clusters of a layer are the leaf nodes of the larger minimum cluster size. -/
theorem CondRes.layer_leafNode (hh : CondHyp H wt m0) (h : CondRes H wt m0 none lam rows k relabel top) (hk : 1 < k) (expInv : K → K)
    (hs : m0 ≤ s) (hsn : s < H.n) (hθ : ∀ v, v ≤ H.root → (s < H.count wt v ↔ θ ≤ H.count wt v)) (hle : m0 ≤ θ) {v : ℕ} :
    H.LeafNode wt θ v ↔ ∃ c ∈ layerClusters H.n k (sizeBarcode expInv H.n m0 (clusterRows H.n rows)) s, top c = v := by
  have hre := H.root_eq
  have hct := h.condTree
  have hpos := hct.pos
  obtain ⟨_, hd0, _, _, _, _, hbirth⟩ := C66_barcode rows hct (h.binary hh) hk expInv m0
  -- merges that are large for the larger size: both sides outlive `s`
  have hbig : ∀ i ∈ H.splitRows wt m0, i ∈ H.splitRows wt θ ↔ s < min (H.count wt (H.l i)) (H.count wt (H.r i)) := by
    intro i hi
    obtain ⟨_, _, kl, kr⟩ := splitRows_alive hh hi
    have h1 := kl.lt hh.valid
    have h2 := kr.lt hh.valid
    have h3 := kl.2.1
    have hm := (mem_splitRows.1 hi).1
    rw [lt_min_iff, hθ _ (by omega), hθ _ (by omega), mem_splitRows]
    exact ⟨fun h => h.2, fun h => ⟨hm, h⟩⟩
  constructor
  · rintro ⟨hv1, hv2⟩
    have hbirth' : ∀ c, H.n ≤ c → c < H.n + k → top c = v →
        (sizeBarcode expInv H.n m0 (clusterRows H.n rows)).births (c - H.n) ≤ s := by
      intro c h1 h2 ht
      refine (hbirth c h1 h2 s).2 ⟨hs, fun d d1 d2 d3 d4 => ?_⟩
      have hlt : H.n < d := by
        have := cdesc_le hct d4 d1
        omega
      obtain ⟨i, hi, hki, row, hr, hrc, hrp⟩ := h.kid_of_split hlt d2
      rw [h.death_eq hh hk expInv m0 hi (h.kid_label_eq hh hlt d2 hki)]
      by_contra hcon
      refine hv2 i ((hbig i hi).2 (not_le.1 hcon)) ?_
      have ha := (splitRows_alive hh hi).1
      have h5 : CDesc rows c (relabel (H.n + i)) := by
        rcases Relation.ReflTransGen.cases_tail d4 with g | ⟨e, g1, ⟨row', hr', hp', hc'⟩⟩
        · exact absurd g d3
        · have : row' = row := List.inj_on_of_nodup_map hct.nodup hr' hr (hc'.trans hrc.symm)
          subst this
          rw [← hrp, hp']; exact g1
      have h6 := (h.sub_of_desc h5 h1).2 (h.lab _ ha).1
      rw [ht] at h6
      exact h6.trans (h.lab _ ha).2.2
    rcases hv1 with rfl | ⟨i, hi, hki⟩
    · refine ⟨H.n, mem_layerClusters.2 ⟨le_rfl, by omega, hbirth' _ le_rfl (by omega) h.top_root, ?_⟩, h.top_root⟩
      rw [Nat.sub_self, hd0]; exact hsn
    · have hi0 := splitRows_anti hle hi
      have ht := h.top_kid hh hi0
      have hcl := h.cluster_ids hh
      have hin : ∀ c, (c = relabel (H.l i) ∨ c = relabel (H.r i)) → H.n + 1 ≤ c ∧ c < H.n + k := by
        intro c hc
        refine Finset.mem_Ico.1 ?_
        rw [hcl, Finset.mem_union, Finset.mem_image, Finset.mem_image]
        rcases hc with rfl | rfl
        · exact .inl ⟨i, hi0, rfl⟩
        · exact .inr ⟨i, hi0, rfl⟩
      have key : ∀ c, (c = relabel (H.l i) ∨ c = relabel (H.r i)) → top c = v →
          c ∈ layerClusters H.n k (sizeBarcode expInv H.n m0 (clusterRows H.n rows)) s := by
        intro c hc htc
        have h1 := hin c hc
        refine mem_layerClusters.2 ⟨by omega, h1.2, hbirth' c (by omega) h1.2 htc, ?_⟩
        rw [h.death_eq hh hk expInv m0 hi0 hc]
        exact (hbig i hi0).1 hi
      have hkk := hki.2.2
      rw [show H.n + i - H.n = i by omega] at hkk
      rcases hkk with rfl | rfl
      · exact ⟨_, key _ (.inl rfl) ht.1, ht.1⟩
      · exact ⟨_, key _ (.inr rfl) ht.2, ht.2⟩
  · rintro ⟨c, hc, rfl⟩
    obtain ⟨c1, c2, c3, c4⟩ := mem_layerClusters.1 hc
    refine ⟨?_, fun j hj hsub => ?_⟩
    · rcases c1.eq_or_lt with h3 | h3
      · subst h3; exact .inl h.top_root
      · obtain ⟨i, hi, hki, _⟩ := h.kid_of_split h3 c2
        rw [h.death_eq hh hk expInv m0 hi (h.kid_label_eq hh h3 c2 hki)] at c4
        exact .inr ⟨i, (hbig i hi).2 c4, hki⟩
    · have hj0 := splitRows_anti hle hj
      obtain ⟨ha, hsp, kl, _⟩ := splitRows_alive hh hj0
      obtain ⟨g1, g2⟩ := h.tops c c1 c2
      have h3 := h.desc_of_sub hh g1.2.1 hsub ha
      rw [g2] at h3
      obtain ⟨t1, _, _, _, _, t2, _⟩ := h.two _ ha hsp
      rw [show H.n + j - H.n = j by omega] at t1 t2
      have hal := (alive_kid_iff hh kl).2 (mem_splitRows.1 hj0).2.1
      have hlab := h.lab _ hal
      have h4 : CDesc rows c (relabel (H.l j)) := h3.tail ⟨_, t2, rfl, rfl⟩
      have h5 := cdesc_le hct h3 (h.lab _ ha).1
      have h6 := ((hbirth c c1 c2 s).1 c3).2 _ hlab.1 hlab.2.1 (by omega) h4
      rw [h.death_eq hh hk expInv m0 hj0 (.inl rfl)] at h6
      exact absurd ((hbig j hj0).1 hj) (not_lt.2 h6)

end
end Verif
