import Verif.Lemmas.LayerLeaves
import Verif.Props.LayerSearch

/-!
# C67: each layer is the leaf clustering for another minimum cluster size
-/

namespace Verif
variable {W K : Type*}

section
variable [Field K] [LinearOrder K] [IsStrictOrderedRing K] [Inhabited W] [Inhabited K]

/-- The sets of samples of the given clusters. -/
def sampleSets (n : ℕ) (rows : List (CRow K K)) (cs : List ℕ) : Set (Set ℕ) :=
  {X | ∃ c ∈ cs, X = {x | x < n ∧ CDesc rows c x}}

omit [IsStrictOrderedRing K] [Inhabited W] [Inhabited K] in
theorem barcodeNodes_ne {n k : ℕ} {rows : List (CRow K K)} (h : CondTree n k rows) (hk : ∃ m, barcodeNodes n (clusterRows n rows) = some m) :
    1 < k := by
  obtain ⟨m, hm⟩ := hk
  unfold barcodeNodes at hm
  obtain ⟨row, hr, _⟩ := Option.map_eq_some_iff.1 hm
  have := List.mem_filter.1 (List.mem_of_getLast? hr)
  have h1 := (h.children row.child).1 (List.mem_map_of_mem this.1)
  have h2 := of_decide_eq_true this.2
  omega

/-- **C67.**  Every sample counting 1: the clusters of the layer at the integer size `s`, read off the condensed tree for the base minimum cluster
size `m`, are as sets of samples the leaf clusters of the condensed tree for the minimum cluster size `s + 1`. -/
theorem C67_layer_is_leaf_clustering (n : ℕ) (hn : 2 ≤ n) (linkage : List (LRow W K)) (h : Dendrogram n (fun _ => 1) linkage) (lam lam' : W → K)
    (expInv : K → K) (m s k : ℕ) (hm : 2 ≤ m) (hms : m ≤ s) (hsn : s < n)
    (hk : barcodeNodes n (clusterRows n (searchTree lam linkage m)) = some k) :
    ∃ leaves, extractLeaves (searchTree lam' linkage (s + 1)) = some leaves ∧
      sampleSets n (searchTree lam linkage m) (layerClusters n k (sizeBarcode expInv n (m : K) (clusterRows n (searchTree lam linkage m))) (s : K)) =
        sampleSets n (searchTree lam' linkage (s + 1)) leaves := by
  classical
  have hN := h.hier_n
  have hM : 0 < (Hier.ofRows linkage).m := by
    have := h.length; change 0 < linkage.length; omega
  have hyp : ∀ t : ℕ, 2 ≤ t → CondHyp (Hier.ofRows linkage) (fun _ => (1 : K)) (t : K) := fun t ht =>
    h.condHyp (fun _ _ => zero_le_one) (fun _ _ => by exact_mod_cast (show 1 < t by omega))
  obtain ⟨k0, relabel, top, hr⟩ := condense_res (mx := none) (hyp m hm) hM lam
  obtain ⟨k1, relabel', top', hr'⟩ := condense_res (mx := none) (hyp (s + 1) (by omega)) hM lam'
  have hct := hr.condTree
  have hct' := hr'.condTree
  have hbin := hr.binary (hyp m hm)
  have hcount : ∀ v, v ≤ (Hier.ofRows linkage).root → ((s : K) < (Hier.ofRows linkage).count (fun _ => 1) v ↔
      ((s + 1 : ℕ) : K) ≤ (Hier.ofRows linkage).count (fun _ => 1) v) := by
    intro v hv
    rw [h.count_eq hv, Finset.sum_const, nsmul_eq_mul, mul_one]
    norm_cast
  have h1k : 1 < k0 := barcodeNodes_ne (by rw [hN] at hct; exact hct) ⟨k, hk⟩
  have hkk : k0 = k := by
    obtain ⟨e, _⟩ := C66_barcode (searchTree lam linkage m) hct hbin h1k expInv (m : K)
    rw [hN] at e
    exact Option.some.inj (e.symm.trans hk)
  subst hkk
  have hlayer := fun v => hr.layer_leafNode (hyp m hm) h1k expInv (s := (s : K)) (θ := ((s + 1 : ℕ) : K)) (by exact_mod_cast hms)
    (by rw [hN]; exact_mod_cast hsn) hcount (by exact_mod_cast (show m ≤ s + 1 by omega)) (v := v)
  -- the leaves
  obtain ⟨_, _, _, hsz⟩ := C17_condensed_clusters_real n hn (fun _ => (1 : K)) linkage h ((s + 1 : ℕ) : K) (fun _ _ => zero_le_one)
    (fun _ _ => by exact_mod_cast (show 1 < s + 1 by omega)) lam'
  have hs1 : (1 : K) < ((s + 1 : ℕ) : K) := by exact_mod_cast (show 1 < s + 1 by omega)
  rw [hN] at hct'
  obtain ⟨leaves, g1, _, _, g4⟩ := C20_extract_leaves (searchTree lam' linkage (s + 1)) hct' (fun row hrow => by
    constructor
    · intro h2
      by_contra h3
      rw [(hsz row hrow).1 (by omega)] at h2
      exact lt_irrefl _ h2
    · intro h2
      exact hs1.trans_le ((hsz row hrow).2 h2).1) (fun c h2 h3 => hr'.full (hyp (s + 1) (by omega)) (by omega) (by omega))
  refine ⟨leaves, g1, ?_⟩
  rw [hN] at hlayer
  have hset0 : ∀ c, n ≤ c → c < n + k0 → {x | x < n ∧ CDesc (searchTree lam linkage m) c x} = {x | x < n ∧ (Hier.ofRows linkage).Sub (top c) x} := by
    intro c h1 h2
    ext x
    exact and_congr_right fun hx => hr.below_iff (hyp m hm) (by omega) (by omega) (by omega)
  have hset1 : ∀ c, n ≤ c → c < n + k1 →
      {x | x < n ∧ CDesc (searchTree lam' linkage (s + 1)) c x} = {x | x < n ∧ (Hier.ofRows linkage).Sub (top' c) x} := by
    intro c h1 h2
    ext x
    exact and_congr_right fun hx => hr'.below_iff (hyp (s + 1) (by omega)) (by omega) (by omega) (by omega)
  ext X
  unfold sampleSets
  rw [Set.mem_setOf_eq, Set.mem_setOf_eq]
  constructor
  · rintro ⟨c, hc, rfl⟩
    have hc' := mem_layerClusters.1 hc
    obtain ⟨c', d1, d2, d3, d4⟩ := hr'.leaf_of_node (hyp (s + 1) (by omega)) ((hlayer (top c)).2 ⟨c, hc, rfl⟩)
    rw [hN] at d1 d2 d3
    refine ⟨c', (g4 c').2 ⟨d1, d2, d3⟩, ?_⟩
    rw [hset0 c hc'.1 hc'.2.1, hset1 c' d1 d2, d4]
  · rintro ⟨c', hc', rfl⟩
    obtain ⟨d1, d2, d3⟩ := (g4 c').1 hc'
    obtain ⟨c, hc, ht⟩ := (hlayer (top' c')).1 (hr'.leafNode (hyp (s + 1) (by omega)) (by omega) (by omega) (by rw [hN]; exact d3))
    have hcm := mem_layerClusters.1 hc
    exact ⟨c, hc, by rw [hset0 c hcm.1 hcm.2.1, hset1 c' d1 d2, ht]⟩

end

/-- The layer at size 3 of the twelve samples consists of the two halves, as the leaf clustering for minimum cluster size 4 does. -/
example : ∃ leaves, extractLeaves (searchTree invLam exTwelveLinkage 4) = some leaves ∧
    sampleSets 12 (searchTree invLam exTwelveLinkage 2) [13, 14] = sampleSets 12 (searchTree invLam exTwelveLinkage 4) leaves := by
  have hl : layerClusters 12 7 (sizeBarcode exExpInv 12 ((2 : ℕ) : ℚ) (clusterRows 12 (searchTree invLam exTwelveLinkage 2))) ((3 : ℕ) : ℚ) =
      [13, 14] := by decide +kernel
  have := C67_layer_is_leaf_clustering 12 (by decide) exTwelveLinkage exTwelve_dendrogram invLam invLam exExpInv 2 3 7 (by decide) (by decide)
    (by decide) (by decide +kernel)
  rwa [hl] at this

end Verif
