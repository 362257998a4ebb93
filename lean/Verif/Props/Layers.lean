import Verif.Lemmas.Peaks
import Verif.Lemmas.Layers

/-!
# C51, C52, C53: peaks, diverse peaks and the tree of layers
-/

namespace Verif

/-! ## C51 -/

/-- **C51.**  `find_peaks` reports exactly the flat stretches whose two neighbours exist and are lower: one position for each, the
rounded-down middle, in ascending order, and no more of them than the output buffer of `n // 2` entries holds. -/
theorem C51_peaks {W : Type*} [LinearOrder W] (n : ℕ) (x : ℕ → W) :
    ∃ ps : List (ℕ × ℕ), findPeaks n x = ps.map (fun p => (p.1 + p.2) / 2) ∧ (∀ l r, (l, r) ∈ ps ↔ PlateauMax n x l r) ∧
      ps.Nodup ∧ (findPeaks n x).Pairwise (· < ·) ∧ (findPeaks n x).length ≤ n / 2 := by
  obtain ⟨ps, h1, h2, h3⟩ := peakLoop_spec x n n 1 (by omega) (by omega)
  have hp : ∀ p ∈ ps, PlateauMax n x p.1 p.2 := fun p hp => ((h2 p.1 p.2).1 hp).1
  have hle : ∀ p ∈ ps, p.1 ≤ p.2 := fun p h => (hp p h).le
  have hfp : findPeaks n x = ps.map (fun p => (p.1 + p.2) / 2) := h1
  refine ⟨ps, hfp, fun l r => ?_, ?_, ?_, ?_⟩
  · rw [h2]
    exact ⟨fun h => h.1, fun h => ⟨h, h.pos⟩⟩
  · have := List.Pairwise.and_mem.1 h3
    refine this.imp fun {p q} h => ?_
    rintro rfl
    have := hle p h.1
    omega
  · rw [hfp, List.pairwise_map]
    refine (List.Pairwise.and_mem.1 h3).imp fun {p q} h => ?_
    have := hle p h.1
    have := hle q h.2.1
    omega
  · rw [hfp, List.length_map]
    rcases separated_length (i := 1) (n := n) ps (fun p h => ⟨(hp p h).pos, (hp p h).le, (hp p h).lt⟩) h3 with h | h
    · omega
    · simp [h]

/-- In 1 3 2 4 4 0 5 5 there are two peaks; the plateau at the end has no right neighbour. -/
example : findPeaks 8 (fun i => [1, 3, 2, 4, 4, 0, 5, 5].getD i (0 : ℕ)) = [1, 3] := by decide

example : PlateauMax 8 (fun i => [1, 3, 2, 4, 4, 0, 5, 5].getD i (0 : ℕ)) 3 4 :=
  ⟨by decide, by decide, by decide, fun j h1 h2 => by
    have : j = 3 ∨ j = 4 := by omega
    rcases this with rfl | rfl <;> rfl, by decide, by decide⟩

/-! ## C52 -/

/-- The clusters active at size `s`. -/
def activeSet {W : Type*} [LinearOrder W] (m : ℕ) (births deaths : ℕ → W) (s : W) : Finset ℕ :=
  (Finset.range m).filter fun i => births i ≤ s ∧ s < deaths i

/-- **C52.**  At most the requested number of peaks is selected, each of them offered and none twice; two selected peaks are never more
similar than the threshold; a peak left out is too similar to a selected one of at least its persistence, or all places are taken by peaks of
at least its persistence.  `order` is any sort by descending persistence. -/
theorem C52_diverse_peaks {W P : Type*} [LinearOrder W] [LinearOrder P] (order : List ℕ → List ℕ) (pers : ℕ → P) (peaks : List ℕ)
    (hperm : (order peaks).Perm peaks) (hdesc : (order peaks).Pairwise fun a b => pers b ≤ pers a) (hnd : peaks.Nodup)
    (sizes : ℕ → W) (m : ℕ) (births deaths : ℕ → W) (thr : ℚ) (maxLayers : ℕ) (out : List ℕ)
    (ho : out = selectDiversePeaks order peaks sizes m births deaths thr maxLayers) :
    out.length ≤ maxLayers ∧ out.Nodup ∧ (∀ p ∈ out, p ∈ peaks) ∧ (out.Pairwise fun a b => pers b ≤ pers a) ∧
      (∀ p ∈ out, ∀ q ∈ out, p ≠ q → jaccard (activeSet m births deaths (sizes p)) (activeSet m births deaths (sizes q)) ≤ thr) ∧
      ∀ p ∈ peaks, p ∉ out →
        (∃ q ∈ out, pers p ≤ pers q ∧ thr < jaccard (activeSet m births deaths (sizes p)) (activeSet m births deaths (sizes q))) ∨
        (out.length = maxLayers ∧ ∀ q ∈ out, pers p ≤ pers q) := by
  obtain ⟨h1, h2, h3, h4⟩ := diverseLoop_spec (fun p q => clusterSimilarity m births deaths (sizes p) (sizes q)) thr maxLayers
    (fun a b => pers b ≤ pers a) (order peaks) [] [] (List.Sublist.refl _) (by simp) List.Pairwise.nil (by simp) (by simpa using hdesc)
  have ho' : out = diverseLoop (fun p q => clusterSimilarity m births deaths (sizes p) (sizes q)) thr maxLayers (order peaks) [] := ho
  rw [← ho', List.nil_append] at h1 h4
  rw [← ho'] at h2 h3
  simp only [clusterSimilarity_eq] at h3 h4
  refine ⟨h2, h1.nodup (hperm.nodup_iff.2 hnd), fun p hp => hperm.subset (h1.subset hp), hdesc.sublist h1, ?_, fun p hp hn => ?_⟩
  · have hsym : ∀ a b : ℕ, jaccard (activeSet m births deaths (sizes b)) (activeSet m births deaths (sizes a)) ≤ thr →
        jaccard (activeSet m births deaths (sizes a)) (activeSet m births deaths (sizes b)) ≤ thr := fun a b h => by
      rw [jaccard_comm]; exact h
    intro p hp q hq hne
    have h3' : out.Pairwise fun q p => jaccard (activeSet m births deaths (sizes p)) (activeSet m births deaths (sizes q)) ≤ thr := h3
    rcases List.pairwise_iff_forall_sublist.1 h3' with _
    have key := List.Pairwise.forall_of_forall_of_flip (R := fun q p => p = q ∨
      jaccard (activeSet m births deaths (sizes p)) (activeSet m births deaths (sizes q)) ≤ thr) (l := out) (fun _ _ => Or.inl rfl)
      (h3'.imp fun h => Or.inr h) (h3'.imp fun h => Or.inr (hsym _ _ h))
    rcases key hq hp with h | h
    · exact absurd h hne
    · exact h
  · exact h4 p (hperm.mem_iff.2 hp) hn

/-- Three clusters with lives [2,5), [2,4), [4,6): sizes 2 and 3 have the same clusters, so peak 1 is left out; size 4 shares one of three. -/
example : selectDiversePeaks id [0, 1, 2] (fun i => i + 2) 3 (fun i => [2, 2, 4].getD i 0) (fun i => [5, 4, 6].getD i 0) (1/2) 5 = [0, 2] := by
  decide +kernel

example : selectDiversePeaks id [0, 1, 2] (fun i => i + 2) 3 (fun i => [2, 2, 4].getD i 0) (fun i => [5, 4, 6].getD i 0) (1/2) 1 = [0] := by
  decide +kernel

/-! ## C53 -/

/-- **C53** for layers numbered without gaps.  Every cluster of every layer is a child exactly once and nothing else is.  A row's parent is
the cluster of the nearest later layer that shares a sample (the smallest label among those); if no later layer has a cluster sharing
a sample, the parent is the artificial root `(L, 0)`.
Missing: layers with a gap in their labels, `C53_gap`. -/
theorem C53_layer_tree_partial (L : ℕ) (labels : ℕ → List ℤ) (hd : ∀ l, l < L → DenseLayer (labels l)) :
    ((buildClusterTree L labels).map fun r => (r.cl, r.c)).Nodup ∧
    (∀ l c, (l, c) ∈ (buildClusterTree L labels).map (fun r => (r.cl, r.c)) ↔ l < L ∧ 0 ≤ c ∧ c ∈ labels l) ∧
    (∀ r ∈ buildClusterTree L labels, LayerParent L labels r.pl r.p r.cl r.c ∨
      (r.pl = L ∧ r.p = 0 ∧ ∀ pl p, r.cl < pl → pl < L → 0 ≤ p → ¬ Shares labels pl p r.cl r.c)) := by
  unfold buildClusterTree
  simp only
  rw [buildLoops_eq hd]
  have inv := offers_inv (offers_sorted L labels)
  generalize (offers L labels).foldl offerStep ⟨[], fun _ => [-1]⟩ = s at inv
  have hrow : ∀ r ∈ s.mapping, LayerParent L labels r.pl r.p r.cl r.c := by
    intro r hr
    obtain ⟨h0, hm, hmin⟩ := (inv.rows r).1 hr
    refine ⟨mem_offers.1 hm, fun pl' p' h1 h2 h3 h4 => ?_⟩
    exact hmin ⟨pl', p', r.cl, r.c⟩ (mem_offers.2 ⟨h1, h2, h3, h4⟩) rfl rfl
  -- a cluster is found exactly when some later cluster shares a sample
  have hfound : ∀ ll c, 0 ≤ c → (c ∈ s.found ll ↔ ∃ pl p, ll < pl ∧ pl < L ∧ 0 ≤ p ∧ Shares labels pl p ll c) := by
    intro ll c h0
    rw [inv.found]
    constructor
    · rintro (rfl | ⟨_, r, hr, rfl, rfl⟩)
      · omega
      · exact ⟨r.pl, r.p, mem_offers.1 hr⟩
    · rintro ⟨pl, p, h⟩
      exact Or.inr ⟨h0, ⟨pl, p, ll, c⟩, mem_offers.2 h, rfl, rfl⟩
  -- a cluster is found exactly when it is a child in the mapping
  have hmapped : ∀ ll c, 0 ≤ c → c ∈ s.found ll → (ll, c) ∈ s.mapping.map fun r => (r.cl, r.c) := by
    intro ll c h0 hf
    have hex : ∃ r ∈ offers L labels, r.cl = ll ∧ r.c = c := by
      rcases (inv.found _ _).1 hf with h | h
      · omega
      · exact h.2
    -- take the least offer
    obtain ⟨r0, hr0, hcl0, hc0⟩ := hex
    have hmin : ∃ r ∈ offers L labels, (r.cl = ll ∧ r.c = c) ∧ ∀ r' ∈ offers L labels, r'.cl = ll → r'.c = c →
        r.pl < r'.pl ∨ (r.pl = r'.pl ∧ r.p ≤ r'.p) := by
      have hp := offers_sorted L labels
      generalize offers L labels = os at hp hr0
      clear inv hfound hrow
      induction os with
      | nil => cases hr0
      | cons o os ih =>
        obtain ⟨h1, h2⟩ := List.pairwise_cons.1 hp
        by_cases ho : o.cl = ll ∧ o.c = c
        · refine ⟨o, by simp, ho, fun r' hr' hcl hcc => ?_⟩
          rcases List.mem_cons.1 hr' with rfl | hr'
          · exact Or.inr ⟨rfl, le_refl _⟩
          · rcases h1 r' hr' with h | ⟨h, h' | h'⟩
            · exact Or.inl h
            · omega
            · exact Or.inr ⟨h, h'.2⟩
        · have hr0' : r0 ∈ os := by
            rcases List.mem_cons.1 hr0 with rfl | h
            · exact absurd ⟨hcl0, hc0⟩ ho
            · exact h
          obtain ⟨r, hr, hk, hm⟩ := ih h2 hr0'
          refine ⟨r, by simp [hr], hk, fun r' hr' hcl hcc => ?_⟩
          rcases List.mem_cons.1 hr' with rfl | hr'
          · exact absurd ⟨hcl, hcc⟩ ho
          · exact hm r' hr' hcl hcc
    obtain ⟨r, hr, ⟨hcl, hcc⟩, hm⟩ := hmin
    exact List.mem_map.2 ⟨r, (inv.rows r).2 ⟨by omega, hr, fun r' hr' h1 h2 => hm r' hr' (by omega) (by omega)⟩, by rw [hcl, hcc]⟩
  have hmem_tail : ∀ r, (r ∈ (List.range L).reverse.flatMap fun ll =>
      ((List.range (maxLabel (labels ll) + 1).toNat).filter fun (c : ℕ) => decide ((c : ℤ) ∉ s.found ll)).map
        fun (c : ℕ) => (⟨L, 0, ll, (c : ℤ)⟩ : LayerRow)) ↔
      r.pl = L ∧ r.p = 0 ∧ r.cl < L ∧ 0 ≤ r.c ∧ r.c ∈ labels r.cl ∧ r.c ∉ s.found r.cl := by
    intro r
    rw [List.mem_flatMap]
    constructor
    · rintro ⟨ll, hll, hr⟩
      obtain ⟨c, hc, rfl⟩ := List.mem_map.1 hr
      obtain ⟨hc1, hc2⟩ := List.mem_filter.1 hc
      have hll' : ll < L := by simpa using hll
      have hc3 := List.mem_range.1 hc1
      refine ⟨rfl, rfl, hll', by simp only; omega, ((hd ll hll').mem_iff (by simp only; omega)).2 (by simp only; omega), of_decide_eq_true hc2⟩
    · rintro ⟨h1, h2, h3, h4, h5, h6⟩
      have := ((hd _ h3).mem_iff h4).1 h5
      refine ⟨r.cl, by simpa using h3, List.mem_map.2 ⟨r.c.toNat, List.mem_filter.2 ⟨List.mem_range.2 (by omega), ?_⟩, ?_⟩⟩
      · rw [decide_eq_true_eq, Int.toNat_of_nonneg h4]; exact h6
      · exact LayerRow.ext' h1.symm h2.symm rfl (by simp only; omega)
  refine ⟨?_, fun l c => ?_, fun r hr => ?_⟩
  · rw [List.map_append]
    refine List.nodup_append.2 ⟨inv.nodup, ?_, fun a ha b hb => ?_⟩
    · rw [List.map_flatMap]
      refine pairwise_flatMap_of (Q := fun a b => b < a) (List.pairwise_reverse.2 List.pairwise_lt_range) (fun ll _ => ?_) (fun a b hab x hx y hy => ?_)
      · rw [List.map_map, List.pairwise_map]
        refine (List.nodup_range.filter _).imp fun {a b} hne h => hne ?_
        simp only [Function.comp, Prod.mk.injEq, true_and] at h
        exact_mod_cast h
      · rw [List.map_map] at hx hy
        obtain ⟨_, _, rfl⟩ := List.mem_map.1 hx
        obtain ⟨_, _, rfl⟩ := List.mem_map.1 hy
        simp only [Function.comp, ne_eq, Prod.mk.injEq, not_and]
        omega
    · rintro rfl
      obtain ⟨r, hr, rfl⟩ := List.mem_map.1 ha
      obtain ⟨r', hr', he⟩ := List.mem_map.1 hb
      rw [Prod.mk.injEq] at he
      obtain ⟨_, _, _, h4, _, h6⟩ := (hmem_tail r').1 hr'
      refine h6 ((hfound _ _ h4).2 ⟨r.pl, r.p, ?_⟩)
      rw [he.1, he.2]
      exact (hrow r hr).1
  · rw [List.map_append, List.mem_append]
    constructor
    · rintro (h | h)
      · obtain ⟨r, hr, he⟩ := List.mem_map.1 h
        rw [Prod.mk.injEq] at he
        obtain ⟨h0, _, _⟩ := (inv.rows r).1 hr
        obtain ⟨g1, g2, g3, i, g4, g5⟩ := (hrow r hr).1
        rw [← he.1, ← he.2]
        exact ⟨by omega, h0, List.mem_of_getElem? g5⟩
      · obtain ⟨r, hr, he⟩ := List.mem_map.1 h
        rw [Prod.mk.injEq] at he
        obtain ⟨_, _, h3, h4, h5, _⟩ := (hmem_tail r).1 hr
        rw [← he.1, ← he.2]
        exact ⟨h3, h4, h5⟩
    · rintro ⟨h1, h2, h3⟩
      by_cases hf : c ∈ s.found l
      · exact Or.inl (hmapped l c h2 hf)
      · exact Or.inr (List.mem_map.2 ⟨⟨L, 0, l, c⟩, (hmem_tail _).2 ⟨rfl, rfl, h1, h2, h3, hf⟩, rfl⟩)
  · rcases List.mem_append.1 hr with hr | hr
    · exact Or.inl (hrow r hr)
    · obtain ⟨h1, h2, h3, h4, h5, h6⟩ := (hmem_tail r).1 hr
      refine Or.inr ⟨h1, h2, fun pl p g1 g2 g3 g4 => h6 ((hfound _ _ h4).2 ⟨pl, p, g1, g2, g3, g4⟩)⟩

/-- **C53**, the dictionary users see: one entry for each parent, listing its children in the order of the rows, none lost. -/
theorem C53_dictionary (rows : List LayerRow) :
    ((layerTreeDict rows).map Prod.fst).Nodup ∧
    (∀ r ∈ rows, ∃ ks, ((r.pl, r.p), ks) ∈ layerTreeDict rows ∧ (r.cl, r.c) ∈ ks) ∧
    ∀ k ks, (k, ks) ∈ layerTreeDict rows → ks ≠ [] ∧ ks = (rows.filter fun r => decide ((r.pl, r.p) = k)).map fun r => (r.cl, r.c) := by
  obtain ⟨h1, h2, h3⟩ := layerTreeDict_spec rows
  refine ⟨h1, fun r hr => ?_, h2⟩
  obtain ⟨⟨k, ks⟩, hk, he⟩ := List.mem_map.1 ((h3 (r.pl, r.p)).2 ⟨r, hr, rfl⟩)
  simp only at he
  subst he
  refine ⟨ks, hk, ?_⟩
  rw [(h2 _ _ hk).2]
  exact List.mem_map.2 ⟨r, List.mem_filter.2 ⟨hr, by simp⟩, rfl⟩

/-- Three layers of six samples. -/
def exLayers : ℕ → List ℤ
  | 0 => [0, 0, 1, 1, 2, -1]
  | 1 => [0, 0, -1, 1, -1, -1]
  | 2 => [0, 0, 0, 0, -1, -1]
  | _ => []

example : ∀ l, l < 3 → DenseLayer (exLayers l) := by
  have h : ∀ l, l < 3 → ∀ x ∈ exLayers l, -1 ≤ x ∧ ∀ k : ℕ, k < (x + 1).toNat → (k : ℤ) ∈ exLayers l := by decide
  intro l hl x hx
  refine ⟨(h l hl x hx).1, fun v h1 h2 => ?_⟩
  have := (h l hl x hx).2 v.toNat (by omega)
  rwa [Int.toNat_of_nonneg h1] at this

example : buildClusterTree 3 exLayers = [⟨1, 0, 0, 0⟩, ⟨1, 1, 0, 1⟩, ⟨2, 0, 1, 0⟩, ⟨2, 0, 1, 1⟩, ⟨3, 0, 2, 0⟩, ⟨3, 0, 0, 2⟩] := by decide

/-- **C53** fails for a gap: with labels -1, 0, 1, 3 in the upper layer and noise present, the group of the noise samples is dropped and
cluster 0 gets the members of cluster 1: its child shares no sample with it. -/
theorem C53_gap : ∃ (L : ℕ) (labels : ℕ → List ℤ) (r : LayerRow), (∀ l, l < L → (labels l).length = 5) ∧
    r ∈ buildClusterTree L labels ∧ r.pl < L ∧ ¬ Shares labels r.pl r.p r.cl r.c := by
  refine ⟨2, fun l => if l = 0 then [0, 1, 2, 3, -1] else [-1, 0, 1, 3, -1], ⟨1, 0, 0, 2⟩, by decide, by decide, by decide, ?_⟩
  rintro ⟨i, h1, h2⟩
  simp only at h1 h2
  rcases i with _ | _ | _ | _ | _ | i <;> simp at h1 h2

end Verif
