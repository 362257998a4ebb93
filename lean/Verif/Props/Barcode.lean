import Verif.Lemmas.Barcode
import Verif.Props.LayerSearch

/-!
# C66: the barcode of minimum cluster sizes and the layers read off it
-/

namespace Verif
variable {K L S : Type*}

section
variable [Field K] [LinearOrder K] {n k : ℕ}

/-- **C66.**  In the barcode of a condensed tree: the arrays have one entry for each cluster; the top cluster dies at the number of samples, two
sibling clusters at the smaller of their sizes; a cluster has been born at size `s` exactly when the minimum size has been reached and every
cluster strictly below it is dead.  Parents and lambdas are those of the tree. -/
theorem C66_barcode [Inhabited K] (rows : List (CRow K K)) (h : CondTree n k rows) (hb : CBinary n k rows) (h2 : 1 < k) (expInv : K → K) (minSize : K) :
    let b := sizeBarcode expInv n minSize (clusterRows n rows)
    barcodeNodes n (clusterRows n rows) = some k ∧ b.deaths 0 = n ∧ b.parents 0 = n ∧ b.lamDeaths 0 = 0 ∧
    (∀ r ∈ rows, ∀ r' ∈ rows, n ≤ r.child → n ≤ r'.child → r.parent = r'.parent → r ≠ r' → b.deaths (r.child - n) = min r.size r'.size) ∧
    (∀ r ∈ rows, n ≤ r.child → b.parents (r.child - n) = r.parent ∧ b.lamDeaths (r.child - n) = if 0 < r.lam then expInv r.lam else 0) ∧
    ∀ c, n ≤ c → c < n + k → ∀ s, b.births (c - n) ≤ s ↔
      minSize ≤ s ∧ ∀ d, n ≤ d → d < n + k → d ≠ c → CDesc rows c d → b.deaths (d - n) ≤ s := by
  intro b
  obtain ⟨M, P, A, B, lv, hk, hp⟩ := exists_pairRows h hb
  have hi : BarInv expInv n minSize P A B lv 0 M b := barcode_inv hp
  refine ⟨?_, hi.deaths0, hi.parents0, hi.lam0, ?_, ?_, fun c h1 h2 s => hi.births_le h hk hp s _ c h1 h2 le_rfl⟩
  · unfold barcodeNodes
    rw [List.getLast?_eq_getElem?, show (clusterRows n rows).length - 1 = 2 * (M - 1) + 1 by
      have : (clusterRows n rows).length = 2 * M := hp.len
      omega]
    rw [show (clusterRows n rows)[2 * (M - 1) + 1]? = _ from hp.snd (M - 1) (by omega), Option.map_some]
    congr 1
    dsimp only
    omega
  · intro r hr r' hr' hc hc' hpar hne
    obtain ⟨j, hj, g⟩ := hp.pair hr hc
    obtain ⟨j', hj', g'⟩ := hp.pair hr' hc'
    have hjj : j = j' := by
      apply hp.inj j j' hj hj'
      rcases g with g | g <;> rcases g' with g' | g' <;> rw [g, g'] at hpar <;> exact hpar
    subst hjj
    obtain ⟨d1, d2⟩ := hi.deaths j (Nat.zero_le _) hj
    rcases g with rfl | rfl <;> rcases g' with rfl | rfl
    · exact absurd rfl hne
    · dsimp only; rw [show n + 2 * j + 1 - n = 2 * j + 1 by omega]; exact d1
    · dsimp only; rw [show n + 2 * j + 2 - n = 2 * j + 2 by omega, min_comm]; exact d2
    · exact absurd rfl hne
  · intro r hr hc
    obtain ⟨j, hj, g⟩ := hp.pair hr hc
    obtain ⟨p1, p2⟩ := hi.parents j (Nat.zero_le _) hj
    obtain ⟨l1, l2⟩ := hi.lams j (Nat.zero_le _) hj
    rcases g with rfl | rfl
    · dsimp only; rw [show n + 2 * j + 1 - n = 2 * j + 1 by omega]; exact ⟨p1, l1⟩
    · dsimp only; rw [show n + 2 * j + 2 - n = 2 * j + 2 by omega]; exact ⟨p2, l2⟩

theorem mem_layerClusters {b : Barcode K} {s : K} {c : ℕ} :
    c ∈ layerClusters n k b s ↔ n ≤ c ∧ c < n + k ∧ b.births (c - n) ≤ s ∧ s < b.deaths (c - n) := by
  unfold layerClusters activeAt
  rw [List.mem_map]
  constructor
  · rintro ⟨i, hi, rfl⟩
    rw [List.mem_filter, List.mem_range, decide_eq_true_eq] at hi
    rw [Nat.add_sub_cancel]
    exact ⟨by omega, by omega, hi.2⟩
  · rintro ⟨h1, h2, h3⟩
    exact ⟨c - n, by rw [List.mem_filter, List.mem_range, decide_eq_true_eq]; exact ⟨by omega, h3⟩, by omega⟩

theorem layerClusters_nodup (b : Barcode K) (s : K) : (layerClusters n k b s).Nodup := by
  unfold layerClusters activeAt
  exact (List.nodup_range.filter _).map fun a b h => by simpa using h

/-- **C66.**  The layer at a size from the minimum size on and below the number of samples: no cluster lies in another; it is the top cluster alone,
or at least two clusters other than the top one.  A cluster of a layer for a smaller size lies inside each cluster of this layer that it shares a
sample with. -/
theorem C66_layers [Inhabited K] (rows : List (CRow K K)) (h : CondTree n k rows) (hb : CBinary n k rows) (h2 : 1 < k) (expInv : K → K)
    (minSize s : K) (hs : minSize ≤ s) (hsn : s < n) :
    let b := sizeBarcode expInv n minSize (clusterRows n rows)
    NonNested rows (layerClusters n k b s) ∧ (layerClusters n k b s).Nodup ∧
    (layerClusters n k b s = [n] ∨ 1 < (layerClusters n k b s).length ∧ ∀ c ∈ layerClusters n k b s, n < c) ∧
    ∀ s', s' ≤ s → ∀ c ∈ layerClusters n k b s', ∀ d ∈ layerClusters n k b s, ∀ x, CDesc rows c x → CDesc rows d x → CDesc rows d c := by
  intro b
  obtain ⟨_, hd0, _, _, hd, _, hbirth⟩ := C66_barcode rows h hb h2 expInv minSize
  have hdown : ∀ s', s' ≤ s → ∀ c ∈ layerClusters n k b s', ∀ d ∈ layerClusters n k b s, CDesc rows c d → d = c := by
    intro s' hss c hc d hd hcd
    obtain ⟨c1, c2, c3, _⟩ := mem_layerClusters.1 hc
    obtain ⟨d1, d2, _, d4⟩ := mem_layerClusters.1 hd
    by_contra hne
    exact absurd (d4.trans_le (((hbirth c c1 c2 s').1 c3).2 d d1 d2 hne hcd)) (not_lt.2 hss)
  have hnd : (layerClusters n k b s).Nodup := layerClusters_nodup b s
  have hpos := h.pos
  -- a cluster that is not dead contains a cluster of the layer
  have hex : ∀ f c, n ≤ c → c < n + k → s < b.deaths (c - n) → n + k - c ≤ f → ∃ d ∈ layerClusters n k b s, CDesc rows c d := by
    intro f
    induction f with
    | zero => intro c h1 h2 _ h4; omega
    | succ f ih =>
      intro c h1 h2 h3 h4
      by_cases hbc : b.births (c - n) ≤ s
      · exact ⟨c, mem_layerClusters.2 ⟨h1, h2, hbc, h3⟩, Relation.ReflTransGen.refl⟩
      · rw [hbirth c h1 h2 s] at hbc
        push Not at hbc
        obtain ⟨d, d1, d2, d3, d4, d5⟩ := hbc hs
        have := cdesc_le h d4 d1
        obtain ⟨e, e1, e2⟩ := ih d d1 d2 d5 (by omega)
        exact ⟨e, e1, d4.trans e2⟩
  refine ⟨fun c hc d hd hcd => (hdown s le_rfl c hc d hd hcd).symm, hnd, ?_, ?_⟩
  · by_cases hroot : n ∈ layerClusters n k b s
    · left
      refine List.perm_singleton.1 ((List.perm_ext_iff_of_nodup hnd (List.nodup_singleton n)).2 fun c => ?_)
      rw [List.mem_singleton]
      constructor
      · intro hc
        refine hdown s le_rfl n hroot c hc ?_
        have := mem_layerClusters.1 hc
        exact h.root_desc this.1 this.2.1
      · rintro rfl; exact hroot
    · right
      have hgt : ∀ c ∈ layerClusters n k b s, n < c := fun c hc => by
        rcases (mem_layerClusters.1 hc).1.eq_or_lt with h1 | h1
        · subst h1; exact absurd hc hroot
        · exact h1
      refine ⟨?_, hgt⟩
      obtain ⟨c, hc, _⟩ := hex k n le_rfl (by omega) (by rw [Nat.sub_self]; exact hsn.trans_eq hd0.symm) (by omega)
      obtain ⟨c1, c2, _, c4⟩ := mem_layerClusters.1 hc
      obtain ⟨row, hr, rfl⟩ := List.mem_map.1 ((h.children c).2 (.inr ⟨hgt c hc, c2⟩))
      obtain ⟨sib, hsr, hsc, hsp, hsne⟩ := exists_sibling h hb hr c1
      have e1 := hd row hr sib hsr c1 hsc hsp.symm (Ne.symm hsne)
      have e2 := hd sib hsr row hr hsc c1 hsp hsne
      rw [min_comm, ← e1] at e2
      have hsk := (h.children sib.child).1 (List.mem_map_of_mem hsr)
      obtain ⟨d, d1, d2⟩ := hex k sib.child hsc (by omega) (by rw [e2]; exact c4) (by omega)
      have hne : d ≠ row.child := by
        rintro rfl
        -- then the sibling would contain the cluster
        rcases Relation.ReflTransGen.cases_tail d2 with g | ⟨e, g1, ⟨r, hr', hp', hc'⟩⟩
        · exact hsne (List.inj_on_of_nodup_map h.nodup hsr hr g.symm)
        · have : r = row := List.inj_on_of_nodup_map h.nodup hr' hr hc'
          subst this
          have g2 := cdesc_le h g1 (by rw [← hp']; exact (h.parents r hr).1)
          have g3 := h.down sib hsr hsc
          omega
      by_contra hlen
      have hl1 : (layerClusters n k b s).length = 1 := by
        have := List.length_pos_of_mem hc
        omega
      obtain ⟨e, he⟩ := List.length_eq_one_iff.1 hl1
      rw [he, List.mem_singleton] at hc d1
      exact hne (d1.trans hc.symm)
  · intro s' hss c hc d hd x hcx hdx
    rcases h.desc_comparable hcx hdx with g | g
    · rw [hdown s' hss c hc d hd g]; exact Relation.ReflTransGen.refl
    · exact g

end

/-! ## A concrete case -/

/-- Twelve samples on a line, in triples, the edges sorted. -/
def exTwelve : List (Edge ℕ) :=
  [⟨0, 1, 1⟩, ⟨1, 2, 1⟩, ⟨3, 4, 1⟩, ⟨4, 5, 1⟩, ⟨6, 7, 1⟩, ⟨7, 8, 1⟩, ⟨9, 10, 1⟩, ⟨10, 11, 1⟩, ⟨2, 3, 2⟩, ⟨8, 9, 3⟩, ⟨5, 6, 4⟩]

theorem exTwelve_tree : SpanningTree 12 exTwelve := by
  have hstep : ∀ i, i < 11 → Conn exTwelve i (i + 1) := by
    intro i hi
    interval_cases i
    · exact Conn.edge (e := ⟨0, 1, 1⟩) (by decide)
    · exact Conn.edge (e := ⟨1, 2, 1⟩) (by decide)
    · exact Conn.edge (e := ⟨2, 3, 2⟩) (by decide)
    · exact Conn.edge (e := ⟨3, 4, 1⟩) (by decide)
    · exact Conn.edge (e := ⟨4, 5, 1⟩) (by decide)
    · exact Conn.edge (e := ⟨5, 6, 4⟩) (by decide)
    · exact Conn.edge (e := ⟨6, 7, 1⟩) (by decide)
    · exact Conn.edge (e := ⟨7, 8, 1⟩) (by decide)
    · exact Conn.edge (e := ⟨8, 9, 3⟩) (by decide)
    · exact Conn.edge (e := ⟨9, 10, 1⟩) (by decide)
    · exact Conn.edge (e := ⟨10, 11, 1⟩) (by decide)
  have h0 : ∀ a, a < 12 → Conn exTwelve a 0 := by
    intro a ha
    induction a with
    | zero => exact Conn.refl _ _
    | succ a ih => exact (hstep a (by omega)).symm.trans (ih (by omega))
  have hconn : ∀ a b, a < 12 → b < 12 → Conn exTwelve a b := fun a b ha hb => (h0 a ha).trans (h0 b hb).symm
  exact ⟨by decide, acyclic_of_connected (by decide) hconn (by decide), hconn⟩

/-- `mst_to_linkage_tree` of them. -/
def exTwelveLinkage : List (LRow ℕ ℚ) := mstToLinkage (fun _ => 1) exTwelve

theorem exTwelve_dendrogram : Dendrogram 12 (fun _ => (1 : ℚ)) exTwelveLinkage :=
  (C12_linkage_is_dendrogram 12 (by decide) (fun _ => (1 : ℚ)) exTwelve exTwelve_tree (by decide)).1

/-- A function with values in `[0, 1)` in the place of `exp(-1 / x)`. -/
def exExpInv (x : ℚ) : ℚ := x / (1 + x)

/-- The top cluster, two halves, four triples: births and deaths. -/
example : (List.range 7).map (fun i =>
      let b := sizeBarcode exExpInv 12 (2 : ℚ) (clusterRows 12 (searchTree invLam exTwelveLinkage 2))
      (b.births i, b.deaths i)) =
    [(6, 12), (3, 6), (3, 6), (2, 3), (2, 3), (2, 3), (2, 3)] := by decide +kernel

/-- The hypotheses of `C66_barcode` and `C66_layers` hold for it. -/
example : ∃ k, CondTree 12 k (searchTree invLam exTwelveLinkage 2) ∧ CBinary 12 k (searchTree invLam exTwelveLinkage 2) ∧ 1 < k := by
  obtain ⟨k, h1, h2, _⟩ := C17_condensed_clusters_real 12 (by decide) (fun _ => (1 : ℚ)) exTwelveLinkage exTwelve_dendrogram 2 (by decide) (by decide)
    invLam
  refine ⟨k, h1, h2, ?_⟩
  rcases (h1.children 13).1 (by decide +kernel) with h | h <;> omega

/-- The layers at sizes 2, 3 and 6. -/
example : [2, 3, 6].map (layerClusters 12 7 (sizeBarcode exExpInv 12 (2 : ℚ) (clusterRows 12 (searchTree invLam exTwelveLinkage 2)))) =
    [[15, 16, 17, 18], [13, 14], [12]] := by decide +kernel

end Verif
