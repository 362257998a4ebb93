import Verif.Model.LayerSearch
import Verif.Props.LeafCount
import Verif.Props.Total
import Mathlib.Data.Rat.Floor
import Mathlib.Algebra.Order.Ring.Rat

/-!
# C65: searching for a number of clusters
-/

namespace Verif
variable {W K L S : Type*}

theorem roundMid_bounds {a b : ℕ} (h : a + 1 < b) : a < roundMid a b ∧ roundMid a b < b := by
  unfold roundMid
  dsimp only
  split_ifs <;> omega

/-- What the loop maintains. -/
structure SearchInv (c : ℕ → ℕ) (approx : ℤ) (lo hi : ℕ) (st : SearchState) : Prop where
  le : st.lower ≤ st.upper
  lo_le : lo ≤ st.lower
  le_hi : st.upper ≤ hi
  lowerN : st.lowerN = c st.lower
  upperN : st.upperN = c st.upper
  low : st.lower = lo ∨ approx ≤ c st.lower
  high : st.upper = hi ∨ (c st.upper : ℤ) < approx

theorem searchLoop_inv {count : ℕ → Option ℕ} {c : ℕ → ℕ} {approx : ℤ} {lo hi : ℕ} (hc : ∀ s, lo ≤ s → s ≤ hi → count s = some (c s)) :
    ∀ (f : ℕ) (st : SearchState), SearchInv c approx lo hi st → st.upper - st.lower ≤ f →
      ∃ st', searchLoop count approx f st = some st' ∧ SearchInv c approx lo hi st' ∧ st'.upper ≤ st'.lower + 1
  | 0, st, h, hf => ⟨st, rfl, h, by have := h.le; omega⟩
  | f + 1, st, h, hf => by
    have hle := h.le
    have hlo := h.lo_le
    have hhi := h.le_hi
    unfold searchLoop
    by_cases h1 : 1 < (st.upper : ℤ) - st.lower
    · have hm := roundMid_bounds (a := st.lower) (b := st.upper) (by omega)
      simp only [h1, if_true]
      rw [if_neg (by omega), hc _ (by omega) (by omega), Option.bind_some]
      by_cases h2 : (c (roundMid st.lower st.upper) : ℤ) < approx
      · rw [if_pos h2]
        exact searchLoop_inv hc f _ ⟨by dsimp only; omega, h.lo_le, by dsimp only; omega, h.lowerN, rfl, h.low, .inr h2⟩
          (by dsimp only; omega)
      · rw [if_neg h2]
        exact searchLoop_inv hc f _ ⟨by dsimp only; omega, by dsimp only; omega, h.le_hi, rfl, h.upperN, .inr (by dsimp only; omega), h.high⟩
          (by dsimp only; omega)
    · rw [if_neg h1]
      exact ⟨st, rfl, h, by omega⟩

/-- One of the two final bounds is as close to the target as any size. -/
theorem SearchInv.best {c : ℕ → ℕ} {approx : ℤ} {lo hi : ℕ} {st : SearchState} (h : SearchInv c approx lo hi st)
    (hc : ∀ s t, lo ≤ s → s ≤ t → t ≤ hi → c t ≤ c s) (hadj : st.upper ≤ st.lower + 1) {s : ℕ} (h1 : lo ≤ s) (h2 : s ≤ hi) :
    |(c st.lower : ℤ) - approx| ≤ |(c s : ℤ) - approx| ∨ |(c st.upper : ℤ) - approx| ≤ |(c s : ℤ) - approx| := by
  have hlo := h.lo_le
  have hhi := h.le_hi
  have hle := h.le
  by_cases h3 : s ≤ st.lower
  · left
    rcases h.low with h4 | h4
    · rw [show s = st.lower by omega]
    · have := hc s st.lower h1 h3 (by omega)
      rw [abs_of_nonneg (by omega), abs_of_nonneg (by omega)]
      omega
  · right
    rcases h.high with h4 | h4
    · rw [show s = st.upper by omega]
    · have := hc st.upper s (by omega) (by omega) h2
      rw [abs_of_nonpos (by omega), abs_of_nonpos (by omega)]
      omega

section
variable [Field K] [LinearOrder K] [IsStrictOrderedRing K] [Inhabited W] [Inhabited K]

/-- The leaves of the condensed tree for minimum cluster size `s`, their labels and strengths. -/
def IsLeafClustering (n : ℕ) (rows : List (CRow K K)) (r : LeafResult K) : Prop :=
  r.leaves.Nodup ∧ NonNested rows r.leaves ∧ LabelsMean n rows r.leaves none r.labels ∧
    (∃ k, CondTree n k rows ∧ ∀ c, c ∈ r.leaves ↔ n ≤ c ∧ c < n + k ∧ Childless n rows c) ∧
    ∀ x, x < n → 0 ≤ r.strengths x ∧ r.strengths x ≤ 1 ∧ (r.labels[x]? = some (-1) → r.strengths x = 0)

omit [Inhabited W] [Inhabited K] in
/-- In a condensed tree whose leaves include the top cluster there is only the top cluster. -/
theorem CondTree.childless_root {n k : ℕ} {rows : List (CRow L S)} (h : CondTree n k rows) (hc : Childless n rows n) : k = 1 := by
  have hpos := h.pos
  by_contra hk
  obtain ⟨row, hrow, he⟩ := List.mem_map.1 ((h.children (n + 1)).2 (.inr ⟨by omega, by omega⟩))
  have h1 := h.down row hrow (by omega)
  have h2 := (h.parents row hrow).1
  have := hc row hrow (by omega)
  omega

theorem leafResult_total (n : ℕ) (hn : 2 ≤ n) (linkage : List (LRow W K)) (h : Dendrogram n (fun _ => 1) linkage) (lam : W → K)
    (hpos : ∀ d, 0 ≤ lam d) (s : ℕ) (hs : 2 ≤ s) :
    ∃ r, leafResult (searchTree lam linkage s) n = some r ∧ IsLeafClustering n (searchTree lam linkage s) r ∧
      r.leaves.length = 1 + bigMerges n (fun _ => (1 : K)) linkage (s : K) := by
  have hs' : (1 : K) < s := by exact_mod_cast (show 1 < s by omega)
  have h0 : ∀ x, x < n → (0 : K) ≤ (fun _ => (1 : K)) x := fun _ _ => zero_le_one
  have hl : ∀ x, x < n → (fun _ => (1 : K)) x < (s : K) := fun _ _ => hs'
  have hm : 0 < (Hier.ofRows linkage).m := by
    have := h.length; change 0 < linkage.length; omega
  have hh := h.condHyp h0 hl
  have hN := h.hier_n
  obtain ⟨k, relabel, top, hr⟩ := condense_res (mx := none) hh hm lam
  have hct := hr.condTree
  rw [hN] at hct
  obtain ⟨_, _, _, hsz⟩ := C17_condensed_clusters_real n hn (fun _ => (1 : K)) linkage h (s : K) h0 hl lam
  have hsz' : ∀ row ∈ searchTree lam linkage s, 1 < row.size ↔ n ≤ row.child := fun row hrow => by
    constructor
    · intro h2
      by_contra h3
      rw [(hsz row hrow).1 (by omega)] at h2
      exact lt_irrefl _ h2
    · intro h2
      exact hs'.trans_le ((hsz row hrow).2 h2).1
  have hfull : ∀ c, n ≤ c → c < n + k → ∃ row ∈ searchTree lam linkage s, row.parent = c :=
    fun c h2 h3 => hr.full hh (by omega) (by omega)
  obtain ⟨leaves, g1, g2, g3, g4⟩ := C20_extract_leaves _ hct hsz' hfull
  obtain ⟨leaves', e1, _, e2⟩ := C64_leaf_count n hn (fun _ => (1 : K)) linkage h (s : K) hs' h0 hl lam
  have hlam : ∀ row ∈ searchTree lam linkage s, 0 ≤ row.lam := by
    intro row hrow
    by_cases hc : row.child < n
    · obtain ⟨v, _, _, hv, _⟩ := hr.rows_pt row hrow (by omega)
      rw [hv]; exact hpos _
    · obtain ⟨_, _, v, _, _, _, hv, _⟩ := hr.rows_cl row hrow (by omega)
      rw [hv]; exact hpos _
  have hnd : leaves.Nodup := g2.imp fun h => h.ne
  have hne : searchTree lam linkage s ≠ [] := by
    obtain ⟨row, hrow, _⟩ := hfull n le_rfl (by have := hct.pos; omega)
    exact List.ne_nil_of_mem hrow
  have hlen : leaves.length ≠ 0 := by
    have e3 : leaves = leaves' := Option.some.inj (g1.symm.trans e1)
    rw [e3, e2]; omega
  have hcase : leaves = [] ∨ leaves = [n] ∨ 1 < leaves.length ∧ ∀ c ∈ leaves, n < c := by
    by_cases hroot : n ∈ leaves
    · right; left
      have hk := hct.childless_root ((g4 n).1 hroot).2.2
      subst hk
      refine List.perm_singleton.1 ((List.perm_ext_iff_of_nodup hnd (List.nodup_singleton n)).2 fun c => ?_)
      rw [List.mem_singleton]
      constructor
      · intro hc; have := (g4 c).1 hc; omega
      · rintro rfl; exact hroot
    · right; right
      have hgt : ∀ c ∈ leaves, n < c := fun c hc => by
        rcases (g4 c).1 hc |>.1.eq_or_lt with h1 | h1
        · subst h1; exact absurd hc hroot
        · exact h1
      refine ⟨?_, hgt⟩
      by_contra h1
      obtain ⟨c, hc⟩ := List.length_eq_one_iff.1 (show leaves.length = 1 by omega)
      have hcard := hr.card_leaves hh
      have hcl := hr.card_clusters hh
      have hb := h.card_splitRows (s : K)
      have e3 : leaves = leaves' := Option.some.inj (g1.symm.trans e1)
      have hk : k = 1 := by
        rw [hcl, hb]
        rw [← e3, hc, List.length_singleton] at e2
        omega
      have h2 := (g4 c).1 (by rw [hc]; exact List.mem_singleton_self c)
      have h3 := hgt c (by rw [hc]; exact List.mem_singleton_self c)
      omega
  obtain ⟨labels, str, f1, f2, f3, f4⟩ := hct.labels_total hne hlam leaves hnd g3 none hcase
  refine ⟨⟨leaves, labels, str⟩, ?_, ⟨hnd, g3, f3, ⟨k, hct, g4⟩, fun x hx => ?_⟩, ?_⟩
  · unfold leafResult finiteStrengths
    rw [show extractLeaves (searchTree lam linkage s) = some leaves from g1, Option.bind_some]
    rw [show labelVector (searchTree lam linkage s) leaves none n = some labels from f1, Option.bind_some]
    rw [show strengthVector ((searchTree lam linkage s).map _) leaves labels = some str from f2]
    rfl
  · obtain ⟨row, hrow, rfl⟩ := List.mem_map.1 ((hct.children x).2 (.inl hx))
    exact f4 row hrow hx
  · have e3 : leaves = leaves' := Option.some.inj (g1.symm.trans e1)
    rw [← e2, ← e3]

/-- **C65.**  For every dendrogram of at least four samples and every requested number of clusters, the search ends and returns the leaf clusters,
labels and strengths for a minimum cluster size between 2 and `n // 2`; no size in that range gives a number of leaf clusters closer to the
request.  The size next to it where the search ended, if equally close, does not label more samples. -/
theorem C65_search_closest (n : ℕ) (hn : 4 ≤ n) (linkage : List (LRow W K)) (h : Dendrogram n (fun _ => 1) linkage) (lam : W → K)
    (hpos : ∀ d, 0 ≤ lam d) (approx : ℤ) :
    ∃ r s t r', binarySearchClusters lam linkage approx n = some r ∧ 2 ≤ s ∧ s ≤ n / 2 ∧ leafResult (searchTree lam linkage s) n = some r ∧
      IsLeafClustering n (searchTree lam linkage s) r ∧
      r.leaves.length = 1 + bigMerges n (fun _ => (1 : K)) linkage (s : K) ∧
      (t = s ∨ t = s + 1 ∨ s = t + 1) ∧ leafResult (searchTree lam linkage t) n = some r' ∧
      (|(r'.leaves.length : ℤ) - approx| = |(r.leaves.length : ℤ) - approx| → (r'.labels.filter fun l => 0 ≤ l).length ≤ (r.labels.filter fun l => 0 ≤ l).length) ∧
      ∀ s' : ℕ, 2 ≤ s' → s' ≤ n / 2 →
        |(r.leaves.length : ℤ) - approx| ≤ |((1 + bigMerges n (fun _ => (1 : K)) linkage (s' : K) : ℕ) : ℤ) - approx| := by
  set c : ℕ → ℕ := fun s => 1 + bigMerges n (fun _ => (1 : K)) linkage (s : K) with hc
  have hall := fun s hs => leafResult_total n (by omega) linkage h lam hpos s hs
  have hcount : ∀ s, 2 ≤ s → (extractLeaves (searchTree lam linkage s)).map List.length = some (c s) := by
    intro s hs
    obtain ⟨l, e1, _, e2⟩ := C64_leaf_count n (by omega) (fun _ => (1 : K)) linkage h (s : K)
      (by exact_mod_cast (show 1 < s by omega)) (fun _ _ => zero_le_one) (fun _ _ => by exact_mod_cast (show 1 < s by omega)) lam
    rw [show extractLeaves (searchTree lam linkage s) = some l from e1, Option.map_some, e2]
  have hanti : ∀ s t, 2 ≤ s → s ≤ t → t ≤ n / 2 → c t ≤ c s := fun s t _ hst _ => by
    have := bigMerges_anti n (fun _ => (1 : K)) linkage (s := (s : K)) (t := (t : K)) (by exact_mod_cast hst)
    simp only [hc]; omega
  obtain ⟨st, hst, hinv, hadj⟩ := searchLoop_inv (lo := 2) (hi := n / 2) (approx := approx) (fun s h1 _ => hcount s h1) n
    ⟨2, n / 2, c 2, c (n / 2)⟩ ⟨by dsimp only; omega, le_rfl, le_rfl, rfl, rfl, .inl rfl, .inl rfl⟩ (by dsimp only; omega)
  have hlo := hinv.lo_le
  have hhi := hinv.le_hi
  have hle := hinv.le
  obtain ⟨rl, a1, a2, a3⟩ := hall st.lower hlo
  obtain ⟨ru, b1, b2, b3⟩ := hall st.upper (by omega)
  have hbest := fun s h1 h2 => hinv.best hanti hadj (s := s) h1 h2
  unfold binarySearchClusters
  simp only []
  rw [hcount _ (by omega), Option.bind_some, hcount _ le_rfl, Option.bind_some, hst, Option.bind_some, a1, b1, hinv.lowerN, hinv.upperN]
  have fin_lo : |(c st.lower : ℤ) - approx| ≤ |(c st.upper : ℤ) - approx| → ∀ s' : ℕ, 2 ≤ s' → s' ≤ n / 2 →
      |(rl.leaves.length : ℤ) - approx| ≤ |((c s' : ℕ) : ℤ) - approx| := by
    intro hd s' h1 h2
    rw [a3]
    rcases hbest s' h1 h2 with h3 | h3
    · exact h3
    · exact hd.trans h3
  have fin_up : |(c st.upper : ℤ) - approx| ≤ |(c st.lower : ℤ) - approx| → ∀ s' : ℕ, 2 ≤ s' → s' ≤ n / 2 →
      |(ru.leaves.length : ℤ) - approx| ≤ |((c s' : ℕ) : ℤ) - approx| := by
    intro hd s' h1 h2
    rw [b3]
    rcases hbest s' h1 h2 with h3 | h3
    · exact hd.trans h3
    · exact h3
  by_cases h1 : |(c st.lower : ℤ) - approx| < |(c st.upper : ℤ) - approx|
  · rw [if_pos h1]
    exact ⟨rl, st.lower, st.upper, ru, rfl, hlo, by omega, a1, a2, a3, by omega, b1, fun e => by rw [a3, b3] at e; exact absurd e h1.ne', fin_lo h1.le⟩
  · rw [if_neg h1]
    by_cases h2 : |(c st.upper : ℤ) - approx| < |(c st.lower : ℤ) - approx|
    · rw [if_pos h2]
      exact ⟨ru, st.upper, st.lower, rl, rfl, by omega, hhi, b1, b2, b3, by omega, a1, fun e => by rw [a3, b3] at e; exact absurd e h2.ne', fin_up h2.le⟩
    · rw [if_neg h2, Option.bind_some, Option.bind_some]
      have hlc : ∀ {l : List ℤ}, labelledCount l = (l.filter fun x => 0 ≤ x).length := List.countP_eq_length_filter
      by_cases h3 : labelledCount ru.labels < labelledCount rl.labels
      · rw [if_pos h3]
        exact ⟨rl, st.lower, st.upper, ru, rfl, hlo, by omega, a1, a2, a3, by omega, b1, fun _ => hlc ▸ hlc ▸ h3.le, fin_lo (not_lt.1 h2)⟩
      · rw [if_neg h3]
        exact ⟨ru, st.upper, st.lower, rl, rfl, by omega, hhi, b1, b2, b3, by omega, a1, fun _ => hlc ▸ hlc ▸ not_lt.1 h3, fin_up (not_lt.1 h1)⟩

end

/-! ## An example: eight samples in two groups of two pairs -/

/-- Sorted edges of a minimum spanning tree. -/
def exEight : List (Edge ℕ) := [⟨0, 1, 1⟩, ⟨2, 3, 1⟩, ⟨4, 5, 1⟩, ⟨6, 7, 1⟩, ⟨1, 2, 2⟩, ⟨5, 6, 3⟩, ⟨3, 4, 4⟩]

theorem exEight_tree : SpanningTree 8 exEight := by
  have hstep : ∀ i, i < 7 → Conn exEight i (i + 1) := by
    intro i hi
    interval_cases i
    · exact Conn.edge (e := ⟨0, 1, 1⟩) (by decide)
    · exact Conn.edge (e := ⟨1, 2, 2⟩) (by decide)
    · exact Conn.edge (e := ⟨2, 3, 1⟩) (by decide)
    · exact Conn.edge (e := ⟨3, 4, 4⟩) (by decide)
    · exact Conn.edge (e := ⟨4, 5, 1⟩) (by decide)
    · exact Conn.edge (e := ⟨5, 6, 3⟩) (by decide)
    · exact Conn.edge (e := ⟨6, 7, 1⟩) (by decide)
  have h0 : ∀ a, a < 8 → Conn exEight a 0 := by
    intro a ha
    induction a with
    | zero => exact Conn.refl _ _
    | succ a ih => exact (hstep a (by omega)).symm.trans (ih (by omega))
  have hconn : ∀ a b, a < 8 → b < 8 → Conn exEight a b := fun a b ha hb => (h0 a ha).trans (h0 b hb).symm
  exact ⟨by decide, acyclic_of_connected (by decide) hconn (by decide), hconn⟩

/-- `mst_to_linkage_tree` of them. -/
def exEightLinkage : List (LRow ℕ ℚ) := mstToLinkage (fun _ => 1) exEight

theorem exEight_dendrogram : Dendrogram 8 (fun _ => (1 : ℚ)) exEightLinkage :=
  (C12_linkage_is_dendrogram 8 (by decide) (fun _ => (1 : ℚ)) exEight exEight_tree (by decide)).1

/-- `1 / distance`. -/
def invLam (d : ℕ) : ℚ := 1 / d

/-- Three clusters are asked for: there are four for minimum cluster size 2 and two for 3 and for 4; all of them label every sample. -/
example : (binarySearchClusters invLam exEightLinkage 3 8).map (fun r => (r.leaves, r.labels)) =
    some ([9, 10], [1, 1, 1, 1, 0, 0, 0, 0]) := by decide +kernel
example : (binarySearchClusters invLam exEightLinkage 4 8).map (fun r => (r.leaves, r.labels)) =
    some ([11, 12, 13, 14], [3, 3, 2, 2, 1, 1, 0, 0]) := by decide +kernel

/-- The hypotheses of C64 and C65 hold for it. -/
example : ∃ r s t r', binarySearchClusters invLam exEightLinkage 3 8 = some r ∧ 2 ≤ s ∧ s ≤ 8 / 2 ∧
    leafResult (searchTree invLam exEightLinkage t) 8 = some r' := by
  obtain ⟨r, s, t, r', h1, h2, h3, _, _, _, _, h4, _⟩ := C65_search_closest 8 (by decide) exEightLinkage exEight_dendrogram invLam
    (fun d => by unfold invLam; positivity) 3
  exact ⟨r, s, t, r', h1, h2, h3, h4⟩
example : bigMerges 8 (fun _ => (1 : ℚ)) exEightLinkage 2 = 3 := by
  obtain ⟨l, h1, _, h2⟩ := C64_leaf_count 8 (by decide) (fun _ => (1 : ℚ)) exEightLinkage exEight_dendrogram 2 (by decide) (by decide) (by decide)
    invLam
  have : l = [11, 12, 13, 14] := Option.some.inj (h1.symm.trans (by decide +kernel))
  subst this
  simp at h2
  omega
example : ([9, 10] : List ℕ).length ≤ ([11, 12, 13, 14] : List ℕ).length :=
  C64_fewer_clusters 8 (by decide) (fun _ => (1 : ℚ)) exEightLinkage exEight_dendrogram 2 3 (by decide) (by decide) (by decide) (by decide)
    invLam _ _ (by decide +kernel) (by decide +kernel)

end Verif
