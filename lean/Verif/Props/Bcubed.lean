import Verif.Lemmas.BcubedSel
import Verif.Lemmas.CondOrder
import Verif.Props.Select
import Verif.Props.Simplify

/-!
# Properties C55 and C62: semi-supervised cluster selection
-/

namespace Verif
variable {L S V K : Type*} {n k : ℕ}

/-! ## C55, whatever the arithmetic -/

/-- **C55.** For every condensed tree, with or without artificial nodes, whatever the scores and however they are added and
compared (rounding, infinities, NaN): the clusters selected in semi-supervised mode are not nested, are clusters of the tree
(never samples, which is what the artificial nodes are), do not repeat, and contain the top cluster only when
`allow_single_cluster`. -/
theorem C55_any_arithmetic [One S] [LinearOrder S] (rows : List (CRow L S)) (h : CondTree n k rows)
    (hk : ∀ row ∈ rows, 1 < row.size ↔ n ≤ row.child) (m : ℕ) (hm : m ≤ n) (lab : ℕ → ℤ) (v : Bool)
    (o : ScoreOps V) (score : ℕ → V) (keys : List ℕ) (hnd : keys.Nodup) (hlen : 1 < keys.length ∨ k = 1) (s : Bool) :
    let ct := clusterTree rows
    let ctb := if v then bcubedTree rows ct m lab else ct
    let sel := bcubedClusters ctb o score keys (if v then virtualNodes ctb ct else []) s
    sel.Nodup ∧ NonNested rows sel ∧ (∀ c ∈ sel, n ≤ c ∧ c < n + k) ∧ (s = false → n ∉ sel) ∧ (k = 1 → sel = []) := by
  intro ct ctb sel
  have hb : BTree n k rows ctb := by
    cases v
    · exact h.bTree_plain hk
    · exact h.bTree_virtual hk m lab
  have hempty : k = 1 → sel = [] := fun hk1 => by
    change bcubedClusters ctb o score keys _ s = []
    rw [hb.empty hk1]; rfl
  have hpos := h.pos
  by_cases hk1 : 1 < k
  · have hmem := hb.mem_sel hk1 o score keys (if v then virtualNodes ctb ct else []) (hlen.resolve_right (by omega)) s
    have hsel : ∀ x ∈ sel, x ∉ (if v then virtualNodes ctb ct else []) ∧ hb.Sel o score s x := fun x hx => ((hmem x).1 hx).2
    refine ⟨?_, fun a ha b hb' hd => (hsel a ha).2.anti (hsel b hb').2 hd, fun c hc => ?_, ?_, hempty⟩
    · obtain ⟨row, rest, h1, _⟩ := hb.root hk1
      change (bcubedClusters ctb o score keys _ s).Nodup
      rw [h1]
      exact hnd.filter _
    · obtain ⟨h1, h2⟩ := hsel c hc
      rcases hb.desc_mem h2.desc with rfl | h3
      · omega
      · have hct : c ∈ ct.map CRow.child := by
          by_contra hn
          cases v
          · exact hn h3
          · exact h1 (List.mem_dedup.2 (List.mem_filter.2 ⟨h3, decide_eq_true hn⟩))
        have := ((h.clTree hk).mem).1 hct
        omega
    · rintro rfl hn
      exact (hsel n hn).2.ne_root rfl
  · have : sel = [] := hempty (by omega)
    rw [this]
    simp [NonNested]

/-! ## The scores, and the whole function -/

theorem CondTree.desc_sample {rows : List (CRow L S)} (h : CondTree n k rows) {c x : ℕ} (hc : c < n) :
    CDesc rows c x ↔ x = c := by
  constructor
  · intro hd
    rcases Relation.ReflTransGen.cases_head hd with h1 | ⟨e, ⟨r, h1, h2, _⟩, _⟩
    · exact h1.symm
    · have := h.parents r h1; omega
  · rintro rfl; exact .refl

variable [Field K] [LinearOrder K] [IsStrictOrderedRing K]

/-- Stability and B-cubed quality of a node; a sample standing for itself has stability zero. -/
noncomputable def nodeQuality (n : ℕ) (rows : List (CRow K K)) (m : ℕ) (lab : ℕ → ℤ) (c : ℕ) : K × K :=
  (if c < n then 0 else stability rows c, bcubedF lab (labelledSamples m lab) (labelledBelow rows m lab c))

theorem CondTree.extractBcubed_eq (rows : List (CRow K K)) (h : CondTree n k rows)
    (hk : ∀ row ∈ rows, 1 < row.size ↔ n ≤ row.child) (hone : ∀ row ∈ rows, row.child < n → row.size = 1)
    (hfull : ∀ c, n ≤ c → c < n + k → ∃ row ∈ rows, row.parent = c) (m : ℕ) (hm : m ≤ n) (lab : ℕ → ℤ) (v s : Bool) :
    ∃ ctb virt keys score, ctb = (if v then bcubedTree rows (clusterTree rows) m lab else clusterTree rows) ∧
      virt = (if v then virtualNodes ctb (clusterTree rows) else []) ∧ BTree n k rows ctb ∧
      (∀ x, x ∈ virt ↔ v = true ∧ LabelledNoise n rows m lab x) ∧
      (∀ x, x ∈ ctb.map CRow.child ↔ (n < x ∧ x < n + k) ∨ x ∈ virt) ∧
      keys.Nodup ∧ (∀ x, x ∈ keys ↔ (n ≤ x ∧ x < n + k) ∨ x ∈ virt) ∧
      (∀ x ∈ keys, score x = nodeQuality n rows m lab x) ∧
      extractBcubed rows m lab v s = some (bcubedClusters ctb (pairOps K) score keys virt s) := by
  classical
  obtain ⟨d0, hd, hdn, hdk, hdv⟩ := h.elems hfull m lab hm
  have hpos := h.pos
  have hne : rows ≠ [] := by
    obtain ⟨r, hr, _⟩ := hfull n le_rfl (by omega)
    exact List.ne_nil_of_mem hr
  obtain ⟨st0, hst, hstk, hstv⟩ := h.scoreNodes_eq hne hk
  set ctb := (if v then bcubedTree rows (clusterTree rows) m lab else clusterTree rows) with hctb
  set virt := (if v then virtualNodes ctb (clusterTree rows) else []) with hvirt
  have hb : BTree n k rows ctb := by
    rw [hctb]
    cases v
    · exact h.bTree_plain hk
    · exact h.bTree_virtual hk m lab
  have hv : ∀ x, x ∈ virt ↔ v = true ∧ LabelledNoise n rows m lab x := by
    intro x
    rw [hvirt, hctb]
    cases v
    · simp
    · simp only [if_true, true_and]
      exact h.mem_virtual hk hone m hm lab
  have hc : ∀ x, x ∈ ctb.map CRow.child ↔ (n < x ∧ x < n + k) ∨ x ∈ virt := by
    intro x
    rw [hv, hctb]
    cases v
    · simpa using (h.clTree hk).mem (c := x)
    · simp only [if_true, true_and]
      exact h.mem_bcubedTree hk hone m hm lab
  have hvn : ∀ x ∈ virt, x < n ∧ x ∈ labelIdx m lab := by
    intro x hx
    have h1 := ((hv x).1 hx).2.1
    rw [← labelIdx_toFinset, List.mem_toFinset] at h1
    have := (mem_labelIdx.1 h1).1
    exact ⟨by omega, h1⟩
  obtain ⟨e1, e2, e3⟩ := dict_sets virt (fun v => [v]) d0
  obtain ⟨f1, _, f3⟩ := dict_sets virt (fun _ => (0 : K)) st0
  have hkeys : ∀ x, x ∈ (virt.foldl (fun d v => d.set v [v]) d0).keys ↔ (n ≤ x ∧ x < n + k) ∨ x ∈ virt := fun x => by
    rw [e1, hdk]
  have hkeys2 : ∀ x, x ∈ (virt.foldl (fun d v => d.set v (0 : K)) st0).keys ↔ (n ≤ x ∧ x < n + k) ∨ x ∈ virt := fun x => by
    rw [f1, hstk, List.mem_range'_1]
  refine ⟨ctb, virt, _, fun c => ((virt.foldl (fun d v => d.set v (0 : K)) st0).val c,
    bcubedScore m lab ((virt.foldl (fun d v => d.set v [v]) d0).val c)), rfl, rfl, hb, hv, hc, e2 hdn, hkeys, fun x hx => ?_, ?_⟩
  rotate_left
  · unfold extractBcubed
    simp only [hd, hst, Option.bind_some]
    rw [← hctb, ← hvirt, if_pos]
    intro c hcm
    rw [hkeys, hkeys2, and_self]
    rcases List.mem_append.1 hcm with h1 | h1
    · rcases (hc c).1 h1 with h2 | h2
      · left; omega
      · exact .inr h2
    · obtain ⟨r, h2, rfl⟩ := List.mem_map.1 h1
      exact .inl (h.parents r (hb.sub.subset h2))
  · unfold nodeQuality
    simp only
    rw [f3, e3]
    by_cases hxv : x ∈ virt
    · obtain ⟨h1, h2⟩ := hvn x hxv
      rw [if_pos hxv, if_pos hxv, if_pos h1, bcubedScore_eq m lab [x] (by simp) (by simpa using h2)]
      congr 2
      ext y
      rw [List.mem_toFinset, List.mem_singleton, labelledBelow, Finset.mem_filter, h.desc_sample h1]
      constructor
      · rintro rfl
        refine ⟨?_, rfl⟩
        rw [← labelIdx_toFinset, List.mem_toFinset]; exact h2
      · exact fun h => h.2
    · have h1 := ((hkeys x).1 hx).resolve_right hxv
      obtain ⟨h2, h3⟩ := hdv x h1.1 h1.2
      rw [if_neg hxv, if_neg hxv, if_neg (by omega), hstv x h1.1 h1.2,
        bcubedScore_eq m lab _ h2 fun y hy => ((h3 y).1 hy).1]
      congr 2
      ext y
      rw [List.mem_toFinset, h3, labelledBelow, Finset.mem_filter, ← labelIdx_toFinset, List.mem_toFinset]

/-- **C55.** For every condensed tree and every assignment of labels, `extract_clusters_bcubed` succeeds (no missing key),
and the clusters it returns are not nested, do not repeat, are clusters of the tree and never artificial noise nodes; the top
cluster is among them only with `allow_single_cluster`; nothing is returned when the data never split. -/
theorem C55_bcubed_selection (rows : List (CRow K K)) (h : CondTree n k rows)
    (hk : ∀ row ∈ rows, 1 < row.size ↔ n ≤ row.child) (hone : ∀ row ∈ rows, row.child < n → row.size = 1)
    (hfull : ∀ c, n ≤ c → c < n + k → ∃ row ∈ rows, row.parent = c) (m : ℕ) (hm : m ≤ n) (lab : ℕ → ℤ) (v s : Bool) :
    ∃ sel, extractBcubed rows m lab v s = some sel ∧ sel.Nodup ∧ NonNested rows sel ∧
      (∀ c ∈ sel, n ≤ c ∧ c < n + k) ∧ (s = false → n ∉ sel) ∧ (k = 1 → sel = []) := by
  obtain ⟨ctb, virt, keys, score, h1, h2, hb, hv, hc, hnd, hkeys, hscore, heq⟩ :=
    CondTree.extractBcubed_eq rows h hk hone hfull m hm lab v s
  refine ⟨_, heq, ?_⟩
  have hpos := h.pos
  have := C55_any_arithmetic rows h hk m hm lab v (pairOps K) score keys hnd (by
    by_cases hk1 : k = 1
    · exact .inr hk1
    · left
      have : [n, n + 1].Subperm keys := by
        apply (List.subperm_of_subset (by simp))
        intro x hx
        rw [hkeys]
        simp only [List.mem_cons, List.not_mem_nil, or_false] at hx
        left; omega
      have := this.length_le
      simp at this
      omega) s
  rw [h2, h1]
  exact this

/-- **C62.** In exact arithmetic and for every condensed tree that splits: the returned clusters, together with a set `noise`
of labelled noise samples (empty unless artificial nodes are allowed) of which none lies in a returned cluster, have the
best total quality, and larger clusters are preferred.  No set `A` of non-nested clusters (and labelled noise samples, if artificial nodes are allowed; the
top cluster only with `allow_single_cluster`) has a larger total B-cubed quality, and none with the same B-cubed total has a
larger total stability.  A cluster above a returned one is strictly worse than what is returned below it. -/
theorem C62_bcubed_optimal (rows : List (CRow K K)) (h : CondTree n k rows)
    (hk : ∀ row ∈ rows, 1 < row.size ↔ n ≤ row.child) (hone : ∀ row ∈ rows, row.child < n → row.size = 1)
    (hfull : ∀ c, n ≤ c → c < n + k → ∃ row ∈ rows, row.parent = c) (hs : 1 < k) (m : ℕ) (hm : m ≤ n) (lab : ℕ → ℤ)
    (v s : Bool) :
    ∃ (sel : List ℕ) (noise : Finset ℕ), extractBcubed rows m lab v s = some sel ∧
      (∀ x ∈ noise, v = true ∧ LabelledNoise n rows m lab x ∧ ∀ c ∈ sel, ¬ CDesc rows c x) ∧
      (∀ A : Finset ℕ,
        (∀ x ∈ A, (n < x ∧ x < n + k) ∨ (x = n ∧ s = true) ∨ (v = true ∧ LabelledNoise n rows m lab x)) →
        (∀ x ∈ A, ∀ y ∈ A, CDesc rows x y → x = y) →
        let bc := fun x => (nodeQuality n rows m lab x).2
        let st := fun x => (nodeQuality n rows m lab x).1
        ∑ x ∈ A, bc x ≤ ∑ x ∈ sel.toFinset ∪ noise, bc x ∧
        (∑ x ∈ A, bc x = ∑ x ∈ sel.toFinset ∪ noise, bc x → ∑ x ∈ A, st x ≤ ∑ x ∈ sel.toFinset ∪ noise, st x)) ∧
      ∀ x, (n < x ∧ x < n + k) ∨ (x = n ∧ s = true) → (∃ t ∈ sel.toFinset ∪ noise, CDesc rows x t ∧ x ≠ t) →
        ∀ B : Finset ℕ, (∀ y, y ∈ B ↔ y ∈ sel.toFinset ∪ noise ∧ CDesc rows x y) →
        let bc := fun x => (nodeQuality n rows m lab x).2
        let st := fun x => (nodeQuality n rows m lab x).1
        bc x < ∑ y ∈ B, bc y ∨ (bc x = ∑ y ∈ B, bc y ∧ st x < ∑ y ∈ B, st y) := by
  classical
  obtain ⟨ctb, virt, keys, score, h1, h2, hb, hv, hc, hnd, hkeys, hscore, heq⟩ :=
    CondTree.extractBcubed_eq rows h hk hone hfull m hm lab v s
  have hlen : 1 < keys.length := by
    have : [n, n + 1].Subperm keys := by
      apply (List.subperm_of_subset (by simp))
      intro x hx
      rw [hkeys]
      simp only [List.mem_cons, List.not_mem_nil, or_false] at hx
      left; omega
    have := this.length_le
    simp at this
    omega
  have hmem := hb.mem_sel hs (pairOps K) score keys virt hlen s
  set noise : Finset ℕ := virt.toFinset.filter fun x => hb.Sel (pairOps K) score s x with hnoise
  have hnodes : ∀ x, hb.Sel (pairOps K) score s x → x ∈ keys := by
    intro x hx
    rw [hkeys]
    rcases hb.desc_mem hx.desc with rfl | h3
    · left; omega
    · rcases (hc x).1 h3 with h4 | h4
      · left; omega
      · exact .inr h4
  have hB : ∀ x, x ∈ (bcubedClusters ctb (pairOps K) score keys virt s).toFinset ∪ noise ↔
      hb.Sel (plainOps (K ×ₗ K)) (fun c => lexOf (score c)) s x := by
    intro x
    have : hb.Sel (pairOps K) score s x ↔ hb.Sel (plainOps (K ×ₗ K)) (fun c => lexOf (score c)) s x := by
      unfold BTree.Sel
      simp only [hb.rtree.top_lex]
    rw [← this, Finset.mem_union, List.mem_toFinset, hmem, hnoise, Finset.mem_filter, List.mem_toFinset]
    constructor
    · rintro (h3 | h3)
      · exact h3.2.2
      · exact h3.2
    · intro h3
      by_cases h4 : x ∈ virt
      · exact .inr ⟨h4, h3⟩
      · exact .inl ⟨hnodes x h3, h4, h3⟩
  have hBk : ∀ x ∈ (bcubedClusters ctb (pairOps K) score keys virt s).toFinset ∪ noise, x ∈ keys := by
    intro x hx
    rw [Finset.mem_union, List.mem_toFinset] at hx
    rcases hx with hx | hx
    · exact ((hmem x).1 hx).1
    · obtain ⟨h3, _⟩ := Finset.mem_filter.1 hx
      exact (hkeys x).2 (.inr (List.mem_toFinset.1 h3))
  have hsum : ∀ F : Finset ℕ, (∀ x ∈ F, x ∈ keys) → ∑ x ∈ F, lexOf (score x) =
      toLex (∑ x ∈ F, (nodeQuality n rows m lab x).2, ∑ x ∈ F, (nodeQuality n rows m lab x).1) := by
    intro F hF
    induction F using Finset.induction_on with
    | empty => rfl
    | insert a F ha ih =>
      rw [Finset.sum_insert ha, Finset.sum_insert ha, Finset.sum_insert ha, ih fun x hx => hF x (by simp [hx]),
        hscore a (hF a (by simp))]
      rfl
  refine ⟨_, noise, heq, fun x hx => ?_, fun A hA ha => ?_, fun x hx ⟨t, ht, hd, hne⟩ B hBx => ?_⟩
  · obtain ⟨h3, h4⟩ := Finset.mem_filter.1 hx
    have h3 := List.mem_toFinset.1 h3
    refine ⟨((hv x).1 h3).1, ((hv x).1 h3).2, fun c hcs hd => ?_⟩
    obtain ⟨_, h5, h6⟩ := (hmem c).1 hcs
    have : c = x := BTree.Sel.anti h6 h4 hd
    exact h5 (this ▸ h3)
  · have hle := hb.sel_opt (fun c => lexOf (score c)) s _ hB A (by
      intro x hx
      rcases hA x hx with h3 | h3 | h3
      · exact .inr ((hc x).2 (.inl h3))
      · exact .inl h3
      · exact .inr ((hc x).2 (.inr ((hv x).2 h3)))) ha
    rw [hsum A, hsum _ hBk, Prod.Lex.toLex_le_toLex] at hle
    · intro bc st
      rcases hle with h3 | ⟨h3, h4⟩
      · exact ⟨le_of_lt h3, fun h5 => absurd h5 (ne_of_lt h3)⟩
      · exact ⟨le_of_eq h3, fun _ => h4⟩
    · intro x hx
      rw [hkeys]
      rcases hA x hx with h3 | h3 | h3
      · left; omega
      · left; omega
      · exact .inr ((hv x).2 h3)
  · have hlt := hb.sel_strict (fun c => lexOf (score c)) s x t (by
      rcases hx with h3 | h3
      · exact .inr ((hc x).2 (.inl h3))
      · exact .inl h3) ((hB t).1 ht) hd hne B (fun y => by rw [hBx, hB])
    have hxk : x ∈ keys := by
      rw [hkeys]
      rcases hx with h3 | h3 <;> left <;> omega
    rw [hsum B fun y hy => hBk y ((hBx y).1 hy).1, hscore x hxk, lexOf, Prod.Lex.toLex_lt_toLex] at hlt
    exact hlt

/-! ## Reachability, concrete cases and counterexamples -/

omit [IsStrictOrderedRing K] in
/-- The hypotheses above hold for the condensed tree of every spanning tree. -/
theorem C55_applies [IsStrictOrderedRing K] {W : Type*} [LinearOrder W] [Inhabited W] [Inhabited K] (n : ℕ) (hn : 2 ≤ n) (wt : ℕ → K) (t : List (Edge W))
    (ht : SpanningTree n t) (hs : t.Pairwise fun a b => a.w ≤ b.w) (mcs : K) (h1 : 1 < mcs) (h0 : ∀ x, x < n → 0 ≤ wt x)
    (hl : ∀ x, x < n → wt x < mcs) (lam : W → K) (hlam : Antitone lam) :
    let T := condenseTree (Hier.ofRows (mstToLinkage wt t)) wt mcs none lam
    ∃ k, CondTree n k T ∧ (∀ row ∈ T, 1 < row.size ↔ n ≤ row.child) ∧ (∀ row ∈ T, row.child < n → row.size = 1) ∧
      ∀ c, n ≤ c → c < n + k → ∃ row ∈ T, row.parent = c := by
  intro T
  obtain ⟨k, g1, _, _, g4, g5, _⟩ := C54_applies n hn wt t ht hs mcs h1 h0 hl lam hlam
  obtain ⟨hden, _⟩ := C12_linkage_is_dendrogram n (by omega) wt t ht hs
  obtain ⟨_, _, _, hrow⟩ := C17_condensed_clusters_real n hn wt _ hden mcs h0 hl lam
  exact ⟨k, g1, g4, fun row hr hc => (hrow row hr).1 hc, g5⟩

/-- Sample 6 is noise of the top cluster 7, which splits into 8 and 9. -/
def exB : List (CRow ℚ ℚ) :=
  [⟨7, 6, 1 / 2, 1⟩, ⟨7, 8, 1, 3⟩, ⟨7, 9, 1, 3⟩, ⟨8, 0, 2, 1⟩, ⟨8, 1, 2, 1⟩, ⟨8, 2, 2, 1⟩, ⟨9, 3, 2, 1⟩, ⟨9, 4, 2, 1⟩,
    ⟨9, 5, 2, 1⟩]

/-- Samples 0 and 3 are in class 0, sample 6 in class 2, the others are not labelled. -/
def exBLab (i : ℕ) : ℤ := if i = 0 ∨ i = 3 then 0 else if i = 6 then 2 else -1

theorem exB_condTree : CondTree 7 3 exB :=
  CondTree.of_check (by decide) (by decide +kernel) (by decide +kernel) (by decide +kernel) (by decide +kernel)
    (by decide +kernel) (by decide +kernel)

/-- Without artificial nodes the top cluster is best; with the artificial node 6 (dropped afterwards) its children are. -/
example : extractBcubed exB 7 exBLab false true = some [7] ∧ extractBcubed exB 7 exBLab true true = some [9, 8] :=
  ⟨by decide +kernel, by decide +kernel⟩

theorem exB_full : ∀ c, 7 ≤ c → c < 7 + 3 → ∃ row ∈ exB, row.parent = c := by
  intro c h1 h2
  interval_cases c
  · exact ⟨⟨7, 6, 1 / 2, 1⟩, by decide +kernel, rfl⟩
  · exact ⟨⟨8, 0, 2, 1⟩, by decide +kernel, rfl⟩
  · exact ⟨⟨9, 3, 2, 1⟩, by decide +kernel, rfl⟩

example : ∃ sel, extractBcubed exB 7 exBLab true true = some sel ∧ sel.Nodup ∧ NonNested exB sel ∧
    (∀ c ∈ sel, 7 ≤ c ∧ c < 7 + 3) ∧ (true = false → 7 ∉ sel) ∧ (3 = 1 → sel = []) :=
  C55_bcubed_selection exB exB_condTree (by decide +kernel) (by decide +kernel) exB_full 7 le_rfl exBLab true true

example : ∃ (sel : List ℕ) (noise : Finset ℕ), extractBcubed exB 7 exBLab true true = some sel ∧
    ∀ x ∈ noise, true = true ∧ LabelledNoise 7 exB 7 exBLab x ∧ ∀ c ∈ sel, ¬ CDesc exB c x := by
  obtain ⟨sel, noise, g1, g2, _, _⟩ := C62_bcubed_optimal exB exB_condTree (by decide +kernel) (by decide +kernel) exB_full
    (by decide) 7 le_rfl exBLab true true
  exact ⟨sel, noise, g1, g2⟩

example : (bcubedClusters (clusterTree exB) (pairOps ℚ) (fun _ => (0, 0)) [7, 8, 9] [] true).Nodup :=
  (C55_any_arithmetic exB exB_condTree (by decide +kernel) 7 le_rfl exBLab false (pairOps ℚ) (fun _ => (0, 0)) [7, 8, 9]
    (by decide) (.inl (by decide)) true).1

/-- Labels in semi-supervised mode, `max_cluster_size` given. -/
def exSSLabels (lab : ℕ → ℤ) (mx : Option ℚ) (es : List (Edge (WithTop ℚ))) (cl : CLParams) : Option (List ℤ) :=
  (clustersFromMstSS lamq (fun _ => 1) { exOpts .eom 0 with maxClusterSize := mx } true 8 lab
    (finishMst (runKruskalCore 8 cl es) 8)).map ClusterResult.labels

/-- **C30** fails in semi-supervised mode: samples 0 and 2 have no path between them; when they (only) carry the same class
label they end up in the same cluster. -/
theorem C30_semi_supervised_joins_components : ¬ Conn exPairs 0 2 ∧
    exSSLabels (fun i => if i = 0 ∨ i = 2 then 0 else -1) none exPairs CLParams.none = some [1, 1, 1, 1, 2, 2, 0, 0] := by
  refine ⟨fun h => ?_, by decide +kernel⟩
  exact absurd (conn_invariant (fun x => x / 2) (by decide) h) (by decide)

/-- **C29** fails in semi-supervised mode: 0 and 2 must not be linked, samples 1 and 3 carry the same class label; 0 and 2
end up in the same cluster. -/
theorem C29_semi_supervised_joins_pair : ∃ cl, resolveCL 8 (some exCL) true none = .ok cl ∧
    exSSLabels (fun i => if i = 1 ∨ i = 3 then 0 else -1) none (exPairs ++ [⟨1, 2, (20 : ℚ)⟩]) cl =
      some [1, 1, 1, 1, 2, 2, 0, 0] := ⟨_, rfl, by decide +kernel⟩

/-- **C23** fails in semi-supervised mode: `max_cluster_size` is ignored. -/
theorem C23_semi_supervised_ignores_max :
    exSSLabels (fun i => if i = 0 ∨ i = 2 then 0 else -1) (some 3) exPairs CLParams.none = some [1, 1, 1, 1, 2, 2, 0, 0] := by
  decide +kernel

end Verif
