import Verif.Lemmas.SimplifyOut
import Verif.Lemmas.CondOrder
import Verif.Lemmas.FitTree
import Verif.Props.Pipeline

/-!
# Properties of `simplify_hierarchy`: C54
-/

namespace Verif
variable {W L S : Type*}

section
variable [AddCommGroup L] [LinearOrder L] [IsOrderedAddMonoid L] [One S] [LinearOrder S]

/-- What the function returns, in terms of the values at the end of its loop. -/
theorem simplify_unfold (thr : L) {n k : ℕ} {rows : List (CRow L S)} (h : CondTree n k rows) (hb : CBinary n k rows) (hm : CMono rows)
    (hk : ∀ row ∈ rows, 1 < row.size ↔ n ≤ row.child) (hfull : ∀ c, n ≤ c → c < n + k → ∃ row ∈ rows, row.parent = c) (h2 : 1 < k) :
    ∃ ps F g, SimpCtx thr n k rows ps (simpInit rows (clusterTree rows)) F ∧ IsRep n k F g ∧
      simplifyHierarchy thr rows = some (simpOut n g F rows) := by
  have hct : clusterTree rows = rows.filter fun row => decide (n ≤ row.child) := by
    unfold clusterTree
    refine List.filter_congr fun row hr => ?_
    exact decide_eq_decide.2 (hk row hr)
  obtain ⟨ps, hpl⟩ := exists_pairs h hb
  have hfx := simpLoop_fix thr ps (simpInit rows (clusterTree rows)) (fun _ => ⟨rfl, rfl⟩) (fun q hq => (hpl.par q hq).2.1) hpl.pw
  have hF := simpLoop_eq thr ps (simpInit rows (clusterTree rows))
  rw [← hpl.eq, ← hct] at hF
  rw [← hF] at hfx
  obtain ⟨F, hFe⟩ : ∃ F, F = simpLoop thr (simpInit rows (clusterTree rows)) (clusterTree rows).reverse := ⟨_, rfl⟩
  rw [← hFe] at hfx
  have hctx : SimpCtx thr n k rows ps (simpInit rows (clusterTree rows)) F := by
    refine ⟨h, hpl, hm, hfx, fun c => ?_, fun c h1 h2 => ?_⟩
    · simp only [simpInit, decide_eq_true_eq]
      rw [hct, hpl.eq]
      constructor
      · intro hc q hq
        exact hc q.r1 (List.mem_flatMap.2 ⟨q, hq, by simp⟩)
      · intro hc row hr
        obtain ⟨q, hq, hr⟩ := List.mem_flatMap.1 hr
        simp only [List.mem_cons, List.not_mem_nil, or_false] at hr
        rcases hr with rfl | rfl <;> exact hc q hq
    · exact lastLam_mem rows _ c (hfull c h1 h2)
  have hrep : IsRep n k F (simpPropagate n k F.pmap) := by
    refine simpPropagate_spec n k F.pmap (fun i hi => ?_) (fun i => ?_)
    · exact hctx.pmap_ge i hi
    · exact hctx.pmap_le i
  refine ⟨ps, F, simpPropagate n k F.pmap, hctx, hrep, ?_⟩
  have hg : ∀ i, n ≤ i → i < n + k → n ≤ simpPropagate n k F.pmap i ∧ simpPropagate n k F.pmap i ≤ i := fun i h1 h2 =>
    ⟨(hctx.rep hrep i h1 h2).1, (hctx.rep hrep i h1 h2).2.1⟩
  obtain ⟨n1, n2⟩ := simpNumber_spec n k (simpPropagate n k F.pmap) (fun i a b => (hg i a b).1) (fun i a b => (hg i a b).2)
  -- the last row of the cluster tree
  have hlast : ∃ last, (clusterTree rows).getLast? = some last ∧ last.child + 1 - n = k := by
    have h3 := h.clRows_child
    rw [← hct] at h3
    have h4 : ((clusterTree rows).map CRow.child).getLast? = some (n + k - 1) := by
      rw [h3, List.getLast?_range']
      rw [if_neg (by omega)]
      congr 1; omega
    rw [List.getLast?_map] at h4
    obtain ⟨last, h5, h6⟩ := Option.map_eq_some_iff.1 h4
    exact ⟨last, h5, by omega⟩
  obtain ⟨last, hl1, hl2⟩ := hlast
  cases hrows : rows with
  | nil => rw [hrows] at hl1; cases hl1
  | cons row0 rest =>
    have hp0 : row0.parent = n := by
      rw [hrows] at h; exact h.head_parent
    rw [← hrows]
    unfold simplifyHierarchy
    simp only
    rw [hl1]
    simp only [hrows, hp0, hl2]
    rw [← hrows, ← hFe]
    unfold simpOut
    congr 1
    refine List.filterMap_congr fun row hr => ?_
    obtain ⟨p1, p2⟩ := h.parents row hr
    have hc := (h.children row.child).1 (List.mem_map_of_mem hr)
    rw [n1 _ p1 p2]
    by_cases hcn : n ≤ row.child
    · rw [max_eq_left hcn, n2 _ hcn (by omega), n1 _ hcn (by omega)]
      by_cases hgc : simpPropagate n k F.pmap row.child = row.child
      · rw [if_neg (by simp [hgc]), if_pos (Or.inr hgc)]; rfl
      · rw [if_pos (by simpa using hgc), if_neg (fun h' => h'.elim (by omega) hgc)]
    · rw [max_eq_right (by omega), n2 n (le_refl n) (by omega), if_neg (by simp [hctx.rep_top hrep]), if_pos (Or.inl (by omega))]
      unfold newRow
      rw [if_neg hcn, if_neg hcn]
      rfl

/-- **C54** (partial), for a condensed tree with at least one split in which every cluster has no or two child clusters.  Simplification
returns a condensed tree of the same samples: each sample once, cluster ids consecutive, nothing leaves a cluster before the
cluster appeared, sibling clusters in pairs; every cluster but the top one persists for at least the threshold; a sample keeps its lambda or gets that of the cluster it was
listed below.  Its clusters
correspond to some of those given, in the same order, with the same samples and sizes.  If the rows of each cluster were listed
by lambda, as `condense_tree` lists them, then a cluster remains exactly if it and its sibling persist.
Missing: trees made with a finite `max_cluster_size`, and trees without a split, for which the claim is false
(`C54_undefined`). -/
theorem C54_simplify_partial (thr : L) (n k : ℕ) (rows : List (CRow L S)) (h : CondTree n k rows) (hb : CBinary n k rows) (hm : CMono rows)
    (hk : ∀ row ∈ rows, 1 < row.size ↔ n ≤ row.child) (hfull : ∀ c, n ≤ c → c < n + k → ∃ row ∈ rows, row.parent = c) (h2 : 1 < k) :
    ∃ out k', simplifyHierarchy thr rows = some out ∧ CondTree n k' out ∧ CBinary n k' out ∧ CMono out ∧
      (∀ x, x < n → ((out.map CRow.child).count x = 1)) ∧
      (∀ row ∈ out, 1 < row.size ↔ n ≤ row.child) ∧
      (∀ row ∈ out, n ≤ row.child → Persists n out thr row) ∧
      (∀ row ∈ out, row.child < n → ∃ r ∈ rows, r.child = row.child ∧
        (row.lam = r.lam ∨ ∃ r' ∈ rows, r'.child = r.parent ∧ row.lam = r'.lam)) ∧
      ∃ old : ℕ → ℕ, old n = n ∧
        (∀ c, n ≤ c → c < n + k' → n ≤ old c ∧ old c < n + k ∧ ∀ x, x < n → (CDesc out c x ↔ CDesc rows (old c) x)) ∧
        (∀ c d, n ≤ c → c < d → d < n + k' → old c < old d) ∧
        (∀ row ∈ out, n ≤ row.child → ∃ row' ∈ rows, row'.child = old row.child ∧ row'.lam = row.lam ∧ row'.size = row.size) ∧
        (LamSorted rows → ∀ row ∈ rows, n ≤ row.child →
          ((∃ c, n ≤ c ∧ c < n + k' ∧ old c = row.child) ↔
            ∀ row' ∈ rows, n ≤ row'.child → row'.parent = row.parent → Persists n rows thr row')) := by
  classical
  obtain ⟨ps, F, g, hx, hg, ho⟩ := simplify_unfold thr h hb hm hk hfull h2
  have hct := hx.out_condTree hg
  have hsur : ∀ v, n ≤ v ∧ v < n + keptBelow n g (n + k) → ∃ e, n ≤ e ∧ e < n + k ∧ g e = e ∧ newId n g e = v := fun v hv => hx.newId_surj hv.1 hv.2
  choose! old hold using hsur
  have holdid : ∀ e, n ≤ e → e < n + k → g e = e → old (newId n g e) = e := by
    intro e h1 h2 h3
    obtain ⟨a, b, c, d⟩ := hold (newId n g e) ⟨by unfold newId; omega, hx.newId_lt hg h1 h2⟩
    have := hx.newId_inj hg a b h1 h2 d
    rw [c, h3] at this
    exact this
  refine ⟨simpOut n g F rows, keptBelow n g (n + k), ho, hct, hx.out_binary hg, hx.out_mono hg, fun x hxn => ?_, fun row' hr' => ?_,
    fun row' hr' hc' => hx.out_persists hg hr' hc', fun row' hr' hc' => ?_, old, ?_, fun c h1 h2 => ?_, fun c d h1 h2 h3 => ?_, fun row' hr' hc' => ?_,
    fun hs row hr hc => ?_⟩
  · exact List.count_eq_one_of_mem hct.nodup ((hct.children x).2 (Or.inl hxn))
  · obtain ⟨row, hr, hst, rfl⟩ := mem_simpOut.1 hr'
    simp only [newRow]
    rw [hk row hr]
    by_cases hcn : n ≤ row.child
    · rw [if_pos hcn]; exact ⟨fun _ => by unfold newId; omega, fun _ => hcn⟩
    · simp only [if_neg hcn]
  · obtain ⟨row, hr, hst, rfl⟩ := mem_simpOut.1 hr'
    have hcn : ¬ n ≤ row.child := by
      intro hn
      simp only [newRow, if_pos hn, newId] at hc'
      omega
    refine ⟨row, hr, by simp only [newRow, if_neg hcn], ?_⟩
    simp only [newRow]
    cases hl : F.lmap row.parent with
    | none => exact .inl rfl
    | some lv =>
      obtain ⟨q, hq, _, hc2, rfl, _⟩ := hx.lmap_some hl
      obtain ⟨m1, m2⟩ := hx.pair_mem hq
      right
      rcases hc2 with hc2 | hc2
      · exact ⟨_, m1, hc2.symm, rfl⟩
      · exact ⟨_, m2, hc2.symm, rfl⟩
  · have := holdid n (le_refl n) (by omega) (hx.rep_top hg)
    rwa [hx.newId_top hg] at this
  · obtain ⟨a, b, c', d⟩ := hold c ⟨h1, h2⟩
    refine ⟨a, b, fun x hxn => ?_⟩
    have := hx.samples_out hg a b c' hxn
    rwa [d] at this
  · obtain ⟨a, b, c', e⟩ := hold c ⟨h1, by omega⟩
    obtain ⟨a', b', c'', e'⟩ := hold d ⟨by omega, h3⟩
    by_contra hlt
    have hle : old d ≤ old c := by omega
    have := keptBelow_mono (n := n) (g := g) a' hle
    unfold newId at e e'
    rw [c'] at e; rw [c''] at e'
    omega
  · obtain ⟨row, hr, hst, rfl⟩ := mem_simpOut.1 hr'
    have hcn : n ≤ row.child := by
      by_contra hn
      simp only [newRow] at hc'
      rw [if_neg hn] at hc'
      exact hn hc'
    have hst := hst.resolve_left (by omega)
    obtain ⟨_, _, _, _, hl1, _⟩ := hx.kept_row hg hr hcn hst
    refine ⟨row, hr, ?_, ?_, rfl⟩
    · simp only [newRow]
      rw [if_pos hcn, holdid _ hcn (hx.child_range hr hcn).2 hst]
    · simp only [newRow]; rw [hl1]; rfl
  · have hcr := hx.child_range hr hc
    obtain ⟨q, hq, hqe⟩ := hx.child_pair hr hc
    have hc' : row.child = q.a ∨ row.child = q.a + 1 := by
      rcases hqe with rfl | rfl
      · exact Or.inl rfl
      · exact Or.inr rfl
    have e1 : (∃ c, n ≤ c ∧ c < n + keptBelow n g (n + k) ∧ old c = row.child) ↔ PairKept thr F q := by
      have e2 : PairKept thr F q ↔ g row.child = row.child := by
        rw [hx.rep_fix hg hc hcr.2]
        by_cases hkp : PairKept thr F q
        · exact ⟨fun _ => (hx.pmap_child hq hc').1 hkp, fun _ => hkp⟩
        · refine ⟨fun h => absurd h hkp, fun he => ?_⟩
          rw [(hx.pmap_child hq hc').2 hkp] at he
          have := hx.pl.par q hq
          omega
      rw [e2]
      constructor
      · rintro ⟨c, c1, c2, c3⟩
        rw [← c3]; exact (hold c ⟨c1, c2⟩).2.2.1
      · intro hgc
        exact ⟨newId n g row.child, by unfold newId; omega, hx.newId_lt hg hc hcr.2, holdid _ hc hcr.2 hgc⟩
    rw [e1, hx.kept_iff (lastLam_max rows _ hs) hq]
    have hp : row.parent = q.p := by rcases hqe with rfl | rfl <;> rfl
    have hpar := hx.pl.par q hq
    constructor
    · rintro ⟨k1, k2⟩ row' hr' hcn' hp'
      obtain ⟨q', hq', hqe'⟩ := hx.child_pair hr' hcn'
      have hp2 : row'.parent = q'.p := by rcases hqe' with rfl | rfl <;> rfl
      have : q' = q := hx.pl.unique_p hq' hq (by rw [← hp2, hp', hp])
      subst this
      rcases hqe' with rfl | rfl
      · exact k1
      · exact k2
    · intro hall
      obtain ⟨m1, m2⟩ := hx.pair_mem hq
      exact ⟨hall _ m1 (by simp only [CPair.r1]; omega) hp.symm, hall _ m2 (by simp only [CPair.r2]; omega) hp.symm⟩

/-- **C54**, when nothing has to be merged: a tree in which all clusters persist is returned as it is, and so is
every tree if the threshold is not positive. -/
theorem C54_unchanged (thr : L) (n k : ℕ) (rows : List (CRow L S)) (h : CondTree n k rows) (hb : CBinary n k rows) (hm : CMono rows)
    (hk : ∀ row ∈ rows, 1 < row.size ↔ n ≤ row.child) (hfull : ∀ c, n ≤ c → c < n + k → ∃ row ∈ rows, row.parent = c) (h2 : 1 < k)
    (hp : thr ≤ 0 ∨ (LamSorted rows ∧ ∀ row ∈ rows, n ≤ row.child → Persists n rows thr row)) : simplifyHierarchy thr rows = some rows := by
  obtain ⟨ps, F, g, hx, hg, ho⟩ := simplify_unfold thr h hb hm hk hfull h2
  have hkept : ∀ q ∈ ps, PairKept thr F q := by
    intro q hq
    obtain ⟨m1, m2⟩ := hx.pair_mem hq
    have hpar := hx.pl.par q hq
    rcases hp with hp | ⟨hs, hp⟩
    · have key : ∀ r ∈ rows, n ≤ r.child → r.child < n + k → thr ≤ F.births r.child - r.lam := by
        intro r hr h1 h2
        obtain ⟨s, s1, _, s3, s4, _⟩ := hx.attained r.child h1 h2
        rw [← s4]
        exact hp.trans (sub_nonneg.2 (hm.desc s3 hr rfl s1 rfl))
      have k1 := key _ m1 (by simp only [CPair.r1]; omega) (by simp only [CPair.r1]; omega)
      have k2 := key _ m2 (by simp only [CPair.r2]; omega) (by simp only [CPair.r2]; omega)
      unfold PairKept
      rcases min_choice (F.births q.a) (F.births (q.a + 1)) with e | e <;> rw [e]
      · exact k1
      · exact k2
    · exact (hx.kept_iff (lastLam_max rows _ hs) hq).2 ⟨hp _ m1 (by simp only [CPair.r1]; omega), hp _ m2 (by simp only [CPair.r2]; omega)⟩
  have hpm : ∀ c, n ≤ c → c < n + k → F.pmap c = c := by
    intro c _ _
    rcases hx.pmap_cases c with h5 | ⟨q, hq, _, hnk, _⟩
    · exact h5
    · exact absurd (hkept q hq) hnk
  have hlm : ∀ c, F.lmap c = none := by
    intro c
    cases hl : F.lmap c with
    | none => rfl
    | some lv =>
      obtain ⟨q, hq, hnk, _⟩ := hx.lmap_some hl
      exact absurd (hkept q hq) hnk
  have hgid : ∀ c, n ≤ c → c < n + k → g c = c := fun c h1 h2 => (hx.rep_fix hg h1 h2).2 (hpm c h1 h2)
  have hkb : ∀ j, j ≤ k → keptBelow n g (n + j) = j := by
    intro j
    induction j with
    | zero => intro _; simp [keptBelow]
    | succ j ih =>
      intro hj
      rw [← Nat.add_assoc, keptBelow_succ (by omega), ih (by omega), if_pos (hgid _ (by omega) (by omega))]
  have hid : ∀ c, n ≤ c → c < n + k → newId n g c = c := by
    intro c h1 h2
    unfold newId
    rw [hgid c h1 h2]
    have := hkb (c - n) (by omega)
    rw [show n + (c - n) = c by omega] at this
    omega
  rw [ho]
  congr 1
  unfold simpOut
  have : ∀ row ∈ rows, (if row.child < n ∨ g row.child = row.child then some (newRow n g F row) else none) = some row := by
    intro row hr
    obtain ⟨p1, p2⟩ := h.parents row hr
    have hc := (h.children row.child).1 (List.mem_map_of_mem hr)
    rw [if_pos (by
      rcases hc with hc | hc
      · exact Or.inl hc
      · exact Or.inr (hgid _ (by omega) (by omega)))]
    unfold newRow
    rw [hid _ p1 p2, hlm]
    by_cases hcn : n ≤ row.child
    · rw [if_pos hcn, hid _ hcn (by omega)]; rfl
    · rw [if_neg hcn]; rfl
  rw [List.filterMap_congr this]
  exact List.filterMap_some

omit [IsOrderedAddMonoid L] in
/-- **C54** fails without a split: the function reads the last entry of an empty array. -/
theorem C54_undefined (thr : L) (n : ℕ) (rows : List (CRow L S)) (h : CondTree n 1 rows) (hk : ∀ row ∈ rows, 1 < row.size ↔ n ≤ row.child) :
    simplifyHierarchy thr rows = none := by
  have : clusterTree rows = [] := by
    unfold clusterTree
    rw [List.filter_eq_nil_iff]
    intro row hr hs
    have := (hk row hr).1 (of_decide_eq_true hs)
    have := (h.children row.child).1 (List.mem_map_of_mem hr)
    omega
  unfold simplifyHierarchy
  simp only
  rw [this]
  rfl

end

/-- **C54** applies to the condensed trees the library makes: the tree of any spanning tree (without `max_cluster_size`) either has no
split, and simplification is undefined, or meets the hypotheses of `C54_simplify_partial`, and its rows are listed by lambda. -/
theorem C54_applies {K : Type*} [Field K] [LinearOrder K] [IsStrictOrderedRing K] [LinearOrder W] [Inhabited W] [Inhabited K] (n : ℕ) (hn : 2 ≤ n)
    (wt : ℕ → K) (t : List (Edge W)) (ht : SpanningTree n t) (hs : t.Pairwise fun a b => a.w ≤ b.w) (mcs : K) (h1 : 1 < mcs)
    (h0 : ∀ x, x < n → 0 ≤ wt x) (hl : ∀ x, x < n → wt x < mcs) (lam : W → K) (hlam : Antitone lam) :
    let T := condenseTree (Hier.ofRows (mstToLinkage wt t)) wt mcs none lam
    ∃ k, CondTree n k T ∧ CBinary n k T ∧ CMono T ∧ (∀ row ∈ T, 1 < row.size ↔ n ≤ row.child) ∧
      (∀ c, n ≤ c → c < n + k → ∃ row ∈ T, row.parent = c) ∧ LamSorted T := by
  intro T
  obtain ⟨hden, _, hheight, _⟩ := C12_linkage_is_dendrogram n (by omega) wt t ht hs
  have hHn := hden.hier_n
  have hh := hden.condHyp h0 hl
  have hm : 0 < (Hier.ofRows (mstToLinkage wt t)).m := by
    have := hden.length; change 0 < (mstToLinkage wt t).length; omega
  obtain ⟨_, _, _, hkind⟩ := condenseTree_usable n hn wt _ hden mcs h1 h0 hl lam
  obtain ⟨k, relabel, top, hr⟩ := condense_res (mx := none) hh hm lam
  have hct : CondTree n k T := by have := hr.condTree; rwa [hHn] at this
  have hbin : CBinary n k T := by have := hr.binary hh; rwa [hHn] at this
  refine ⟨k, hct, hbin, hr.mono hh hlam (ofRows_height hheight), hkind, fun c c1 c2 => ?_, condense_lamSorted hh hm hlam (ofRows_height hheight)⟩
  exact hr.full hh (by rw [hHn]; exact c1) (by rw [hHn]; exact c2)

/-! ## C61 -/

/-- **C61** (partial): in the condensed tree of a spanning tree the rows of every cluster are listed by lambda, and the split of a
cluster is its last event: nothing leaves it at a larger lambda than its child clusters.
Missing: simplified trees, for which the second half is false (`C61_simplified_not_last`), and `max_cluster_size`. -/
theorem C61_split_last_partial {K : Type*} [Field K] [LinearOrder K] [IsStrictOrderedRing K] [LinearOrder W] [Inhabited W] [Inhabited K] (n : ℕ) (hn : 2 ≤ n)
    (wt : ℕ → K) (t : List (Edge W)) (ht : SpanningTree n t) (hs : t.Pairwise fun a b => a.w ≤ b.w) (mcs : K)
    (h0 : ∀ x, x < n → 0 ≤ wt x) (hl : ∀ x, x < n → wt x < mcs) (lam : W → K) (hlam : Antitone lam) :
    let T := condenseTree (Hier.ofRows (mstToLinkage wt t)) wt mcs none lam
    LamSorted T ∧ ∀ row ∈ T, ∀ row' ∈ T, row.parent = row'.parent → n ≤ row'.child → row.lam ≤ row'.lam := by
  intro T
  obtain ⟨hden, _, hheight, _⟩ := C12_linkage_is_dendrogram n (by omega) wt t ht hs
  have hHn := hden.hier_n
  have hh := hden.condHyp h0 hl
  have hm : 0 < (Hier.ofRows (mstToLinkage wt t)).m := by
    have := hden.length; change 0 < (mstToLinkage wt t).length; omega
  obtain ⟨k, relabel, top, hr⟩ := condense_res (mx := none) hh hm lam
  refine ⟨condense_lamSorted hh hm hlam (ofRows_height hheight), ?_⟩
  have := hr.split_last hh hlam (ofRows_height hheight)
  rwa [hHn] at this

/-! ## Concrete cases and counterexamples -/

/-- Four pairs of samples: 4-5 and 6-7 close together, 0-1 and 2-3 less so. -/
def exSimpMst : List (Edge (WithTop ℚ)) :=
  [⟨4, 5, ((1 / 5 : ℚ) : WithTop ℚ)⟩, ⟨6, 7, ((1 / 5 : ℚ) : WithTop ℚ)⟩, ⟨0, 1, ((10 / 19 : ℚ) : WithTop ℚ)⟩,
    ⟨2, 3, ((10 / 19 : ℚ) : WithTop ℚ)⟩, ⟨1, 2, ((2 / 3 : ℚ) : WithTop ℚ)⟩, ⟨5, 6, ((5 / 6 : ℚ) : WithTop ℚ)⟩,
    ⟨3, 4, ((1 : ℚ) : WithTop ℚ)⟩]

/-- Its condensed tree: seven clusters. -/
def exSimpTree : List (CRow ℚ ℚ) := condenseTree (Hier.ofRows (mstToLinkage (fun _ => (1 : ℚ)) exSimpMst)) (fun _ => 1) 2 none lamq

/-- Simplified with threshold 1: three clusters. -/
def exSimpOut : List (CRow ℚ ℚ) :=
  [⟨8, 9, 6 / 5, 2⟩, ⟨8, 10, 6 / 5, 2⟩, ⟨9, 7, 5, 1⟩, ⟨9, 6, 5, 1⟩, ⟨10, 5, 5, 1⟩, ⟨10, 4, 5, 1⟩, ⟨8, 3, 19 / 10, 1⟩, ⟨8, 2, 19 / 10, 1⟩,
    ⟨8, 1, 19 / 10, 1⟩, ⟨8, 0, 19 / 10, 1⟩]

theorem exSimpMst_tree : SpanningTree 8 exSimpMst := by
  have hstep : ∀ i, i < 7 → Conn exSimpMst i (i + 1) := by
    intro i hi
    interval_cases i
    · exact Conn.edge (e := ⟨0, 1, ((10 / 19 : ℚ) : WithTop ℚ)⟩) (by simp [exSimpMst])
    · exact Conn.edge (e := ⟨1, 2, ((2 / 3 : ℚ) : WithTop ℚ)⟩) (by simp [exSimpMst])
    · exact Conn.edge (e := ⟨2, 3, ((10 / 19 : ℚ) : WithTop ℚ)⟩) (by simp [exSimpMst])
    · exact Conn.edge (e := ⟨3, 4, ((1 : ℚ) : WithTop ℚ)⟩) (by simp [exSimpMst])
    · exact Conn.edge (e := ⟨4, 5, ((1 / 5 : ℚ) : WithTop ℚ)⟩) (by simp [exSimpMst])
    · exact Conn.edge (e := ⟨5, 6, ((5 / 6 : ℚ) : WithTop ℚ)⟩) (by simp [exSimpMst])
    · exact Conn.edge (e := ⟨6, 7, ((1 / 5 : ℚ) : WithTop ℚ)⟩) (by simp [exSimpMst])
  have h0 : ∀ a, a < 8 → Conn exSimpMst a 0 := by
    intro a
    induction a with
    | zero => exact fun _ => Conn.refl _ _
    | succ a ih => exact fun ha => (hstep a (by omega)).symm.trans (ih (by omega))
  have hconn : ∀ a b, a < 8 → b < 8 → Conn exSimpMst a b := fun a b ha hb => (h0 a ha).trans (h0 b hb).symm
  have hr : InRange 8 exSimpMst := by
    intro e he
    simp only [exSimpMst, List.mem_cons, List.not_mem_nil, or_false] at he
    rcases he with rfl | rfl | rfl | rfl | rfl | rfl | rfl <;> decide
  exact ⟨hr, acyclic_of_connected hr hconn (by decide), hconn⟩

theorem exSimpTree_ok : ∃ k, CondTree 8 k exSimpTree ∧ CBinary 8 k exSimpTree ∧ CMono exSimpTree ∧ (∀ row ∈ exSimpTree, 1 < row.size ↔ 8 ≤ row.child) ∧
    (∀ c, 8 ≤ c → c < 8 + k → ∃ row ∈ exSimpTree, row.parent = c) ∧ LamSorted exSimpTree :=
  C54_applies 8 (by decide) (fun _ => 1) exSimpMst exSimpMst_tree (by decide +kernel) 2 (by norm_num) (fun _ _ => zero_le_one)
    (fun _ _ => by norm_num) lamq lamq_antitone

/-- The hypotheses of `C54_simplify_partial` hold for it. -/
example : ∃ out k', simplifyHierarchy 1 exSimpTree = some out ∧ CondTree 8 k' out ∧ ∀ row ∈ out, 8 ≤ row.child → Persists 8 out 1 row := by
  obtain ⟨k, h1, h2, h3, h4, h5, _⟩ := exSimpTree_ok
  have hk : 1 < k := by
    have : 9 ∈ exSimpTree.map CRow.child := by decide +kernel
    have := (h1.children 9).1 this
    omega
  obtain ⟨out, k', g1, g2, _, _, _, _, g3, _⟩ := C54_simplify_partial 1 8 k exSimpTree h1 h2 h3 h4 h5 hk
  exact ⟨out, k', g1, g2, g3⟩

example : simplifyHierarchy 1 exSimpTree = some exSimpOut := by decide +kernel

example : simplifyHierarchy 0 exSimpTree = some exSimpTree := by
  obtain ⟨k, h1, h2, h3, h4, h5, _⟩ := exSimpTree_ok
  have hk : 1 < k := by
    have : 9 ∈ exSimpTree.map CRow.child := by decide +kernel
    have := (h1.children 9).1 this
    omega
  exact C54_unchanged 0 8 k exSimpTree h1 h2 h3 h4 h5 hk (.inl le_rfl)

/-- **C61** fails after simplification: the top cluster splits at `6/5`, and sample 0 leaves it at `19/10`. -/
theorem C61_simplified_not_last : ∃ rows, simplifyHierarchy 1 exSimpTree = some rows ∧
    (⟨8, 9, 6 / 5, 2⟩ : CRow ℚ ℚ) ∈ rows ∧ ⟨8, 0, 19 / 10, 1⟩ ∈ rows ∧ (6 / 5 : ℚ) < 19 / 10 := by
  refine ⟨exSimpOut, by decide +kernel, by decide +kernel, by decide +kernel, by decide +kernel⟩

/-- **C54**: `clusters_from_spanning_tree` gets there.  Three samples in a row, no split, `cluster_selection_persistence = 1`. -/
theorem C54_undefined_reachable : clustersFromMst lamq (fun _ => 1) (exOpts .eom 1)
    [⟨0, 1, ((1 : ℚ) : WithTop ℚ)⟩, ⟨1, 2, ((1 : ℚ) : WithTop ℚ)⟩] = none := by decide +kernel

end Verif
