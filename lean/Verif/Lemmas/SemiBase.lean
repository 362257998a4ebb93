import Verif.Props.Bcubed
import Verif.Props.Total

/-!
# Lemmas: selection in semi-supervised mode, up to the epsilon search
-/

namespace Verif
variable {W K L S V : Type*} {n k : ℕ}

/-- From a node down to one that is taken, some node is the first one taken. -/
theorem RTree.top_cover {ct : List (CRow L S)} {rk : ℕ → ℕ} (h : RTree rk ct) (o : ScoreOps V) (score : ℕ → V) {r c : ℕ} (hd : CDesc ct r c)
    (ht : h.take o score c = true) : ∃ x, h.Top o score r x ∧ CDesc ct x c := by
  induction hd using Relation.ReflTransGen.head_induction_on with
  | refl => exact ⟨c, (RTree.Top.of_take ht).2 rfl, .refl⟩
  | @head a b hab hbc ih =>
    by_cases hta : h.take o score a = true
    · exact ⟨a, (RTree.Top.of_take hta).2 rfl, Relation.ReflTransGen.head hab hbc⟩
    · obtain ⟨x, h1, h2⟩ := ih
      exact ⟨x, (RTree.Top.of_not_take (by simpa using hta)).2 ⟨b, mem_kidsOf.2 hab, h1⟩, h2⟩

section
variable [Field K] [LinearOrder K] [IsStrictOrderedRing K]

theorem bcubedF_nonneg (lab : ℕ → ℤ) (all P : Finset ℕ) : (0 : K) ≤ bcubedF lab all P := by
  unfold bcubedF
  refine div_nonneg (Finset.sum_nonneg fun p _ => ?_) (Nat.cast_nonneg _)
  simp only
  positivity

/-- Clusters without child clusters are covered, if their stability is not negative. -/
theorem CondTree.bcubed_cover (rows : List (CRow K K)) (h : CondTree n k rows)
    (hk : ∀ row ∈ rows, 1 < row.size ↔ n ≤ row.child) (hone : ∀ row ∈ rows, row.child < n → row.size = 1)
    (hfull : ∀ c, n ≤ c → c < n + k → ∃ row ∈ rows, row.parent = c) (hs : 1 < k) (m : ℕ) (hm : m ≤ n) (lab : ℕ → ℤ) (v s : Bool)
    {sel : List ℕ} (hsel : extractBcubed rows m lab v s = some sel) {c : ℕ} (hc : n ≤ c) (hck : c < n + k) (hch : Childless n rows c)
    (hst : 0 ≤ stability rows c) : ∃ x ∈ sel, CDesc rows x c := by
  obtain ⟨ctb, virt, keys, score, h1, h2, hb, hv, hcm, hnd, hkeys, hscore, heq⟩ :=
    CondTree.extractBcubed_eq rows h hk hone hfull m hm lab v s
  rw [heq, Option.some.injEq] at hsel
  subst hsel
  have hlen : 1 < keys.length := by
    have : [n, n + 1].Subperm keys := by
      apply (List.subperm_of_subset (by simp))
      intro x hx
      rw [hkeys]
      simp only [List.mem_cons, List.not_mem_nil, or_false] at hx
      left; omega
    have := this.length_le
    simp at this
    omega
  have hmem := hb.mem_sel hs (pairOps K) score keys virt hlen s
  have hcn : n < c := by
    refine lt_of_le_of_ne hc ?_
    rintro rfl
    obtain ⟨row, hr, he⟩ := List.mem_map.1 ((h.children (n + 1)).2 (.inr ⟨by omega, by omega⟩))
    have hp := h.parents row hr
    have hd := h.down row hr (by omega)
    have := hch row hr (by omega)
    omega
  have hkids : kidsOf ctb c = [] := by
    rw [List.eq_nil_iff_forall_not_mem]
    intro x hx
    obtain ⟨row, hrow, hp, hx'⟩ := mem_kidsOf.1 hx
    have hrow' := hb.sub.subset hrow
    have hxn := hch row hrow' hp
    rcases (hcm x).1 (hx' ▸ List.mem_map_of_mem hrow) with h3 | h3
    · omega
    · obtain ⟨_, _, p, ⟨q, hq, hqp, hqc⟩, hnc⟩ := (hv x).1 h3
      have : q = row := List.inj_on_of_nodup_map h.nodup hq hrow' (by omega)
      subst this
      exact hnc (hqp ▸ hp ▸ hch)
  have hkey : c ∈ keys := (hkeys c).2 (.inl ⟨hc, hck⟩)
  have htake : hb.rtree.take (pairOps K) score c = true := by
    unfold RTree.take RTree.total
    rw [hkids, List.foldl_nil, hscore c hkey]
    simp only [pairOps, nodeQuality, Bool.not_eq_true']
    rw [if_neg (not_lt.2 (bcubedF_nonneg _ _ _))]
    split
    · rfl
    · simp only [if_neg (not_lt.2 hc), decide_eq_false_iff_not, not_lt]
      exact hst
  have hdn : CDesc ctb n c := hb.desc_root (.inr ((hcm c).2 (.inl ⟨hcn, hck⟩)))
  obtain ⟨x, hx, hxc⟩ : ∃ x, hb.Sel (pairOps K) score s x ∧ CDesc ctb x c := by
    unfold BTree.Sel
    cases s
    · simp only [Bool.false_eq_true, if_false]
      rcases desc_cases hdn with h3 | ⟨d, h3, h4⟩
      · omega
      · obtain ⟨x, h5, h6⟩ := hb.rtree.top_cover _ score h4 htake
        exact ⟨x, ⟨d, h3, h5⟩, h6⟩
    · simp only [if_true]
      exact hb.rtree.top_cover _ score hdn htake
  have hxn : n ≤ x := by
    by_contra hlt
    have := (h.desc_sample (not_le.1 hlt)).1 (hb.mono hxc)
    omega
  have hxk : x < n + k := by
    rcases hb.desc_mem hx.desc with rfl | h3
    · omega
    · rcases (hcm x).1 h3 with h4 | h4
      · omega
      · have h5 := ((hv x).1 h4).2.1
        rw [← labelIdx_toFinset, List.mem_toFinset] at h5
        have := (mem_labelIdx.1 h5).1
        omega
  refine ⟨x, (hmem x).2 ⟨(hkeys x).2 (.inl ⟨hxn, hxk⟩), fun hxv => ?_, hx⟩, hb.mono hxc⟩
  have h5 := ((hv x).1 hxv).2.1
  rw [← labelIdx_toFinset, List.mem_toFinset] at h5
  have := (mem_labelIdx.1 h5).1
  omega

/-- The selection before the epsilon search. -/
theorem CondTree.base_ss {rows : List (CRow K K)} (h : CondTree n k rows)
    (hk : ∀ row ∈ rows, 1 < row.size ↔ n ≤ row.child) (hone : ∀ row ∈ rows, row.child < n → row.size = 1)
    (hfull : ∀ c, n ≤ c → c < n + k → ∃ row ∈ rows, row.parent = c) {m : ℕ} (hm : m ≤ n) (lab : ℕ → ℤ) (v : Bool) (o : ClusterOpts K) :
    ∃ sel0, baseSelectionSS o v m lab n rows = some sel0 ∧ sel0.Nodup ∧ NonNested rows sel0 ∧ (∀ c ∈ sel0, n ≤ c ∧ c < n + k) ∧
      (k = 1 → sel0 = []) ∧ (o.method = .leaf ∨ o.allowSingle = false → n ∉ sel0) ∧
      ((o.method = .leaf ∨ ∀ c, n < c → c < n + k → Childless n rows c → 0 ≤ stability rows c) →
        1 < k → ∀ c, n ≤ c → c < n + k → Childless n rows c → ∃ s ∈ sel0, CDesc rows s c) := by
  have htop : ∀ c, Childless n rows c → 1 < k → c ≠ n := by
    rintro c hch hs rfl
    obtain ⟨row, hr, he⟩ := List.mem_map.1 ((h.children (c + 1)).2 (.inr ⟨by omega, by omega⟩))
    have hp := h.parents row hr
    have hd := h.down row hr (by omega)
    have := hch row hr (by omega)
    omega
  unfold baseSelectionSS
  cases hmeth : o.method with
  | leaf =>
    obtain ⟨g1, g2, g3, g4⟩ := C20_leaf_selection rows h hk
    refine ⟨_, rfl, g1.imp (fun h => ne_of_lt h), g2, fun c hc => ⟨((g3 c).1 hc).2.1, ((g3 c).1 hc).2.2.1⟩, ?_, ?_, ?_⟩
    · intro h1
      rw [List.eq_nil_iff_forall_not_mem]
      intro c hc
      have := ((g3 c).1 hc).1; omega
    · exact fun _ hn => htop n ((g3 n).1 hn).2.2.2 ((g3 n).1 hn).1 rfl
    · intro _ h1 c h2 h3 h4
      exact ⟨c, (g3 c).2 ⟨h1, h2, h3, h4⟩, .refl⟩
  | eom =>
    obtain ⟨sel, g1, g2, g3, g4, g5, g6⟩ := C55_bcubed_selection rows h hk hone hfull m hm lab v o.allowSingle
    refine ⟨sel, g1, g2, g3, g4, g6, fun h1 => g5 (h1.resolve_left (by simp)), fun h1 h2 c h3 h4 h5 => ?_⟩
    have hst := h1.resolve_left (by simp)
    exact CondTree.bcubed_cover rows h hk hone hfull h2 m hm lab v _ g1 h3 h4 h5
      (hst c (lt_of_le_of_ne h3 fun he => htop c h5 h2 he.symm) h4 h5)

/-- A cluster without child clusters has a stability that is not negative, if it is not larger than the number of its samples. -/
theorem CondTree.stability_nonneg {rows : List (CRow K K)} (h : CondTree n k rows) (hone : ∀ row ∈ rows, row.child < n → row.size = 1)
    (hm : CMono rows) (hlam : ∀ row ∈ rows, 0 ≤ row.lam) {c : ℕ} (hc : n < c) (hch : Childless n rows c)
    (hsz : ∀ row ∈ rows, row.child = c → row.size ≤ ((rows.filter fun row => decide (row.parent = c)).length : K)) : 0 ≤ stability rows c := by
  unfold stability
  have hcase : (rows.filter fun row => decide (row.child = c)) = [] ∨ ∃ q, (rows.filter fun row => decide (row.child = c)) = [q] := by
    have h1 : ((rows.filter fun row => decide (row.child = c)).map CRow.child).Nodup := h.nodup.sublist (List.filter_sublist.map _)
    have h2 : ∀ row ∈ (rows.filter fun row => decide (row.child = c)), row.child = c := fun row hr => of_decide_eq_true (List.mem_filter.1 hr).2
    generalize (rows.filter fun row => decide (row.child = c)) = l at h1 h2
    match l with
    | [] => exact .inl rfl
    | [a] => exact .inr ⟨a, rfl⟩
    | a :: b :: l =>
      have ea := h2 a (by simp)
      have eb := h2 b (by simp)
      simp [ea, eb] at h1
  rcases hcase with hf | ⟨q, hf⟩
  · rw [hf]
    simp only [List.map_nil, List.sum_nil, sub_zero]
    refine List.sum_nonneg fun x hx => ?_
    obtain ⟨row, hr, rfl⟩ := List.mem_map.1 hx
    obtain ⟨hr, hp⟩ := List.mem_filter.1 hr
    rw [hone row hr (hch row hr (of_decide_eq_true hp)), mul_one]
    exact hlam row hr
  · have hq : q ∈ rows.filter fun row => decide (row.child = c) := by rw [hf]; simp
    obtain ⟨hq, hqc⟩ := List.mem_filter.1 hq
    have hqc := of_decide_eq_true hqc
    rw [hf]
    simp only [List.map_cons, List.map_nil, List.sum_cons, List.sum_nil, add_zero, sub_nonneg]
    have hge : ((rows.filter fun row => decide (row.parent = c)).length : K) * q.lam ≤
        ((rows.filter fun row => decide (row.parent = c)).map fun row => row.lam * row.size).sum := by
      have : ∀ l : List (CRow K K), (∀ row ∈ l, q.lam ≤ row.lam * row.size) → (l.length : K) * q.lam ≤ (l.map fun row => row.lam * row.size).sum := by
        intro l hl
        induction l with
        | nil => simp
        | cons a l ih =>
          rw [List.length_cons, List.map_cons, List.sum_cons, Nat.cast_succ, add_mul, one_mul, add_comm]
          exact add_le_add (hl a (by simp)) (ih fun r hr => hl r (by simp [hr]))
      refine this _ fun row hr => ?_
      obtain ⟨hr, hp⟩ := List.mem_filter.1 hr
      have hp := of_decide_eq_true hp
      rw [hone row hr (hch row hr hp), mul_one]
      exact hm q hq row hr (by omega)
    refine le_trans ?_ hge
    rw [mul_comm]
    exact mul_le_mul_of_nonneg_right (hsz q hq hqc) (hlam q hq)

end

section
variable [Field K] [LinearOrder K] [IsStrictOrderedRing K] [LinearOrder W] [OrderTop W] [Inhabited W] [Inhabited K]

omit [OrderTop W] in
/-- More about the condensed tree after the optional simplification: samples have size 1, clusters the weight of their samples. -/
theorem simplified_sizes {n : ℕ} (hn : 2 ≤ n) {wt : ℕ → K} {t : List (Edge W)} (ht : SpanningTree n t)
    {o : ClusterOpts K} (h1 : 1 < o.minClusterSize) (h0 : ∀ x, x < n → 0 ≤ wt x)
    (hl : ∀ x, x < n → wt x < o.minClusterSize) {lam : W → K} (hlam : Antitone lam) {rows : List (CRow K K)} {k : ℕ}
    (hs : simplifyIf o.persistence (condenseTree (Hier.ofRows (mstToLinkage wt (lexsortMst t))) wt o.minClusterSize none lam) = some rows)
    (hct : CondTree n k rows) :
    (∀ row ∈ rows, row.child < n → row.size = 1) ∧ (∀ c, n ≤ c → c < n + k → ∃ row ∈ rows, row.parent = c) ∧
      ∀ row ∈ rows, n ≤ row.child → ∀ A : Finset ℕ, (∀ x, x ∈ A ↔ x < n ∧ CDesc rows row.child x) → row.size = A.sum wt := by
  classical
  have ht' := ht.perm (lexsortMst_perm t)
  obtain ⟨k0, hct0, hbin0, hmono0, hkind0, hfull0, _⟩ :=
    C54_applies n hn wt _ ht' (lexsortMst_sorted t) o.minClusterSize h1 h0 hl lam hlam
  obtain ⟨hden, _⟩ := C12_linkage_is_dendrogram n (by omega) wt _ ht' (lexsortMst_sorted t)
  obtain ⟨_, _, _, hreal⟩ := C17_condensed_clusters_real n hn wt _ hden o.minClusterSize h0 hl lam
  set T := condenseTree (Hier.ofRows (mstToLinkage wt (lexsortMst t))) wt o.minClusterSize none lam with hT
  have hsizeT : ∀ row ∈ T, n ≤ row.child → ∀ A : Finset ℕ, (∀ x, x ∈ A ↔ x < n ∧ CDesc T row.child x) → row.size = A.sum wt := by
    intro row hrow hc A hA
    rw [((hreal row hrow).2 hc).2]
    congr 1
    ext x
    rw [hA, Finset.mem_filter, Finset.mem_range]
  unfold simplifyIf at hs
  by_cases hp : 0 < o.persistence ∧ 0 < T.length
  · rw [if_pos hp] at hs
    by_cases hk0 : 1 < k0
    · obtain ⟨ps, F, g, hx, hg, ho⟩ := simplify_unfold o.persistence hct0 hbin0 hmono0 hkind0 hfull0 hk0
      have hsim := Option.some.inj (ho.symm.trans hs)
      obtain ⟨out, k', e1, c1, _, _, _, _, _, e8, old, o1, o2, o3, o4, _⟩ :=
        C54_simplify_partial o.persistence n k0 T hct0 hbin0 hmono0 hkind0 hfull0 hk0
      obtain rfl : out = rows := Option.some.inj (e1.symm.trans hs)
      have hkk : k' = k := by
        have := congrArg List.length (c1.asc.symm.trans hct.asc)
        rw [List.length_range', List.length_range'] at this
        have := c1.pos
        have := hct.pos
        omega
      subst hkk
      have hsample : ∀ f c, n ≤ c → c < n + k0 → n + k0 - c < f → ∃ x, x < n ∧ CDesc T c x := by
        intro f
        induction f with
        | zero => intro c _ _ h; omega
        | succ f ih =>
          intro c hc hck hf
          obtain ⟨row, hr, hpar⟩ := hfull0 c hc hck
          by_cases hcn : row.child < n
          · exact ⟨row.child, hcn, .single ⟨row, hr, hpar, rfl⟩⟩
          · have hd := hct0.down row hr (by omega)
            have hrg := (hct0.children row.child).1 (List.mem_map_of_mem hr)
            obtain ⟨x, hx1, hx2⟩ := ih row.child (by omega) (by omega) (by omega)
            exact ⟨x, hx1, .head ⟨row, hr, hpar, rfl⟩ hx2⟩
      refine ⟨fun row hr hc => ?_, fun c hc hck => ?_, fun row hr hc A hA => ?_⟩
      · rw [← hsim] at hr
        obtain ⟨q, hq, _, rfl⟩ := mem_simpOut.1 hr
        simp only [newRow] at hc ⊢
        refine (hreal q hq).1 ?_
        by_contra hge
        rw [if_pos (by omega)] at hc
        unfold newId at hc
        omega
      · obtain ⟨q1, q2, q3⟩ := o2 c hc hck
        obtain ⟨x, hx1, hx2⟩ := hsample _ (old c) q1 q2 (Nat.lt_succ_self _)
        rcases Relation.ReflTransGen.cases_head ((q3 x hx1).2 hx2) with h3 | ⟨d, ⟨q, hq, h4, _⟩, _⟩
        · omega
        · exact ⟨q, hq, h4⟩
      · obtain ⟨q, hq, hqc, _, hqs⟩ := o4 row hr hc
        have hrg := (hct.children row.child).1 (List.mem_map_of_mem hr)
        obtain ⟨q1, _, q3⟩ := o2 row.child hc (by omega)
        rw [← hqs]
        refine hsizeT q hq (by omega) A fun x => ?_
        rw [hA, hqc]
        exact and_congr_right fun hxn => q3 x hxn
    · exfalso
      have hk1 : k0 = 1 := by have := hct0.pos; omega
      subst hk1
      have := C54_undefined o.persistence n T hct0 hkind0
      rw [hs] at this
      cases this
  · rw [if_neg hp, Option.some.injEq] at hs
    subst hs
    have hkk : k0 = k := by
      have := congrArg List.length (hct0.asc.symm.trans hct.asc)
      rw [List.length_range', List.length_range'] at this
      have := hct0.pos
      have := hct.pos
      omega
    subst hkk
    exact ⟨fun row hr hc => (hreal row hr).1 hc, hfull0, hsizeT⟩

end

end Verif
