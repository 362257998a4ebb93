import Verif.Props.RawFit
import Verif.Props.PersistRaiseCases
import Verif.Props.PlscanRows

/-!
# C118: how many clusters there can be
-/

namespace Verif
variable {W K α β : Type*}

section
variable [Field K] [LinearOrder K] [IsStrictOrderedRing K]

/-- Labels that mark at least `θ` each. -/
theorem labels_number {n : ℕ} {wt : ℕ → K} (h0 : ∀ x, x < n → 0 ≤ wt x) {labels : List ℤ} {θ : K} (L : Finset ℤ)
    (h : ∀ l ∈ L, θ ≤ ∑ x ∈ (Finset.range n).filter fun x => labels[x]? = some l, wt x) : (L.card : K) * θ ≤ ∑ x ∈ Finset.range n, wt x := by
  classical
  calc (L.card : K) * θ = ∑ _l ∈ L, θ := by rw [Finset.sum_const, nsmul_eq_mul]
    _ ≤ ∑ l ∈ L, ∑ x ∈ (Finset.range n).filter fun x => labels[x]? = some l, wt x := Finset.sum_le_sum h
    _ = ∑ x ∈ L.biUnion fun l => (Finset.range n).filter fun x => labels[x]? = some l, wt x := by
      refine (Finset.sum_biUnion fun l _ l' _ hne => Finset.disjoint_left.2 fun x hx hx' => hne ?_).symm
      exact Option.some.inj ((Finset.mem_filter.1 hx).2.symm.trans (Finset.mem_filter.1 hx').2)
    _ ≤ ∑ x ∈ Finset.range n, wt x := by
      refine Finset.sum_le_sum_of_subset_of_nonneg (fun x hx => ?_) fun x hx _ => h0 x (Finset.mem_range.1 hx)
      obtain ⟨l, -, hl⟩ := Finset.mem_biUnion.1 hx
      exact (Finset.mem_filter.1 hl).1

variable [LinearOrder W] [OrderTop W] [Inhabited W] [Inhabited K]

/-- **C118** (partial): the number of clusters times `min_cluster_size` is at most the weight of the data, for every selection method, epsilon, size limit and with
infinite edges.  Missing: positive persistence, see `C118_number_persistence_partial`. -/
theorem C118_number_partial (n : ℕ) (hn : 2 ≤ n) (wt : ℕ → K) (t : List (Edge W)) (ht : SpanningTree n t)
    (o : ClusterOpts K) (h1 : 1 < o.minClusterSize) (h0 : ∀ x, x < n → 0 ≤ wt x)
    (hl : ∀ x, x < n → wt x < o.minClusterSize) (lam : W → K) (hlam : Antitone lam) (hpos : ∀ d, 0 ≤ lam d) (hper : o.persistence ≤ 0)
    {r : ClusterResult W K} (hr : clustersFromMst lam wt o t = some r) :
    ((r.labels.toFinset.filter fun l => l ≠ -1).card : K) * o.minClusterSize ≤ ∑ x ∈ Finset.range n, wt x :=
  labels_number h0 (labels := r.labels) _ fun l hm => by
    obtain ⟨h2, h3⟩ := Finset.mem_filter.1 hm
    exact C75_used_labels_partial n hn wt t ht o h1 h0 hl lam hlam hpos hper hr l h3 (List.mem_toFinset.1 h2)

/-- **C118** (partial), with persistence, if there are no infinite edges and at least two clusters. -/
theorem C118_number_persistence_partial (n : ℕ) (hn : 2 ≤ n) (wt : ℕ → K) (t : List (Edge W)) (ht : SpanningTree n t)
    (o : ClusterOpts K) (h1 : 1 < o.minClusterSize) (h0 : ∀ x, x < n → 0 ≤ wt x)
    (hl : ∀ x, x < n → wt x < o.minClusterSize) (lam : W → K) (hlam : Antitone lam) (hpos : ∀ d, 0 ≤ lam d) (hfin : ∀ e ∈ t, lam e.w ≠ 0)
    {r : ClusterResult W K} (hr : clustersFromMst lam wt o t = some r) (htop : n ∉ r.selected) :
    ((r.labels.toFinset.filter fun l => l ≠ -1).card : K) * o.minClusterSize ≤ ∑ x ∈ Finset.range n, wt x := by
  obtain ⟨-, w2, w3⟩ := C75_cluster_weight_partial n hn wt t ht o h1 h0 hl lam hlam hpos hfin hr htop
  refine labels_number h0 (labels := r.labels) _ fun l hm => ?_
  obtain ⟨h2, h3⟩ := Finset.mem_filter.1 hm
  have := w2 l (List.mem_toFinset.1 h2)
  exact (w3 l (by omega) this.2).2

end

/-- **C118** for `fit` without sample weights: with `n` rows without missing values there are at most `n / min_cluster_size` clusters. -/
theorem sound_number [LinearOrder W] [OrderTop W] [Zero W] [Zero K] [One K] [LE K] {finite : α → Bool} {dist : α → α → W} {ms mcs : ℕ} {X : List α} {labels : List ℤ}
    {strengths : List K} (h : SoundClustering finite dist ms mcs X labels strengths) :
    (labels.toFinset.filter fun l => l ≠ -1).card * mcs ≤ (X.filter finite).length := by
  classical
  have hcount : ∀ l ∈ labels.toFinset.filter fun l => l ≠ -1, mcs ≤ labels.count l := fun l hl => by
    obtain ⟨h1, h2⟩ := Finset.mem_filter.1 hl
    exact (h.size l (List.mem_toFinset.1 h1) h2).2
  calc (labels.toFinset.filter fun l => l ≠ -1).card * mcs = ∑ _l ∈ labels.toFinset.filter fun l => l ≠ -1, mcs := by rw [Finset.sum_const, smul_eq_mul]
    _ ≤ ∑ l ∈ labels.toFinset.filter fun l => l ≠ -1, labels.count l := Finset.sum_le_sum hcount
    _ = (labels.filter fun l => decide (l ≠ -1)).length := by
      rw [← List.sum_toFinset_count_eq_length]
      rw [List.toFinset_filter]
      simp only [decide_eq_true_eq]
      refine Finset.sum_congr rfl fun l hl => ?_
      rw [List.count_filter]
      exact decide_eq_true (Finset.mem_filter.1 hl).2
    _ ≤ (X.filter finite).length := by
      rw [← List.countP_eq_length_filter, ← List.countP_eq_length_filter]
      have hlen := h.length.1
      have : ∀ (ls : List ℤ) (Y : List α), ls.length = Y.length → (∀ (i : ℕ) y, Y[i]? = some y → finite y = false → ls[i]? = some (-1)) →
          ls.countP (fun l => decide (l ≠ -1)) ≤ Y.countP finite := by
        intro ls
        induction ls with
        | nil => intro Y _ _; simp
        | cons l ls ih =>
          intro Y hY hm
          cases Y with
          | nil => simp at hY
          | cons y Y =>
            have h1 := ih Y (by simpa using hY) fun i y' hi hf => by simpa using hm (i + 1) y' (by simpa using hi) hf
            rw [List.countP_cons, List.countP_cons]
            cases hy : finite y
            · have := hm 0 y rfl hy
              simp only [List.getElem?_cons_zero, Option.some.injEq] at this
              simp only [this, ne_eq, not_true_eq_false, decide_false, Bool.false_eq_true, if_false, add_zero]
              exact h1
            · simp only [if_true]
              split <;> omega
      exact this labels X hlen fun i y hi hf => (h.missing i y hi hf).1

section
variable [Field K] [LinearOrder K] [IsStrictOrderedRing K] [LinearOrder W] [OrderTop W] [Inhabited W] [Inhabited K]

/-- **C118** (partial) for `fit` with the exact Kruskal routine, rows with missing values not counted.
Missing: the other options, see `C118_number_partial`. -/
theorem C118_fit_partial [Zero W] (lam : W → K) (hlam : Antitone lam) (hpos : ∀ d, 0 ≤ lam d) (hzero : ∀ d, lam d = 0 ↔ d = ⊤)
    (finite : α → Bool) (dist : α → α → W) (hsym : ∀ x y, dist x y = dist y x) (ms mcs : ℕ) (hmcs : 2 ≤ mcs) (X : List α)
    (h2 : 2 ≤ (X.filter finite).length)
    (outliers : List ℕ) (hout : outliers.Perm ((List.range X.length).filter fun i => !(X[i]?.map finite).getD false))
    (o : ClusterOpts K) (ho : o.minClusterSize = mcs) (hsingle : o.allowSingle = false) (hmx : o.maxClusterSize = none) (heps : o.epsilon ≤ 0)
    (hper : o.persistence ≤ 0) :
    ∃ r, fitModel finite (fastHdbscan lam (kruskalRows dist ms) (fun _ => 1) o) outliers X (X.map fun _ => ()) = .ok r ∧
      (r.labels.toFinset.filter fun l => l ≠ -1).card * mcs ≤ (X.filter finite).length := by
  obtain ⟨r, hr, hs⟩ := C97_fit_kruskal_partial lam hlam hpos hzero finite dist hsym ms mcs hmcs X h2 outliers hout o ho hsingle hmx heps hper
  exact ⟨r, hr, sound_number hs⟩

end

section
variable [Field K] [LinearOrder K] [IsStrictOrderedRing K] [Inhabited K]

/-- **C118** (partial) for PLSCAN with the exact Kruskal routine: every layer has at most `n / base_min_cluster_size` clusters, or a single one.
Missing: infinite distances, `base_n_clusters`. -/
theorem C118_plscan_partial {dist : α → α → WithTop K} (hsym : ∀ x y, dist x y = dist y x) (ms : ℕ) (X : List α) (h2 : 2 ≤ X.length)
    (hfin : ∀ x ∈ X, ∀ y ∈ X, rowReach dist X ms x y ≠ ⊤) (core : List (WithTop K))
    (sortE : List (Edge (WithTop K)) → List (Edge (WithTop K))) (hsortE : ∀ l, (sortE l).Perm l ∧ (sortE l).Pairwise fun a b => a.w ≤ b.w)
    (lamSearch lam : WithTop K → K) (hpos : ∀ d, 0 ≤ lam d) (hlam : ∀ d, d ≠ ⊤ → lam d ≠ 0)
    (expInv : K → K) (hexp : ∀ x, 0 < x → expInv x ≤ 1) (order : (ℕ → K) → List ℕ → List ℕ)
    (horder : ∀ x l, (order x l).Perm l ∧ (order x l).Pairwise fun a b => x b ≤ x a) (sortLayers : List (Layer K) → List (Layer K))
    (hsort : ∀ l, (sortLayers l).Perm l ∧ (sortLayers l).Pairwise fun a b => maxLabel b.labels ≤ maxLabel a.labels) (thr : ℚ) (maxLayers : ℕ)
    (hmax : 1 ≤ maxLayers) (m : ℕ) (hm : 2 ≤ m) :
    ∃ r : PlscanFit K, plscanFit expInv order sortLayers sortE lamSearch lam thr maxLayers m none X.length core (kruskalRows dist ms X (X.map fun _ => ())) = some r ∧
      ∀ layer ∈ r.layers, (layer.labels.toFinset.filter fun l => l ≠ -1).card * m ≤ X.length ∨ (layer.labels.toFinset.filter fun l => l ≠ -1).card ≤ 1 := by
  obtain ⟨r, hr, -, -, base, rest, hp, h1, h3⟩ := C105_kruskal_partial hsym ms X h2 hfin core sortE hsortE lamSearch lam hpos hlam expInv hexp order horder sortLayers
    hsort thr maxLayers hmax m hm
  refine ⟨r, hr, fun layer hmem => ?_⟩
  have key : ∀ {k : ℕ} {labels : List ℤ} {str : List K}, m ≤ k → SoundGroups (fun _ => true) (rowReach dist X ms) (fun _ => (1 : K)) (k : K) X labels str →
      (labels.toFinset.filter fun l => l ≠ -1).card * m ≤ X.length := by
    intro k labels str hk hs
    have := labels_number (n := X.length) (wt := fun _ => (1 : K)) (fun _ _ => zero_le_one) (labels := labels) (θ := (k : K)) (labels.toFinset.filter fun l => l ≠ -1)
      fun l hl => (hs.size l (List.mem_toFinset.1 (Finset.mem_filter.1 hl).1) (Finset.mem_filter.1 hl).2).2
    rw [Finset.sum_const, Finset.card_range, nsmul_eq_mul, mul_one] at this
    exact (Nat.mul_le_mul_left _ hk).trans (by exact_mod_cast this)
  rcases List.mem_cons.1 (hp.mem_iff.1 hmem) with rfl | hmem
  · rcases h3 with h3 | ⟨-, -, h3⟩
    · exact .inl (key le_rfl h3)
    · refine .inr (Finset.card_le_one.2 fun a ha b hb => ?_)
      have e : ∀ a ∈ layer.labels.toFinset.filter fun l => l ≠ -1, a = 0 := fun a ha =>
        (h3 a (List.mem_toFinset.1 (Finset.mem_filter.1 ha).1)).resolve_left (Finset.mem_filter.1 ha).2
      rw [e a ha, e b hb]
  · exact .inl (key (Nat.le_succ m) (h1 layer hmem))

end

/-! ## Cases -/

/-- Three clusters of `min_cluster_size=2` in six samples: the bound is attained. -/
example : ∃ r, clustersFromMst lamq (fun _ => 1) (exOpts .leaf 0) exThreePairs = some r ∧ (r.labels.toFinset.filter fun l => l ≠ -1).card = 3 ∧
    ((r.labels.toFinset.filter fun l => l ≠ -1).card : ℚ) * 2 ≤ ∑ _x ∈ Finset.range 6, 1 := by
  obtain ⟨r, hr, e⟩ := Option.map_eq_some_iff.1 exThreePairs_labels.1
  exact ⟨r, hr, by rw [e]; decide, C118_number_partial 6 (by decide) (fun _ => 1) exThreePairs exThreePairs_tree (exOpts .leaf 0) (by decide +kernel) (fun _ _ => by norm_num)
    (fun _ _ => by decide +kernel) lamq lamq_antitone lamq_nonneg (by decide +kernel) hr⟩

example (m : Method) : ∃ r, fitModel Option.isSome (fastHdbscan lamq (kruskalRows rowLine 1) (fun _ => 1) (exOpts m 0)) [1, 4] exFitData (exFitData.map fun _ => ()) = .ok r ∧
    (r.labels.toFinset.filter fun l => l ≠ -1).card * 2 ≤ 4 :=
  C118_fit_partial lamq lamq_antitone lamq_nonneg lamq_zero Option.isSome rowLine rowLine_comm 1 2 le_rfl exFitData (by decide) [1, 4]
    (by decide +kernel) (exOpts m 0) rfl rfl rfl le_rfl le_rfl

example : ∃ r : PlscanFit ℚ, plscanFit exExpInv exOrder exSortLayers plSort plLam plLam (1 / 2) 10 2 none 11 [1, 1]
    (kruskalRows rowLine 1 exPlRows (exPlRows.map fun _ => ())) = some r ∧
    ∀ layer ∈ r.layers, (layer.labels.toFinset.filter fun l => l ≠ -1).card * 2 ≤ 11 ∨ (layer.labels.toFinset.filter fun l => l ≠ -1).card ≤ 1 :=
  C118_plscan_partial rowLine_comm 1 exPlRows (by decide) (by decide +kernel) [1, 1] plSort plSort_sorts plLam plLam plLam_nonneg
    plLam_ne_zero exExpInv (fun x hx => by unfold exExpInv; rw [div_le_one (by linarith)]; linarith) exOrder exOrder_sorts exSortLayers exSortLayers_sorts
    (1 / 2) 10 (by decide) 2 (by decide)

end Verif
