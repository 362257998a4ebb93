import Verif.Props.KnnExact
import Mathlib.Algebra.Order.BigOperators.Group.List
import Mathlib.Data.Rat.Floor
import Mathlib.Tactic.Positivity

/-!
# C81: core distances with sample weights; C79 with sample weights
-/

namespace Verif
variable {R W S : Type*} [Field S] [LinearOrder S] [IsStrictOrderedRing S]

/-- The weight that the scan adds for an entry. -/
def entryWeight (n : ℕ) (sw : ℕ → S) (x : W × Option ℕ) : S := sw (x.2.getD (n - 1))

theorem weightScan_spec {n ms : ℕ} {sw : ℕ → S} (row : List (W × Option ℕ)) (total : S) (last : Option W) (hne : row ≠ []) (ht : total < (ms : S)) :
    ∃ p < row.length, weightScan n ms sw total last row = (row[p]?).map Prod.fst ∧ total + ((row.take p).map (entryWeight n sw)).sum < (ms : S) ∧
      ((ms : S) ≤ total + ((row.take (p + 1)).map (entryWeight n sw)).sum ∨
        p + 1 = row.length ∧ total + (row.map (entryWeight n sw)).sum < (ms : S)) := by
  induction row generalizing total last with
  | nil => exact absurd rfl hne
  | cons x l ih =>
    unfold weightScan
    rw [if_pos ht]
    by_cases h : total + entryWeight n sw x < (ms : S)
    · by_cases hl : l = []
      · subst hl
        exact ⟨0, by simp, rfl, by simpa using ht, Or.inr ⟨rfl, by simpa using h⟩⟩
      · obtain ⟨p, h1, h2, h3, h4⟩ := ih (total + entryWeight n sw x) (some x.1) hl h
        refine ⟨p + 1, by simpa using h1, h2, ?_, ?_⟩
        · rw [List.take_succ_cons, List.map_cons, List.sum_cons, ← add_assoc]; exact h3
        · rw [List.take_succ_cons, List.map_cons, List.sum_cons, List.map_cons, List.sum_cons, List.length_cons, ← add_assoc, ← add_assoc]
          rcases h4 with h4 | ⟨h4, h5⟩
          · exact .inl h4
          · exact .inr ⟨by omega, h5⟩
    · refine ⟨0, by simp, ?_, by simpa using ht, Or.inl ?_⟩
      · show weightScan n ms sw (total + entryWeight n sw x) (some x.1) l = some x.1
        cases l with
        | nil => rfl
        | cons y l => unfold weightScan; rw [if_neg h]
      · simpa using not_lt.1 h

variable [LinearOrder W] [OrderTop W]

/-- The weight of all samples that are at most `r` away. -/
def weightWithin (n : ℕ) (dist : ℕ → W) (sw : ℕ → S) (r : W) : S := (((List.range n).filter fun q => decide (dist q ≤ r)).map sw).sum

theorem sum_filter_le {α : Type*} (l : List α) (p : α → Bool) (f : α → S) (hf : ∀ x ∈ l, 0 ≤ f x) : ((l.filter p).map f).sum ≤ (l.map f).sum :=
  ((List.filter_sublist).map f).sum_le_sum fun y hy => by obtain ⟨x, hx, rfl⟩ := List.mem_map.1 hy; exact hf x hx

/-- The samples within `r`, counted in the row and in the rest. -/
theorem PadRow.weightWithin_eq {n k : ℕ} {dist : ℕ → W} {row : List (W × Option ℕ)} (sw : ℕ → S) (h : PadRow n k dist row) (r : W) :
    ∃ rest, (∀ x ∈ row, ∀ y ∈ rest, x.1 ≤ y.1) ∧ (row ++ rest).Perm (List.replicate k (⊤, none) ++ (List.range n).map fun q => (dist q, some q)) ∧
      weightWithin n dist sw r = ((row.filter fun x => x.2.isSome && decide (x.1 ≤ r)).map (entryWeight n sw)).sum +
        ((rest.filter fun x => x.2.isSome && decide (x.1 ≤ r)).map (entryWeight n sw)).sum := by
  obtain ⟨rest, h1, h2⟩ := h.small
  refine ⟨rest, h2, h1, ?_⟩
  have hs := ((h1.filter fun x => x.2.isSome && decide (x.1 ≤ r)).map (entryWeight n sw)).sum_eq
  rw [List.filter_append, List.map_append, List.sum_append, List.filter_append, List.map_append, List.sum_append] at hs
  rw [hs]
  have e1 : ((List.replicate k ((⊤ : W), (none : Option ℕ))).filter fun x => x.2.isSome && decide (x.1 ≤ r)) = [] := by
    rw [List.filter_eq_nil_iff]; intro x hx; rw [List.eq_of_mem_replicate hx]; simp
  rw [e1, List.filter_map, List.map_map]
  unfold weightWithin
  simp only [List.map_nil, List.sum_nil, zero_add]
  rfl

/-- Core distances with sample weights, from a row of neighbours. -/
theorem PadRow.weighted_core {n k ms : ℕ} {dist : ℕ → W} {row : List (W × Option ℕ)} {sw : ℕ → S} (h : PadRow n k dist row) (hk : 0 < k) (hms : 0 < ms) (hn : 0 < n)
    (hsw : ∀ q < n, 0 ≤ sw q) :
    ∃ c, sampleWeightCore n ms sw row = some c ∧ (∀ r < c, weightWithin n dist sw r < (ms : S)) ∧
      (c < ⊤ → (ms : S) ≤ weightWithin n dist sw c ∨ row.getLast?.map Prod.fst = some c ∧ (row.map (entryWeight n sw)).sum < (ms : S)) := by
  have hne : row ≠ [] := fun he => by have := h.length; rw [he] at this; simp at this; omega
  obtain ⟨p, hp, h1, h2, h3⟩ := weightScan_spec (n := n) (ms := ms) (sw := sw) row 0 (row.getLast?.map Prod.fst) hne (by exact_mod_cast hms)
  have hpos : ∀ x ∈ row, 0 ≤ entryWeight n sw x := by
    intro x hx
    unfold entryWeight
    rcases h.entry hx with h | ⟨q, hq, h⟩
    · rw [h]; exact hsw _ (by show n - 1 < n; omega)
    · rw [h]; exact hsw _ hq
  rw [List.getElem?_eq_getElem hp] at h1
  have hsort := List.pairwise_iff_getElem.1 h.sorted
  refine ⟨_, h1, fun r hr => ?_, fun hc => ?_⟩
  · obtain ⟨rest, hrest, _, hw⟩ := h.weightWithin_eq sw r
    have e1 : (rest.filter fun x => x.2.isSome && decide (x.1 ≤ r)) = [] := by
      rw [List.filter_eq_nil_iff]
      intro y hy hyr
      have := hrest _ (List.getElem_mem hp) y hy
      simp only [Bool.and_eq_true, decide_eq_true_eq] at hyr
      exact absurd (hr.trans_le this) (not_lt.2 hyr.2)
    have e2 : (row.filter fun x => x.2.isSome && decide (x.1 ≤ r)) = (row.take p).filter fun x => x.2.isSome && decide (x.1 ≤ r) := by
      conv_lhs => rw [← List.take_append_drop p row]
      rw [List.filter_append]
      have : ((row.drop p).filter fun x => x.2.isSome && decide (x.1 ≤ r)) = [] := by
        rw [List.filter_eq_nil_iff]
        intro y hy hyr
        simp only [Bool.and_eq_true, decide_eq_true_eq] at hyr
        obtain ⟨m, hm, rfl⟩ := List.mem_iff_getElem.1 hy
        rw [List.getElem_drop] at hyr
        rw [List.length_drop] at hm
        rcases Nat.eq_zero_or_pos m with rfl | hpos
        · exact absurd hr (not_lt.2 hyr.2)
        · exact absurd (hr.trans_le (hsort p (p + m) hp (by omega) (by omega))) (not_lt.2 hyr.2)
      rw [this, List.append_nil]
    rw [hw, e1, e2]
    have := sum_filter_le (row.take p) (fun x => x.2.isSome && decide (x.1 ≤ r)) (entryWeight n sw)
      fun x hx => hpos x (List.mem_of_mem_take hx)
    simp only [List.map_nil, List.sum_nil, add_zero, zero_add] at h2 ⊢
    exact this.trans_lt h2
  · rcases h3 with h3 | ⟨h3, h4⟩
    · left
      obtain ⟨rest, _, hperm, hw⟩ := h.weightWithin_eq sw row[p].1
      have hall : (row.take (p + 1)).filter (fun x => x.2.isSome && decide (x.1 ≤ row[p].1)) = row.take (p + 1) := by
        rw [List.filter_eq_self]
        intro y hy
        obtain ⟨m, hm, rfl⟩ := List.mem_iff_getElem.1 hy
        rw [List.length_take] at hm
        rw [List.getElem_take]
        have hle : (row[m]).1 ≤ (row[p]).1 := by
          rcases Nat.lt_or_ge m p with h | h
          · exact hsort m p (by omega) hp h
          · have : m = p := by omega
            subst this; exact le_rfl
        rcases h.entry (List.getElem_mem (n := m) (by omega : m < row.length)) with hm' | ⟨q, _, hm'⟩
        · rw [hm'] at hle; exact absurd hc (not_lt.2 hle)
        · simp only [Bool.and_eq_true, decide_eq_true_eq]
          exact ⟨by rw [hm']; rfl, hle⟩
      have hsub : ((row.take (p + 1)).map (entryWeight n sw)).sum ≤
          ((row.filter fun x => x.2.isSome && decide (x.1 ≤ row[p].1)).map (entryWeight n sw)).sum := by
        conv_lhs => rw [← hall]
        exact (((List.take_sublist _ _).filter _).map _).sum_le_sum fun y hy => by
          obtain ⟨x, hx, rfl⟩ := List.mem_map.1 hy
          exact hpos x (List.mem_filter.1 hx).1
      have hrest : 0 ≤ ((rest.filter fun x => x.2.isSome && decide (x.1 ≤ row[p].1)).map (entryWeight n sw)).sum := by
        refine List.sum_nonneg fun y hy => ?_
        obtain ⟨x, hx, rfl⟩ := List.mem_map.1 hy
        have hx' := (List.mem_filter.1 hx).1
        obtain h' | ⟨q, hq, h'⟩ : x = (⊤, none) ∨ ∃ q < n, x = (dist q, some q) := by
          have := hperm.subset (List.mem_append_right _ hx')
          rcases List.mem_append.1 this with h | h
          · exact .inl (List.eq_of_mem_replicate h)
          · obtain ⟨q, hq, rfl⟩ := List.mem_map.1 h
            exact .inr ⟨q, List.mem_range.1 hq, rfl⟩
        · rw [h']; exact hsw _ (by show n - 1 < n; omega)
        · rw [h']; exact hsw _ hq
      rw [hw]
      rw [zero_add] at h3
      exact (h3.trans hsub).trans (le_add_of_nonneg_right hrest)
    · right
      refine ⟨?_, by rwa [zero_add] at h4⟩
      rw [List.getLast?_eq_getElem?, ← h3, Nat.add_sub_cancel, List.getElem?_eq_getElem hp]
      rfl


variable [LinearOrder R]

theorem padRow_of_query_rt {ar : Arith R W} (ha : ar.Lawful) {rt : W → W} (hrt : Monotone rt) (htop : rt ⊤ = ⊤) (dims : ℕ) (pts : ℕ → ℕ → R)
    {t : KdTree R} {n nNodes : ℕ} (ht : t.Valid pts dims n nNodes) {k : ℕ} (hk : k ≤ 32768) (h0 : 0 < k) (pt : ℕ → R) :
    ∃ row, treeQuery ar rt dims pts t nNodes k pt = some row ∧ PadRow n k (fun q => rt (rdist ar dims pt (pts q))) row := by
  obtain ⟨out, e, h1, h2, h3⟩ := treeQuery_spec ha hrt dims pts ht hk h0 pt
  exact ⟨out, e, h1, h2, htop ▸ h3⟩

/-- **C81.** The core distance with sample weights, computed from the `k` nearest neighbours of a point, for weights that are not negative.  It should be the smallest distance within which the
samples weigh at least `min_samples`.  It is never larger: within any smaller distance they weigh less.  If every sample weighs at least `w0` and
`k * w0 ≥ min_samples`, it is that distance.  Missing: without the last assumption it can be too small, see `C81_too_small`. -/
theorem C81_core_distance_partial {ar : Arith R W} (ha : ar.Lawful) {rt : W → W} (hrt : Monotone rt) (htop : rt ⊤ = ⊤) (zero : R) (pts : ℕ → ℕ → R)
    (dims n leafSize : ℕ) (hl : 1 ≤ leafSize) (hn : 0 < n) (t : KdTree R) (ht : buildKdTree ar zero pts dims n leafSize = some t)
    (k ms : ℕ) (hk : k ≤ 32768) (h0 : 0 < k) (hms : 0 < ms) (sw : ℕ → S) (hsw : ∀ q < n, 0 ≤ sw q) (pt : ℕ → R) :
    let weight := weightWithin n (fun q => rt (rdist ar dims pt (pts q))) sw
    ∃ row c, treeQuery ar rt dims pts t (numNodes n leafSize) k pt = some row ∧ sampleWeightCore n ms sw row = some c ∧
      (∀ r < c, weight r < (ms : S)) ∧ ∀ w0, (∀ q < n, w0 ≤ sw q) → (ms : S) ≤ k * w0 → c < ⊤ → (ms : S) ≤ weight c := by
  intro weight
  obtain ⟨t', e, hv⟩ := buildKdTree_valid ar zero pts dims n leafSize hn hl
  rw [ht] at e; cases e
  obtain ⟨row, hr, hp⟩ := padRow_of_query_rt ha hrt htop dims pts hv hk h0 pt
  obtain ⟨c, h1, h2, h3⟩ := hp.weighted_core (sw := sw) h0 hms hn hsw
  refine ⟨row, c, hr, h1, h2, fun w0 hw hk0 hc => (h3 hc).resolve_right fun ⟨_, hlt⟩ => ?_⟩
  have : (row.map fun _ => w0).sum ≤ (row.map (entryWeight n sw)).sum := by
    refine List.sum_le_sum fun x hx => ?_
    unfold entryWeight
    rcases hp.entry hx with h | ⟨q, hq, h⟩
    · rw [h]; exact hw _ (by show n - 1 < n; omega)
    · rw [h]; exact hw _ hq
  rw [List.map_const', List.sum_replicate, hp.length, nsmul_eq_mul] at this
  exact absurd (hk0.trans this) (not_le.2 hlt)

/-- C79 with sample weights: the result is a spanning tree made of a minimum spanning forest of the graph of neighbours, with the core distances of C81. -/
theorem C79_knn_weights [FloorSemiring S] {ar : Arith R W} (ha : ar.Lawful) {rt : W → W} (hrt : Monotone rt) (htop : rt ⊤ = ⊤) (zero : R) (pts : ℕ → ℕ → R)
    (dims n leafSize ms knnK : ℕ) (hl : 1 ≤ leafSize) (hn : 0 < n) (hms : 0 < ms) (t : KdTree R)
    (ht : buildKdTree ar zero pts dims n leafSize = some t) (sw : ℕ → S) (hsw : ∀ q < n, 0 ≤ sw q)
    (hk : max knnK ⌊2 * ((ms : S) / (((List.range n).map sw).sum / n))⌋₊ < 32768) :
    ∃ (r : MstResult W) (rows : ℕ → List (W × Option ℕ)),
      kruskalMstKnnW ar rt dims pts t (numNodes n leafSize) n ms knnK sw CLParams.none = some r ∧
      (∀ i < n, (rows i).Pairwise (fun x y => x.1 ≤ y.1) ∧
        SmallestOf (rows i) (List.replicate (max knnK ⌊2 * ((ms : S) / (((List.range n).map sw).sum / n))⌋₊ + 1) (⊤, none) ++
          (List.range n).map fun q => (rt (rdist ar dims (pts i) (pts q)), some q)) ∧ r.neighbors i = ((rows i).map Prod.snd).drop 1 ∧
        ∀ d < r.core i, weightWithin n (fun q => rt (rdist ar dims (pts i) (pts q))) sw d < (ms : S)) ∧
      ∀ g : List (Edge W), (∀ e, e ∈ g ↔ KnnEdge n (fun i => ((rows i).drop 1).map fun p => (p.2, p.1)) r.core e) →
        BridgedForest n g r.edges ∧ ∀ τ < ⊤, ∀ a b, Conn (upTo τ r.edges) a b ↔ Conn (upTo τ g) a b := by
  obtain ⟨t', e, hv⟩ := buildKdTree_valid ar zero pts dims n leafSize hn hl
  rw [ht] at e; cases e
  have hw : weightedK n ms sw = ⌊2 * ((ms : S) / (((List.range n).map sw).sum / n))⌋₊ := rfl
  rw [← hw] at hk ⊢
  choose rows hq hp using fun i => padRow_of_query_rt ha hrt htop dims pts hv (k := max knnK (weightedK n ms sw) + 1) (by omega) (by omega) (pts i)
  choose c hc1 hc2 _ using fun i => (hp i).weighted_core (sw := sw) (ms := ms) (by omega) hms hn hsw
  obtain ⟨raw, hr, he⟩ := queryRows_eq (n := n) fun i _ => hq i
  have hm : (List.range n).mapM (fun i => sampleWeightCore n ms sw (raw i)) = some ((List.range n).map c) :=
    mapM_of_some fun i hi => by rw [he i (List.mem_range.1 hi)]; exact hc1 i
  have hcore : ∀ i < n, ((List.range n).map c).getD i ⊤ = c i := fun i hi => by
    rw [List.getD_eq_getElem?_getD, List.getElem?_map, List.getElem?_range hi]; rfl
  refine ⟨⟨_, _, _⟩, raw, by unfold kruskalMstKnnW; rw [hr, Option.bind_some, hm]; rfl, fun i hi => ⟨?_, ?_, ?_, ?_⟩, fun g hg => ?_⟩
  · rw [he i hi]; exact (hp i).sorted
  · rw [he i hi]; exact (hp i).small
  · dsimp only
    rw [← List.drop_one, List.map_drop]
  · dsimp only
    rw [hcore i hi]; exact hc2 i
  · dsimp only at hg ⊢
    have hkn : knnLists raw = fun i => ((raw i).drop 1).map fun p => (p.2, p.1) := by
      funext i; unfold knnLists; rw [List.drop_one]
    rw [hkn]
    refine C79_knn_kruskal n hn _ _ (fun i hi j d hd => ?_) g hg
    obtain ⟨x, hx, hxe⟩ := List.mem_map.1 hd
    rw [he i hi] at hx
    rcases (hp i).entry (List.mem_of_mem_drop hx) with h | ⟨q, hq, h⟩
    · rw [h] at hxe; cases hxe
    · rw [h] at hxe
      simp only [Prod.mk.injEq, Option.some.injEq] at hxe
      omega

/-- C81: `parallel_boruvka` asks for `int(2 * min_samples / mean)` neighbours.  If the mean sample weight exceeds `2 * min_samples` that is none, and there is
no core distance to read (the code reads outside its arrays). -/
theorem C81_no_neighbours [FloorSemiring S] {vis : List W → W → Prop} {ar : Arith R W} {rt : W → W} {dims : ℕ} {pts : ℕ → ℕ → R} {t : KdTree R} {nNodes n ms : ℕ}
    (hn : 0 < n) {sw : ℕ → S} (hbig : 2 * (ms : S) < ((List.range n).map sw).sum / n) (repro : Option ℕ) :
    ¬ ∃ edges core, TreeBoruvkaW vis ar rt dims pts t nNodes n ms sw repro edges core := by
  rintro ⟨edges, core, rows, c, h1, h2, _⟩
  have hk : weightedK n ms sw = 0 := by
    unfold weightedK
    have h0 : (0 : S) < ((List.range n).map sw).sum / n := lt_of_le_of_lt (by positivity) hbig
    rw [Nat.floor_eq_zero, ← mul_div_assoc, div_lt_one h0]
    exact hbig
  have h3 := h1 0 hn
  have h4 := h2 0 hn
  rw [hk] at h3
  have : rows 0 = [] := by
    unfold treeQuery at h3
    obtain ⟨x, _, hx⟩ := Option.map_eq_some_iff.1 h3
    rw [← hx]; rfl
  rw [this] at h4
  exact absurd h4 (by unfold sampleWeightCore weightScan; simp)

/-- Case: four samples of weight 5 and `min_samples=2`. -/
example : 2 * ((2 : ℕ) : ℚ) < ((List.range 4).map fun _ => (5 : ℚ)).sum / (4 : ℕ) := by decide +kernel

/-! ## Errors -/

/-- C79: what `kruskal_mst_from_feature_matrix` refuses: what constraint validation refuses, and then sample weights without `knn_k`.  Everything else is
passed on. -/
theorem C79_refused {V : Type*} [FloorSemiring S] [AddCommMonoid V] [DecidableEq V] [Zero W] (ar : Arith R W) (rt : W → W) (dims : ℕ) (pts : ℕ → ℕ → R) (t : KdTree R)
    (nNodes n ms : ℕ) (D : ℕ → ℕ → W) (knnK : Option ℕ) (sw : Option (ℕ → S)) (cannotLink : Option (SparseCL V)) (validate : Bool)
    (groups : Option (ℕ × (ℕ → ℤ))) :
    let out := kruskalFromFeatures ar rt dims pts t nNodes n ms D knnK sw cannotLink validate groups
    (∀ e, out = .error (.constraint e) ↔ resolveCL n cannotLink validate groups = .error e) ∧
    (out = .error .weightsNeedKnn ↔ (∃ cl, resolveCL n cannotLink validate groups = .ok cl) ∧ knnK = none ∧ sw ≠ none) := by
  intro out
  cases hr : resolveCL n cannotLink validate groups with
  | error e =>
    have ho : out = .error (.constraint e) := by
      show kruskalFromFeatures _ _ _ _ _ _ _ _ _ _ _ _ _ _ = _
      unfold kruskalFromFeatures; rw [hr]
    rw [ho]
    exact ⟨fun e' => by simp, by simp⟩
  | ok cl =>
    have ho : out = match knnK, sw with
      | none, some _ => .error .weightsNeedKnn
      | none, none => .ok (some ⟨kruskalBrute n ms D cl, fun _ => [], bruteCore n ms D⟩)
      | some k, none => .ok (kruskalMstKnn ar rt dims pts t nNodes n ms k cl)
      | some k, some sw => .ok (kruskalMstKnnW ar rt dims pts t nNodes n ms k sw cl) := by
      show kruskalFromFeatures _ _ _ _ _ _ _ _ _ _ _ _ _ _ = _
      unfold kruskalFromFeatures; rw [hr]; cases knnK <;> cases sw <;> rfl
    rw [ho]
    cases knnK <;> cases sw <;> simp

/-! ## Cases -/

/-- The run with sample weights on points on a line. -/
def knnLineRunW (l : List ℤ) (w : List ℚ) (ms knnK : ℕ) : Option (MstResult (WithTop ℤ)) :=
  (buildKdTree (roundedArith (id : ℤ → ℤ)) 0 (knnLine l) 1 l.length 40).bind fun t =>
    kruskalMstKnnW (roundedArith (id : ℤ → ℤ)) id 1 (knnLine l) t (numNodes l.length 40) l.length ms knnK (fun i => w.getD i 0) CLParams.none

/-- C81 cannot be kept in full: five samples, one of them heavy and far away, `min_samples=4`.  The mean weight is 4, so two neighbours are asked for, or
`knn_k`.  With `knn_k=1` sample 0 gets core distance 4 (squared), though the samples within it weigh only 3; with `knn_k=3` it gets 9, within which
the weight is 4. -/
theorem C81_too_small :
    (knnLineRunW [0, 1, 2, 3, 100] [1, 1, 1, 1, 16] 4 1).map (fun r => r.core 0) = some (4 : ℤ) ∧
    weightWithin 5 (fun q => rdist (roundedArith (id : ℤ → ℤ)) 1 (knnLine [0, 1, 2, 3, 100] 0) (knnLine [0, 1, 2, 3, 100] q))
      (fun i => [1, 1, 1, 1, (16 : ℚ)].getD i 0) (4 : ℤ) = 3 ∧
    (knnLineRunW [0, 1, 2, 3, 100] [1, 1, 1, 1, 16] 4 3).map (fun r => r.core 0) = some (9 : ℤ) ∧
    weightWithin 5 (fun q => rdist (roundedArith (id : ℤ → ℤ)) 1 (knnLine [0, 1, 2, 3, 100] 0) (knnLine [0, 1, 2, 3, 100] q))
      (fun i => [1, 1, 1, 1, (16 : ℚ)].getD i 0) (9 : ℤ) = 4 := by decide +kernel

/-- Case for C79 and C81: two clumps with fractional weights of at least 2; with `min_samples=5` and mean weight 3, four neighbours are asked for. -/
example : (knnLineRunW [0, 1, 3, 50, 52, 55] [2, 9 / 2, 2, 3, 5 / 2, 4] 5 1).map (fun r => r.edges.map fun e => (e.u, e.v, e.w)) =
    some [(0, 1, 1), (1, 2, 4), (3, 4, 4), (4, 5, 9), (2, 3, 2209)] ∧ ⌊2 * ((5 : ℚ) / ([2, 9 / 2, 2, 3, 5 / 2, 4].sum / 6))⌋₊ = 3 ∧ 5 ≤ 4 * 2 := by decide +kernel

end Verif
