import Verif.Lemmas.SubLabels

/-!
# Properties of sub-cluster and branch labels: C46, C47, C48, C49, C50
-/

namespace Verif
variable {W V P : Type*}

theorem mem_clusterIds {num : ℕ} {x : ℤ} : x ∈ (List.range num).map (fun c : ℕ => (c : ℤ)) ↔ 0 ≤ x ∧ x < num := by
  rw [List.mem_map]
  constructor
  · rintro ⟨k, hk, rfl⟩
    rw [List.mem_range] at hk
    omega
  · rintro ⟨h1, h2⟩
    exact ⟨x.toNat, List.mem_range.2 (by omega), by omega⟩

theorem nodup_clusterIds (num : ℕ) : ((List.range num).map (fun c : ℕ => (c : ℤ))).Nodup :=
  List.nodup_range.map fun a b hab => by exact_mod_cast hab

theorem clusterPoints_ne {n num : ℕ} {lab : ℕ → ℤ} (hne : ∀ c : ℕ, c < num → ∃ i < n, lab i = c) :
    ∀ c ∈ (List.range num).map (fun c : ℕ => (c : ℤ)), clusterPoints n lab c ≠ [] := by
  intro c hc
  obtain ⟨k, hk, rfl⟩ := List.mem_map.1 hc
  obtain ⟨i, hi, hl⟩ := hne k (List.mem_range.1 hk)
  exact List.ne_nil_of_mem (mem_clusterPoints.2 ⟨hi, hl⟩)

/-- **C46**, for clusters with samples whose cluster-local labels have no gaps.  `lab` is the cluster of each sample, `loc` its
cluster-local label.  Samples outside all clusters keep `-1` and their strength; all other labels are at least 0, and they agree exactly for
samples of the same cluster with the same cluster-local label. -/
theorem C46_refines_partial (half : P → P → P) (zero : P) (clusterProbs : ℕ → P) (n num : ℕ) (lab loc : ℕ → ℤ) (prob : ℕ → P)
    (hne : ∀ c : ℕ, c < num → ∃ i < n, lab i = c)
    (hd : ∀ c : ℕ, c < num → DenseLabels ((clusterPoints n lab c).map loc)) :
    ∃ s, updateLabels half zero clusterProbs ((List.range num).map fun c : ℕ => (clusterPoints n lab c).map fun i => (i, loc i, prob i)) = some s ∧
      (∀ i, ¬ (i < n ∧ 0 ≤ lab i ∧ lab i < num) → s.labels i = -1 ∧ s.probs i = clusterProbs i ∧ s.subLabels i = 0 ∧ s.subProbs i = zero) ∧
      (∀ i < n, 0 ≤ lab i → lab i < num →
        0 ≤ s.labels i ∧ s.subLabels i = loc i ∧ s.subProbs i = prob i ∧ s.probs i = half (clusterProbs i) (prob i)) ∧
      ∀ i < n, ∀ j < n, 0 ≤ lab i → lab i < num → 0 ≤ lab j → lab j < num → (s.labels i = s.labels j ↔ lab i = lab j ∧ loc i = loc j) := by
  set cs := (List.range num).map (fun c : ℕ => (c : ℤ)) with hcs
  obtain ⟨s, e1, e2, e3⟩ := updateLoop_spec (half := half) (loc := loc) (prob := prob) cs (nodup_clusterIds num) (clusterPoints_ne hne)
    ⟨fun _ => -1, clusterProbs, fun _ => 0, fun _ => zero, 0⟩
  have hspec := offsetLoop_spec (n := n) (lab := lab) (val := fun c p => loc p + noiseFlag n lab loc c) (w := labelCount n lab loc) cs
    (nodup_clusterIds num) (fun c hc => by
      obtain ⟨k, hk, rfl⟩ := List.mem_map.1 hc
      exact locals_bound (hd k (List.mem_range.1 hk))) (fun _ => -1, 0)
  rw [← e2] at hspec
  obtain ⟨_, h2, h3, h4⟩ := hspec
  refine ⟨s, ?_, fun i hi => ?_, fun i hi h0 h1 => ?_, fun i hi j hj i0 i1 j0 j1 => ?_⟩
  · unfold updateLabels
    rw [← e1, hcs, List.map_map]
    rfl
  · have hni : ¬ (i < n ∧ lab i ∈ cs) := fun h => hi ⟨h.1, mem_clusterIds.1 h.2⟩
    obtain ⟨g1, g2, g3⟩ := (e3 i).2 hni
    exact ⟨h2 i hni, g3, g1, g2⟩
  · have hm : lab i ∈ cs := mem_clusterIds.2 ⟨h0, h1⟩
    obtain ⟨g1, g2, g3⟩ := (e3 i).1 ⟨hi, hm⟩
    exact ⟨(h3 i hi hm).1, g1, g2, g3⟩
  · rw [h4 i hi j hj (mem_clusterIds.2 ⟨i0, i1⟩) (mem_clusterIds.2 ⟨j0, j1⟩)]
    constructor
    · rintro ⟨a, b⟩
      rw [a] at b
      exact ⟨a, by simpa using b⟩
    · rintro ⟨a, b⟩
      exact ⟨a, by rw [a, b]⟩

/-- The hypotheses hold for seven samples in two clusters, one of them with noise, and one sample outside. -/
example : let lab : ℕ → ℤ := fun i => [0, 1, 0, -1, 1, 1, 0].getD i (-1)
    let loc : ℕ → ℤ := fun i => [-1, 1, 0, 0, 0, 1, 1].getD i 0
    (∀ c : ℕ, c < 2 → ∃ i < 7, lab i = c) ∧ ∀ c : ℕ, c < 2 → DenseLabels ((clusterPoints 7 lab c).map loc) := by
  refine ⟨by decide, fun c hc => ?_⟩
  have : c = 0 ∨ c = 1 := by omega
  rcases this with rfl | rfl
  · have e : ((clusterPoints 7 (fun i => [0, 1, 0, -1, 1, 1, 0].getD i (-1)) ((0 : ℕ) : ℤ)).map fun i => ([-1, 1, 0, 0, 0, 1, 1] : List ℤ).getD i 0) = [-1, 0, 1] := by
      decide
    rw [e]
    refine ⟨by decide, fun x hx y h0 hy => ?_⟩
    have : x ≤ 1 := by clear hy; revert x; decide
    have : y = 0 := by omega
    subst this; decide
  · have e : ((clusterPoints 7 (fun i => [0, 1, 0, -1, 1, 1, 0].getD i (-1)) ((1 : ℕ) : ℤ)).map fun i => ([-1, 1, 0, 0, 0, 1, 1] : List ℤ).getD i 0) = [1, 0, 1] := by
      decide
    rw [e]
    refine ⟨by decide, fun x hx y h0 hy => ?_⟩
    have : x ≤ 1 := by clear hy; revert x; decide
    have : y = 0 := by omega
    subst this; decide

/-- **C46 fails with a gap in the cluster-local labels**: the labels `0, 2` of the first cluster and `0` of the second give samples 1 and 2,
which are of different clusters, the same label. -/
theorem C46_gap_collides :
    (updateLabels (fun a _ => a) 0 (fun _ => (0 : ℕ)) [[(0, 0, 0), (1, 2, 0)], [(2, 0, 0), (3, 0, 0)]]).map (fun s => (List.range 4).map s.labels) =
      some [0, 2, 2, 2] := by decide +kernel

/-- **C46 raises for a cluster id without samples**, as in labels `0, 2` given by the user. -/
theorem C46_empty_cluster (half : P → P → P) (zero : P) (clusterProbs : ℕ → P) (parts parts' : List (SubPart P)) :
    updateLabels half zero clusterProbs (parts ++ [] :: parts') = none := by
  unfold updateLabels
  generalize (⟨fun _ => -1, clusterProbs, fun _ => 0, fun _ => zero, 0⟩ : SubArrays P) = s
  induction parts generalizing s with
  | nil => rfl
  | cons part parts ih =>
    rw [List.cons_append]
    unfold updateLoop
    cases updateStep half s part with
    | none => rfl
    | some s' => exact ih s'

/-! ## Propagation -/

/-- **C47**, when every weight has an inverse.  In a connected graph on the samples of a cluster, with at least one labelled sample,
propagation ends after at most one sweep for each sample, keeps every given label, and gives every sample one of the given labels. -/
theorem C47_propagation_partial [LinearOrder V] [Add V] (inv : W → Option V) (zero : V) (es : List (Edge W)) (loc : List ℤ)
    (hinv : ∀ e ∈ es, ∃ v, inv e.w = some v) (hr : ∀ e ∈ es, e.u < loc.length ∧ e.v < loc.length)
    (hconn : ∀ a < loc.length, ∀ b < loc.length, Conn es a b) (hex : ∃ x ∈ loc, x ≠ -1) :
    ∃ res : List ℤ, (∀ fuel, loc.length < fuel → propagateList inv zero es fuel loc = some res) ∧ res.length = loc.length ∧
      (∀ x ∈ res, x ≠ -1 ∧ x ∈ loc) ∧ ∀ i (h : i < loc.length), loc[i] ≠ -1 → res[i]? = some loc[i] := by
  obtain ⟨f, h1, h2, h3⟩ := propagateList_spec zero hinv hr hconn hex
  refine ⟨(List.range loc.length).map f, h1, by simp, fun x hx => ?_, fun i hi hne => ?_⟩
  · obtain ⟨i, hi, rfl⟩ := List.mem_map.1 hx
    exact h2 i (List.mem_range.1 hi)
  · rw [List.getElem?_map, List.getElem?_range hi, Option.map_some, h3 i hi hne]

/-- Weights of the following examples: natural numbers, with `12 / w` for the inverse. -/
def invNat (w : ℕ) : Option ℕ := if w = 0 then none else some (12 / w)

/-- A chain of four samples; the hypotheses of C47 hold, and the result is as expected. -/
example : (∀ e ∈ ([⟨0, 1, 3⟩, ⟨1, 2, 1⟩, ⟨3, 2, 2⟩] : List (Edge ℕ)), ∃ v, invNat e.w = some v) ∧
    (∀ e ∈ ([⟨0, 1, 3⟩, ⟨1, 2, 1⟩, ⟨3, 2, 2⟩] : List (Edge ℕ)), e.u < 4 ∧ e.v < 4) ∧
    (∀ a < 4, ∀ b < 4, Conn ([⟨0, 1, 3⟩, ⟨1, 2, 1⟩, ⟨3, 2, 2⟩] : List (Edge ℕ)) a b) ∧
    propagateList invNat 0 [⟨0, 1, 3⟩, ⟨1, 2, 1⟩, ⟨3, 2, 2⟩] 5 [0, -1, -1, 1] = some [0, 0, 0, 1] := by
  refine ⟨fun e he => ?_, by decide, ?_, by decide⟩
  · simp only [List.mem_cons, List.not_mem_nil, or_false] at he
    rcases he with rfl | rfl | rfl <;> exact ⟨_, rfl⟩
  · have key : ∀ a < 4, Conn ([⟨0, 1, 3⟩, ⟨1, 2, 1⟩, ⟨3, 2, 2⟩] : List (Edge ℕ)) 0 a := by
      have h1 : Conn ([⟨0, 1, 3⟩, ⟨1, 2, 1⟩, ⟨3, 2, 2⟩] : List (Edge ℕ)) 0 1 := Conn.edge (e := ⟨0, 1, 3⟩) (by simp)
      have h2 : Conn ([⟨0, 1, 3⟩, ⟨1, 2, 1⟩, ⟨3, 2, 2⟩] : List (Edge ℕ)) 1 2 := Conn.edge (e := ⟨1, 2, 1⟩) (by simp)
      have h3 : Conn ([⟨0, 1, 3⟩, ⟨1, 2, 1⟩, ⟨3, 2, 2⟩] : List (Edge ℕ)) 3 2 := Conn.edge (e := ⟨3, 2, 2⟩) (by simp)
      intro a ha
      have : a = 0 ∨ a = 1 ∨ a = 2 ∨ a = 3 := by omega
      rcases this with rfl | rfl | rfl | rfl
      · exact Conn.refl ..
      · exact h1
      · exact h1.trans h2
      · exact (h1.trans h2).trans h3.symm
    exact fun a ha b hb => (key a ha).symm.trans (key b hb)

/-- **C47 fails for an edge of weight 0** (two samples with lens value 0) next to a noise sample: the division by the weight raises an error. -/
theorem C47_zero_weight : propagateList invNat 0 [⟨0, 1, 0⟩] 5 [0, -1] = none ∧ (∀ a < 2, ∀ b < 2, Conn ([⟨0, 1, 0⟩] : List (Edge ℕ)) a b) := by
  refine ⟨by decide, ?_⟩
  have h : Conn ([⟨0, 1, 0⟩] : List (Edge ℕ)) 0 1 := Conn.edge (e := ⟨0, 1, 0⟩) (by simp)
  intro a ha b hb
  have h1 : a = 0 ∨ a = 1 := by omega
  have h2 : b = 0 ∨ b = 1 := by omega
  rcases h1 with rfl | rfl <;> rcases h2 with rfl | rfl
  · exact Conn.refl ..
  · exact h
  · exact h.symm
  · exact Conn.refl ..

/-- **C47, what a sweep does with one noise sample**: it gets the label with the largest total weight among its labelled neighbours, and
nothing changes without labelled neighbours. -/
theorem C47_majority [LinearOrder V] [Add V] (zero : V) (U : ℕ → List (ℕ × V)) (lab : ℕ → ℤ) (i : ℕ) :
    ((∀ p ∈ U i, lab p.1 = -1) ∧ voteStep zero U lab i = lab) ∨
      ∃ l, l ≠ -1 ∧ (∃ p ∈ U i, lab p.1 = l) ∧ voteStep zero U lab i = Function.update lab i l ∧
        ∀ p ∈ U i, lab p.1 ≠ -1 →
          (((U i).filter fun q => lab q.1 = lab p.1).map Prod.snd).foldl (· + ·) zero ≤
            (((U i).filter fun q => lab q.1 = l).map Prod.snd).foldl (· + ·) zero := voteStep_spec zero U lab i

/-- **C48**, when every cluster has a labelled sample.  `lab` is the cluster of each sample, `sub` its cluster-local label, `graph c` the
graph of cluster `c` on the positions of its samples.  Propagated labels agree exactly for samples of the same cluster with the same
propagated cluster-local label; that label is one of those given in the cluster. -/
theorem C48_propagated_partial [LinearOrder V] [Add V] (inv : W → Option V) (zero : V) (n num : ℕ) (lab sub labels : ℕ → ℤ)
    (graph : ℕ → List (Edge W)) (hd : ∀ c : ℕ, c < num → DenseLabels ((clusterPoints n lab c).map sub))
    (hlabelled : ∀ c : ℕ, c < num → ∃ i < n, lab i = c ∧ sub i ≠ -1)
    (hinv : ∀ c < num, ∀ e ∈ graph c, ∃ v, inv e.w = some v)
    (hr : ∀ c < num, ∀ e ∈ graph c, e.u < (clusterPoints n lab c).length ∧ e.v < (clusterPoints n lab c).length)
    (hconn : ∀ c < num, ∀ a < (clusterPoints n lab c).length, ∀ b < (clusterPoints n lab c).length, Conn (graph c) a b)
    (fuel : ℕ) (hfuel : n < fuel) :
    ∃ s, propagateSub ((List.range num).map fun c : ℕ => (clusterPoints n lab c, propagateList inv zero (graph c) fuel)) ⟨labels, sub, 0⟩ = some s ∧
      (∀ i, ¬ (i < n ∧ 0 ≤ lab i ∧ lab i < num) → s.labels i = labels i ∧ s.subLabels i = sub i) ∧
      (∀ i < n, 0 ≤ lab i → lab i < num → 0 ≤ s.labels i ∧ s.subLabels i ≠ -1 ∧ (∃ j < n, lab j = lab i ∧ sub j = s.subLabels i) ∧
        (sub i ≠ -1 → s.subLabels i = sub i)) ∧
      ∀ i < n, ∀ j < n, 0 ≤ lab i → lab i < num → 0 ≤ lab j → lab j < num →
        (s.labels i = s.labels j ↔ lab i = lab j ∧ s.subLabels i = s.subLabels j) := by
  set cs := (List.range num).map (fun c : ℕ => (c : ℤ)) with hcs
  have hnonempty : ∀ c : ℕ, c < num → ∃ i < n, lab i = c := fun c hc => by
    obtain ⟨i, hi, hl, _⟩ := hlabelled c hc
    exact ⟨i, hi, hl⟩
  have hlen : ∀ c : ℤ, (clusterPoints n lab c).length ≤ n := fun c => by
    have := (List.filter_sublist (l := List.range n) (p := fun i => decide (lab i = c))).length_le
    rwa [List.length_range] at this
  -- the new labels of each cluster
  have hres : ∀ c : ℕ, c < num → ∃ f : ℕ → ℤ,
      propagateList inv zero (graph c) fuel (locals n lab sub c) = some ((clusterPoints n lab c).map fun p => f ((clusterPoints n lab c).idxOf p)) ∧
      (∀ p ∈ clusterPoints n lab c, f ((clusterPoints n lab c).idxOf p) ≠ -1 ∧ f ((clusterPoints n lab c).idxOf p) ∈ locals n lab sub c) ∧
      ∀ p ∈ clusterPoints n lab c, sub p ≠ -1 → f ((clusterPoints n lab c).idxOf p) = sub p := by
    intro c hc
    have hl : (locals n lab sub c).length = (clusterPoints n lab c).length := by unfold locals; simp
    obtain ⟨f, h1, h2, h3⟩ := propagateList_spec zero (loc := locals n lab sub c) (hinv c hc) (by rw [hl]; exact hr c hc) (by rw [hl]; exact hconn c hc) (by
      obtain ⟨i, hi, hli, hs⟩ := hlabelled c hc
      exact ⟨sub i, List.mem_map.2 ⟨i, mem_clusterPoints.2 ⟨hi, hli⟩, rfl⟩, hs⟩)
    refine ⟨f, ?_, fun p hp => h2 _ (by rw [hl]; exact List.idxOf_lt_length_of_mem hp), fun p hp hne => ?_⟩
    · have := hlen c
      rw [h1 fuel (by rw [hl]; omega), hl, map_idxOf (clusterPoints_nodup n lab c)]
    · have hlt := List.idxOf_lt_length_of_mem hp
      have he : (locals n lab sub c)[(clusterPoints n lab c).idxOf p]'(by rw [hl]; exact hlt) = sub p := by
        unfold locals
        rw [List.getElem_map, List.getElem_idxOf]
      rw [h3 _ (by rw [hl]; exact hlt) (by rw [he]; exact hne), he]
  choose! F hF using hres
  set res : ℕ → ℤ := fun p => F (lab p).toNat ((clusterPoints n lab (lab p)).idxOf p) with hresdef
  have hat : ∀ c : ℕ, ∀ p ∈ clusterPoints n lab c, res p = F c ((clusterPoints n lab c).idxOf p) := by
    intro c p hp
    obtain ⟨_, hl⟩ := mem_clusterPoints.1 hp
    rw [hresdef]
    simp only [hl, Int.toNat_natCast]
  have hfills : ∀ c : ℕ, c < num → Fills n lab sub res c (propagateList inv zero (graph c) fuel) := by
    intro c hc
    obtain ⟨h1, h2, h3⟩ := hF c hc
    refine ⟨fun _ => ?_, fun p hp => ?_, fun p hp hne => ?_⟩
    · rw [h1]
      exact congrArg some (List.map_congr_left fun p hp => (hat c p hp).symm)
    · rw [hat c p hp]; exact h2 p hp
    · rw [hat c p hp]; exact h3 p hp hne
  obtain ⟨s, e1, e2, e3⟩ := propagateSub_spec (n := n) (lab := lab) (sub := sub) (res := res)
    (prop := fun c => propagateList inv zero (graph c.toNat) fuel) cs (nodup_clusterIds num) (clusterPoints_ne hnonempty)
    (fun c hc => by obtain ⟨k, hk, rfl⟩ := List.mem_map.1 hc; exact hd k (List.mem_range.1 hk))
    (fun c hc => by obtain ⟨k, hk, rfl⟩ := List.mem_map.1 hc; simpa using hfills k (List.mem_range.1 hk)) ⟨labels, sub, 0⟩ (fun _ _ _ => rfl)
  have hspec := offsetLoop_spec (n := n) (lab := lab) (val := fun _ p => res p)
    (w := fun c => labelCount n lab sub c - noiseFlag n lab sub c) cs (nodup_clusterIds num) (fun c hc => by
      obtain ⟨k, hk, rfl⟩ := List.mem_map.1 hc
      have hk' := List.mem_range.1 hk
      obtain ⟨_, h2, _⟩ := hfills k hk'
      have hdk : DenseLabels (locals n lab sub k) := hd k hk'
      have hbound : ∀ p ∈ clusterPoints n lab k, 0 ≤ res p ∧ res p < labelCount n lab sub k - noiseFlag n lab sub k := by
        intro p hp
        obtain ⟨g1, g2⟩ := h2 p hp
        obtain ⟨q, hq, hqe⟩ := List.mem_map.1 g2
        have := (locals_bound hdk).2 q hq
        have := hdk.ge _ g2
        rw [hqe] at *
        omega
      refine ⟨?_, hbound⟩
      obtain ⟨i, hi, hl⟩ := hnonempty k hk'
      have := hbound i (mem_clusterPoints.2 ⟨hi, hl⟩)
      omega) (labels, 0)
  rw [← e2] at hspec
  obtain ⟨_, h2, h3, h4⟩ := hspec
  refine ⟨s, ?_, fun i hi => ?_, fun i hi h0 h1 => ?_, fun i hi j hj i0 i1 j0 j1 => ?_⟩
  · rw [← e1, hcs, List.map_map]
    rfl
  · have hni : ¬ (i < n ∧ lab i ∈ cs) := fun h => hi ⟨h.1, mem_clusterIds.1 h.2⟩
    exact ⟨h2 i hni, (e3 i).2 hni⟩
  · have hm : lab i ∈ cs := mem_clusterIds.2 ⟨h0, h1⟩
    have hk : (lab i).toNat < num := by omega
    have hc : ((lab i).toNat : ℤ) = lab i := by omega
    obtain ⟨_, g2, g3⟩ := hfills _ hk
    rw [hc] at g2 g3
    obtain ⟨k1, k2⟩ := g2 i (mem_clusterPoints.2 ⟨hi, rfl⟩)
    obtain ⟨q, hq, hqe⟩ := List.mem_map.1 k2
    obtain ⟨q1, q2⟩ := mem_clusterPoints.1 hq
    rw [(e3 i).1 ⟨hi, hm⟩]
    exact ⟨(h3 i hi hm).1, k1, ⟨q, q1, q2, hqe⟩, g3 i (mem_clusterPoints.2 ⟨hi, rfl⟩)⟩
  · have mi : lab i ∈ cs := mem_clusterIds.2 ⟨i0, i1⟩
    have mj : lab j ∈ cs := mem_clusterIds.2 ⟨j0, j1⟩
    rw [h4 i hi j hj mi mj, (e3 i).1 ⟨hi, mi⟩, (e3 j).1 ⟨hj, mj⟩]

/-- Two clusters, the first with noise: the hypotheses of C48 on labels hold, and the labels are as expected. -/
example : (∀ c : ℕ, c < 2 → ∃ i < 5, ([0, 1, 0, 1, 0] : List ℤ).getD i (-1) = c ∧ ([0, 1, -1, 0, 1] : List ℤ).getD i 0 ≠ -1) ∧
    (propagateSub ((List.range 2).map fun c : ℕ => (clusterPoints 5 (fun i => ([0, 1, 0, 1, 0] : List ℤ).getD i (-1)) c,
      propagateList invNat 0 (([[⟨0, 1, 3⟩, ⟨1, 2, 1⟩], [⟨0, 1, 1⟩]] : List (List (Edge ℕ))).getD c []) 6))
      ⟨fun _ => -1, fun i => ([0, 1, -1, 0, 1] : List ℤ).getD i 0, 0⟩).map (fun s => (List.range 5).map s.labels) = some [0, 3, 1, 2, 1] := by
  constructor
  · decide
  · decide +kernel

/-- **C48 is false**: a cluster all of whose samples are noise gets the last label of the cluster before it.  Samples 0 to 3 are in cluster 0
with local labels `0, 1`, samples 4 and 5 are in cluster 1 and noise; the propagated labels of samples 2 and 4 agree.  (A cluster without
sub-clusters is all noise unless `allow_single_cluster` is set.) -/
theorem C48_all_noise_collides :
    (propagateSub [([0, 1, 2, 3], propagateList invNat 0 [⟨0, 1, 1⟩, ⟨1, 2, 1⟩, ⟨2, 3, 1⟩] 9), ([4, 5], propagateList invNat 0 [⟨0, 1, 1⟩] 9)]
      ⟨fun _ => -1, fun i => ([0, 0, 1, 1, -1, -1] : List ℤ).getD i 0, 0⟩).map (fun s => (List.range 6).map s.labels) =
      some [0, 0, 1, 1, 1, 1] := by decide +kernel

/-! ## Branches -/

/-- **C49**, for clusters with samples whose branch labels have no gaps; `tree c` says whether cluster `c` has a linkage tree.  The samples
of a cluster with a linkage tree and at most two branches (one with `label_sides_as_branches`) get one common label and the strength of the
cluster; in every other cluster labels agree exactly when branch labels agree; clusters never share a label. -/
theorem C49_branch_threshold_partial (sides : Bool) (n num : ℕ) (lab branch labels : ℕ → ℤ) (probs clusterProbs : ℕ → P) (tree : ℕ → Bool)
    (hne : ∀ c : ℕ, c < num → ∃ i < n, lab i = c)
    (hd : ∀ c : ℕ, c < num → DenseLabels ((clusterPoints n lab c).map branch)) :
    let few : ℤ → Prop := fun c => branchCount ((clusterPoints n lab c).map branch) ≤ (if sides then 1 else 2) ∧ tree c.toNat
    ∃ s, applyBranchThreshold sides labels branch probs clusterProbs ((List.range num).map fun c : ℕ => (clusterPoints n lab c, tree c)) = some s ∧
      (∀ i, ¬ (i < n ∧ 0 ≤ lab i ∧ lab i < num) → s.labels i = labels i ∧ s.probs i = probs i) ∧
      (∀ i < n, 0 ≤ lab i → lab i < num → 0 ≤ s.labels i ∧ (few (lab i) → s.probs i = clusterProbs i) ∧ (¬ few (lab i) → s.probs i = probs i)) ∧
      ∀ i < n, ∀ j < n, 0 ≤ lab i → lab i < num → 0 ≤ lab j → lab j < num →
        (s.labels i = s.labels j ↔ lab i = lab j ∧ (few (lab i) ∨ branch i = branch j)) := by
  intro few
  set k : ℕ := if sides then 1 else 2 with hk
  set cs := (List.range num).map (fun c : ℕ => (c : ℤ)) with hcs
  have hfew : ∀ c, few c ↔ Merged n lab branch k (fun c => tree c.toNat) c := fun c => Iff.rfl
  obtain ⟨s, e1, e2, e3⟩ := branchLoop_spec (n := n) (lab := lab) (branch := branch) (cp := clusterProbs) (k := k) (tree := fun c => tree c.toNat) cs
    (nodup_clusterIds num) (clusterPoints_ne hne)
    (fun c hc => by obtain ⟨k, hk, rfl⟩ := List.mem_map.1 hc; exact hd k (List.mem_range.1 hk)) ⟨labels, probs, 0⟩
  have hspec := offsetLoop_spec (n := n) (lab := lab)
    (val := fun c p => if Merged n lab branch k (fun c => tree c.toNat) c then 0 else branch p + noiseFlag n lab branch c)
    (w := fun c => if Merged n lab branch k (fun c => tree c.toNat) c then 1 else labelCount n lab branch c) cs (nodup_clusterIds num) (fun c hc => by
      obtain ⟨k', hk', rfl⟩ := List.mem_map.1 hc
      have hb := locals_bound (hd k' (List.mem_range.1 hk'))
      by_cases hm : Merged n lab branch k (fun c => tree c.toNat) k'
      · simp only [hm, if_true]
        exact ⟨by omega, fun _ _ => by omega⟩
      · simp only [hm, if_false]
        exact hb) (labels, 0)
  rw [← e2] at hspec
  obtain ⟨_, h2, h3, h4⟩ := hspec
  refine ⟨s, ?_, fun i hi => ?_, fun i hi h0 h1 => ?_, fun i hi j hj i0 i1 j0 j1 => ?_⟩
  · unfold applyBranchThreshold
    rw [← e1, hcs, List.map_map]
    rfl
  · have hni : ¬ (i < n ∧ lab i ∈ cs) := fun h => hi ⟨h.1, mem_clusterIds.1 h.2⟩
    exact ⟨h2 i hni, (e3 i).2 hni⟩
  · have hm : lab i ∈ cs := mem_clusterIds.2 ⟨h0, h1⟩
    have hp := (e3 i).1 ⟨hi, hm⟩
    refine ⟨(h3 i hi hm).1, fun hf => ?_, fun hf => ?_⟩
    · rw [hp, if_pos ((hfew _).1 hf)]
    · rw [hp, if_neg (fun h => hf ((hfew _).2 h))]
  · rw [h4 i hi j hj (mem_clusterIds.2 ⟨i0, i1⟩) (mem_clusterIds.2 ⟨j0, j1⟩)]
    constructor
    · rintro ⟨a, b⟩
      refine ⟨a, ?_⟩
      rw [← a] at b
      by_cases hm : Merged n lab branch k (fun c => tree c.toNat) (lab i)
      · exact Or.inl ((hfew _).2 hm)
      · simp only [hm, if_false] at b
        right; omega
    · rintro ⟨a, b⟩
      refine ⟨a, ?_⟩
      rw [← a]
      by_cases hm : Merged n lab branch k (fun c => tree c.toNat) (lab i)
      · simp only [hm, if_true]
      · simp only [hm, if_false]
        rcases b with b | b
        · exact absurd ((hfew _).1 b) hm
        · omega

/-- A cluster of two branches with noise and one of three branches: the first gets one label, the second keeps three. -/
example : let lab : ℕ → ℤ := fun i => [0, 0, 0, 1, 1, 1].getD i (-1)
    let branch : ℕ → ℤ := fun i => [0, -1, 1, 2, 0, 1].getD i 0
    (∀ c : ℕ, c < 2 → ∃ i < 6, lab i = c) ∧ branchCount ((clusterPoints 6 lab 0).map branch) = 2 ∧ branchCount ((clusterPoints 6 lab 1).map branch) = 3 ∧
    (applyBranchThreshold false (fun _ => -1) branch (fun _ => 0) (fun _ => 1) ((List.range 2).map fun c : ℕ => (clusterPoints 6 lab c, true))).map
      (fun s => (List.range 6).map s.labels) = some [0, 0, 0, 3, 1, 2] := by
  refine ⟨by decide, by decide, by decide, by decide +kernel⟩

/-- **C49 is false for a cluster without a linkage tree** (its samples are not connected inside the cluster): with two branches its samples
keep two labels. -/
theorem C49_disconnected_cluster :
    branchCount ([0, 0, 1, 1].map fun i => (i : ℤ)) = 2 ∧
    (applyBranchThreshold false (fun _ => -1) (fun i => ([0, 0, 1, 1] : List ℤ).getD i 0) (fun _ => 0) (fun _ => 1) [([0, 1, 2, 3], false)]).map
      (fun s => (List.range 4).map s.labels) = some [0, 0, 1, 1] := by
  refine ⟨by decide, by decide +kernel⟩

/-- **C50 is false**: `find_branch_sub_clusters` never returns a result.  It calls `apply_branch_threshold` without the linkage trees, so even
when the sub-clusters were found the call raises a TypeError. -/
theorem C50_never_returns {α ε : Type*} (result : Except ε α) (apply : α → α) :
    (∀ r, findBranchSubClusters result apply ≠ .ok r) ∧
      ∀ r, result = .ok r → findBranchSubClusters result apply = .error (.inr .missingArgument) := by
  constructor
  · intro r
    cases result with
    | error e => simp [findBranchSubClusters]
    | ok a =>
      have : bindCall branchThresholdParams 5 ["label_sides_as_branches"] = .error .missingArgument := by decide
      simp [findBranchSubClusters, this]
  · rintro r rfl
    have : bindCall branchThresholdParams 5 ["label_sides_as_branches"] = .error .missingArgument := by decide
    simp [findBranchSubClusters, this]

/-- **C50 for the class**: `BranchDetector.fit` passes the linkage trees and returns whenever the sub-clusters are found. -/
theorem C50_detector_partial {α ε : Type*} (r : α) (apply : α → α) :
    branchDetectorFit (ε := ε) (.ok r) apply = .ok (apply r) := by
  have : bindCall branchThresholdParams 6 ["label_sides_as_branches"] = .ok () := by rfl
  simp [branchDetectorFit, this]

end Verif
