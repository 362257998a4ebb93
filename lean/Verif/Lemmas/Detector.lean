import Verif.Lemmas.SubLabels
import Verif.Lemmas.FitRows
import Verif.Model.SubDetector

/-!
# Lemmas on propagation and branches for the detectors
-/

namespace Verif
variable {W D K V P : Type*}

/-! ## scatter -/

theorem scatter_off {α : Type*} (a : ℕ → α) (ps : List (ℕ × α)) {i : ℕ} (h : i ∉ ps.map Prod.fst) : scatter a ps i = a i := by
  induction ps generalizing a with
  | nil => rfl
  | cons p ps ih =>
    rw [List.map_cons, List.mem_cons, not_or] at h
    unfold scatter
    rw [ih _ h.2, Function.update_of_ne h.1]

/-- The old value does not matter where a new one is written. -/
theorem scatter_congr {α : Type*} {a b : ℕ → α} (ps : List (ℕ × α)) {i : ℕ} (h : i ∈ ps.map Prod.fst ∨ a i = b i) : scatter a ps i = scatter b ps i := by
  induction ps generalizing a b with
  | nil => simpa [scatter] using h
  | cons p ps ih =>
    unfold scatter
    refine ih ?_
    by_cases hi : i = p.1
    · right; rw [hi, Function.update_self, Function.update_self]
    · rw [Function.update_of_ne hi, Function.update_of_ne hi]
      refine h.imp (fun hm => ?_) id
      rw [List.map_cons, List.mem_cons] at hm
      exact hm.resolve_left hi

theorem scatter_remap {α : Type*} {N : ℕ} {f : ℕ → ℕ} (hf : ∀ k < N, ∀ l < N, f k = f l → k = l) {a a' : ℕ → α} (h : ∀ k < N, a' (f k) = a k)
    (ps : List (ℕ × α)) (hps : ∀ p ∈ ps, p.1 < N) : ∀ k < N, scatter a' (ps.map fun p => (f p.1, p.2)) (f k) = scatter a ps k := by
  induction ps generalizing a a' with
  | nil => exact h
  | cons p ps ih =>
    intro k hk
    rw [List.map_cons]
    unfold scatter
    refine ih (fun l hl => ?_) (fun q hq => hps q (by simp [hq])) k hk
    by_cases he : l = p.1
    · rw [he, Function.update_self, Function.update_self]
    · rw [Function.update_of_ne he, Function.update_of_ne fun h => he (hf l hl _ (hps p (by simp)) h), h l hl]

theorem zip_fst {α : Type*} {ps : List ℕ} {vs : List α} (h : vs.length = ps.length) : (ps.zip vs).map Prod.fst = ps := List.map_fst_zip (by omega)

theorem map_scatter_zip {α : Type*} (a : ℕ → α) {ps : List ℕ} {vs : List α} (hnd : ps.Nodup) (h : vs.length = ps.length) :
    ps.map (scatter a (ps.zip vs)) = vs := by
  induction ps generalizing a vs with
  | nil => cases vs with
    | nil => rfl
    | cons v vs => simp at h
  | cons p ps ih =>
    obtain ⟨v, vs, rfl⟩ : ∃ v vs', vs = v :: vs' := by cases vs with
      | nil => simp at h
      | cons v vs => exact ⟨v, vs, rfl⟩
    obtain ⟨hp, hnd⟩ := List.nodup_cons.1 hnd
    have hl : vs.length = ps.length := by simpa using h
    rw [List.zip_cons_cons, List.map_cons]
    unfold scatter
    rw [ih _ hnd hl, scatter_off _ _ (by rw [zip_fst hl]; exact hp), Function.update_self]

/-! ## Propagation in one cluster -/

theorem voteStep_outside [LinearOrder V] [Add V] (zero : V) {U : ℕ → List (ℕ × V)} {S : ℤ → Prop} (lab : ℕ → ℤ) (i : ℕ)
    (hlab : ∀ j, lab j = -1 ∨ S (lab j)) : (∀ j, voteStep zero U lab i j = -1 ∨ S (voteStep zero U lab i j)) ∧ ∀ j, j ≠ i → voteStep zero U lab i j = lab j := by
  rcases voteStep_spec zero U lab i with ⟨_, h⟩ | ⟨l, h1, ⟨p, _, hp⟩, h, _⟩
  · rw [h]; exact ⟨hlab, fun _ _ => rfl⟩
  · rw [h]
    refine ⟨fun j => ?_, fun j hj => by rw [Function.update_of_ne hj]⟩
    by_cases hj : j = i
    · rw [hj, Function.update_self]
      exact .inr (hp ▸ (hlab p.1).resolve_left (by rw [hp]; exact h1))
    · rw [Function.update_of_ne hj]; exact hlab j

theorem sweep_outside [LinearOrder V] [Add V] (zero : V) {U : ℕ → List (ℕ × V)} {S : ℤ → Prop} (is : List ℕ) (lab : ℕ → ℤ)
    (hlab : ∀ j, lab j = -1 ∨ S (lab j)) :
    (∀ j, is.foldl (voteStep zero U) lab j = -1 ∨ S (is.foldl (voteStep zero U) lab j)) ∧ ∀ j, j ∉ is → is.foldl (voteStep zero U) lab j = lab j := by
  induction is generalizing lab with
  | nil => exact ⟨hlab, fun _ _ => rfl⟩
  | cons i is ih =>
    rw [List.foldl_cons]
    obtain ⟨h1, h2⟩ := voteStep_outside zero lab i (U := U) hlab
    obtain ⟨g1, g2⟩ := ih _ h1
    refine ⟨g1, fun j hj => ?_⟩
    rw [List.mem_cons, not_or] at hj
    rw [g2 j hj.2, h2 j hj.1]

/-- Whatever the graph: if the loop ends, no noise is left, the labels are old ones, and old labels are kept. -/
theorem propagateLoop_result [LinearOrder V] [Add V] (zero : V) {n : ℕ} {U : ℕ → List (ℕ × V)} {S : ℤ → Prop} (fuel : ℕ) (lab lab' : ℕ → ℤ)
    (hlab : ∀ j, lab j = -1 ∨ S (lab j)) (h : propagateLoop zero n U fuel lab = some lab') :
    (∀ j < n, lab' j ≠ -1 ∧ S (lab' j)) ∧ ∀ j < n, lab j ≠ -1 → lab' j = lab j := by
  induction fuel generalizing lab with
  | zero => simp [propagateLoop] at h
  | succ f ih =>
    unfold propagateLoop at h
    simp only at h
    split_ifs at h with h0
    · rw [← Option.some.inj h]
      have : ∀ j < n, lab j ≠ -1 := fun j hj he => by
        have := mem_clusterPoints.2 ⟨hj, he⟩
        rw [h0] at this; simp at this
      exact ⟨fun j hj => ⟨this j hj, (hlab j).resolve_left (this j hj)⟩, fun _ _ _ => rfl⟩
    · obtain ⟨g1, g2⟩ := sweep_outside zero (U := U) (clusterPoints n lab (-1)) lab hlab
      obtain ⟨k1, k2⟩ := ih _ g1 h
      refine ⟨k1, fun j hj hne => ?_⟩
      have e := g2 j fun hm => hne (mem_clusterPoints.1 hm).2
      rw [k2 j hj (by rw [e]; exact hne), e]

theorem propagateList_result [LinearOrder V] [Add V] {inv : W → Option V} {zero : V} {es : List (Edge W)} {fuel : ℕ} {loc loc' : List ℤ}
    (h : propagateList inv zero es fuel loc = some loc') :
    loc'.length = loc.length ∧ (∀ x ∈ loc', x ≠ -1 ∧ x ∈ loc) ∧ (∀ x ∈ loc, x ≠ -1 → x ∈ loc') ∧
      ∀ (k : ℕ) (x : ℤ), loc[k]? = some x → x ≠ -1 → loc'[k]? = some x := by
  unfold propagateList at h
  obtain ⟨lab, hl, hl'⟩ := Option.map_eq_some_iff.1 h
  subst hl'
  unfold propagatePerCluster at hl
  obtain ⟨U, _, hl⟩ := Option.bind_eq_some_iff.1 hl
  obtain ⟨h1, h2⟩ := propagateLoop_result (S := fun x => x ∈ loc) zero fuel _ _ (fun j => by
    by_cases hj : j < loc.length
    · right
      simp [List.getD_eq_getElem?_getD, List.getElem?_eq_getElem hj]
    · left
      simp [List.getD_eq_getElem?_getD, List.getElem?_eq_none (by omega : loc.length ≤ j)]) hl
  have key : ∀ (k : ℕ) (x : ℤ), loc[k]? = some x → x ≠ -1 → lab k = x ∧ k < loc.length := fun k x hk hx => by
    have hkl := (List.getElem?_eq_some_iff.1 hk).1
    have e : loc.getD k (-1) = x := by rw [List.getD_eq_getElem?_getD, hk]; rfl
    exact ⟨by rw [h2 k hkl (by rw [e]; exact hx), e], hkl⟩
  refine ⟨by simp, fun x hx => ?_, fun x hx hne => ?_, fun k x hk hx => ?_⟩
  · obtain ⟨j, hj, rfl⟩ := List.mem_map.1 hx
    exact h1 j (List.mem_range.1 hj)
  · obtain ⟨k, hk⟩ := List.mem_iff_getElem?.1 hx
    obtain ⟨e, hkl⟩ := key k x hk hne
    exact List.mem_map.2 ⟨k, List.mem_range.2 hkl, e⟩
  · obtain ⟨e, hkl⟩ := key k x hk hx
    simp [hkl, e]

/-! ## Propagation for all clusters -/

/-- The new labels of a cluster whose labels are `loc`, sub_clusters.py:176-180. -/
def newLocals (prop : List ℤ → Option (List ℤ)) (loc : List ℤ) : Option (List ℤ) :=
  match npUnique loc with
  | [] => none
  | u :: us => if u = -1 ∧ 1 < (u :: us).length then prop loc else some loc

/-- What is added to the running id, sub_clusters.py:182. -/
def localCount (loc : List ℤ) : ℤ :=
  match npUnique loc with
  | [] => 0
  | u :: us => ((u :: us).length : ℕ) - (if u = -1 ∧ 1 < (u :: us).length then 1 else 0)

theorem propagateStep_newLocals (s : PropArrays) (c : List ℕ × (List ℤ → Option (List ℤ))) :
    propagateStep s c = (newLocals c.2 (c.1.map s.subLabels)).map fun loc' =>
      ⟨scatter s.labels (c.1.zip (loc'.map (· + s.runningId))), scatter s.subLabels (c.1.zip loc'), s.runningId + localCount (c.1.map s.subLabels)⟩ := by
  unfold propagateStep newLocals localCount
  simp only
  cases h : npUnique (c.1.map s.subLabels) with
  | nil => rfl
  | cons u us =>
    simp only
    congr 1
    funext loc'
    congr 1
    split_ifs <;> omega

/-- The propagation gives back a list of the same length. -/
def KeepsLength (c : List ℕ × (List ℤ → Option (List ℤ))) : Prop := ∀ loc loc', c.2 loc = some loc' → loc'.length = loc.length

theorem newLocals_length {c : List ℕ × (List ℤ → Option (List ℤ))} (hc : KeepsLength c) {loc loc' : List ℤ} (h : newLocals c.2 loc = some loc') :
    loc'.length = loc.length := by
  unfold newLocals at h
  split at h
  · cases h
  · split_ifs at h
    · exact hc _ _ h
    · cases h; rfl

/-- Renumbering the samples. -/
theorem propagateSub_remap {N : ℕ} {f : ℕ → ℕ} (hf : ∀ k < N, ∀ l < N, f k = f l → k = l) (cs : List (List ℕ × (List ℤ → Option (List ℤ))))
    (hcs : ∀ c ∈ cs, KeepsLength c ∧ ∀ p ∈ c.1, p < N) (s t : PropArrays) (hl : ∀ k < N, t.labels (f k) = s.labels k)
    (hs : ∀ k < N, t.subLabels (f k) = s.subLabels k) (hr : t.runningId = s.runningId) :
    (propagateSub cs s = none → propagateSub (cs.map fun c => (c.1.map f, c.2)) t = none) ∧
      ∀ s', propagateSub cs s = some s' → ∃ t', propagateSub (cs.map fun c => (c.1.map f, c.2)) t = some t' ∧
        (∀ k < N, t'.labels (f k) = s'.labels k) ∧ (∀ k < N, t'.subLabels (f k) = s'.subLabels k) ∧
        ∀ i, (∀ k < N, f k ≠ i) → t'.labels i = t.labels i ∧ t'.subLabels i = t.subLabels i := by
  induction cs generalizing s t with
  | nil =>
    refine ⟨fun h => by simp [propagateSub] at h, fun s' h => ⟨t, rfl, ?_⟩⟩
    cases h
    exact ⟨hl, hs, fun _ _ => ⟨rfl, rfl⟩⟩
  | cons c cs ih =>
    obtain ⟨hk, hp⟩ := hcs c (by simp)
    rw [List.map_cons]
    unfold propagateSub
    rw [propagateStep_newLocals, propagateStep_newLocals]
    have e : (c.1.map f).map t.subLabels = c.1.map s.subLabels := by
      rw [List.map_map]
      exact List.map_congr_left fun p hp' => hs p (hp p hp')
    simp only [e]
    cases hn : newLocals c.2 (c.1.map s.subLabels) with
    | none => exact ⟨fun _ => rfl, fun s' h => by simp at h⟩
    | some loc' =>
      have hlen : loc'.length = c.1.length := by rw [newLocals_length hk hn, List.length_map]
      have hzip : ∀ (vs : List ℤ), (c.1.map f).zip vs = (c.1.zip vs).map fun p => (f p.1, p.2) := fun vs => by
        rw [List.zip_map_left]; rfl
      have hkeys : ∀ (vs : List ℤ), ∀ p ∈ c.1.zip vs, p.1 < N := fun vs p hpz => hp _ (List.of_mem_zip hpz).1
      have hout : ∀ (a : ℕ → ℤ) (vs : List ℤ) (i : ℕ), (∀ k < N, f k ≠ i) → scatter a ((c.1.map f).zip vs) i = a i := by
        intro a vs i hi
        refine scatter_off _ _ fun hm => ?_
        obtain ⟨q, hq, rfl⟩ := List.mem_map.1 hm
        obtain ⟨p, hp', e⟩ := List.mem_map.1 (List.of_mem_zip hq).1
        exact hi p (hp p hp') e
      obtain ⟨g1, g2⟩ := ih (fun c hc => hcs c (by simp [hc]))
        ⟨scatter s.labels (c.1.zip (loc'.map (· + s.runningId))), scatter s.subLabels (c.1.zip loc'), s.runningId + localCount (c.1.map s.subLabels)⟩
        ⟨scatter t.labels ((c.1.map f).zip (loc'.map (· + t.runningId))), scatter t.subLabels ((c.1.map f).zip loc'),
          t.runningId + localCount (c.1.map s.subLabels)⟩
        (fun k hk' => by rw [hzip, hr]; exact scatter_remap hf hl _ (hkeys _) k hk')
        (fun k hk' => by simp only; rw [hzip]; exact scatter_remap hf hs _ (hkeys _) k hk') (by simp only [hr])
      simp only [Option.map_some, Option.bind_some]
      refine ⟨g1, fun s' h => ?_⟩
      obtain ⟨t', k1, k2, k3, k4⟩ := g2 s' h
      refine ⟨t', k1, k2, k3, fun i hi => ?_⟩
      obtain ⟨m1, m2⟩ := k4 i hi
      exact ⟨m1.trans (hout _ _ i hi), m2.trans (hout _ _ i hi)⟩

/-- The labels before do not matter for the samples of the clusters. -/
theorem propagateSub_labels (cs : List (List ℕ × (List ℤ → Option (List ℤ)))) (hcs : ∀ c ∈ cs, KeepsLength c) (s t : PropArrays)
    (hs : t.subLabels = s.subLabels) (hr : t.runningId = s.runningId) (hl : ∀ i, (∃ c ∈ cs, i ∈ c.1) ∨ t.labels i = s.labels i) :
    (propagateSub cs t).map (fun a => (a.labels, a.subLabels)) = (propagateSub cs s).map fun a => (a.labels, a.subLabels) := by
  induction cs generalizing s t with
  | nil =>
    have : t.labels = s.labels := funext fun i => by simpa using hl i
    simp [propagateSub, this, hs]
  | cons c cs ih =>
    unfold propagateSub
    rw [propagateStep_newLocals, propagateStep_newLocals, hs]
    cases hn : newLocals c.2 (c.1.map s.subLabels) with
    | none => rfl
    | some loc' =>
      have hlen : loc'.length = c.1.length := by rw [newLocals_length (hcs c (by simp)) hn, List.length_map]
      simp only [Option.map_some, Option.bind_some]
      refine ih (fun c hc => hcs c (by simp [hc])) _ _ rfl (by simp only [hr]) fun i => ?_
      rcases hl i with ⟨d, hd, hi⟩ | hi
      · rcases List.mem_cons.1 hd with rfl | hd
        · right
          simp only [hr]
          exact scatter_congr _ (.inl (by rw [zip_fst (by simp [hlen])]; exact hi))
        · exact .inl ⟨d, hd, hi⟩
      · right
        simp only [hr]
        exact scatter_congr _ (.inr hi)

/-- Samples outside the clusters keep their labels. -/
theorem propagateSub_off (cs : List (List ℕ × (List ℤ → Option (List ℤ)))) (hcs : ∀ c ∈ cs, KeepsLength c) (s s' : PropArrays)
    (h : propagateSub cs s = some s') (i : ℕ) (hi : ∀ c ∈ cs, i ∉ c.1) : s'.labels i = s.labels i ∧ s'.subLabels i = s.subLabels i := by
  induction cs generalizing s with
  | nil => cases h; exact ⟨rfl, rfl⟩
  | cons c cs ih =>
    unfold propagateSub at h
    rw [propagateStep_newLocals] at h
    obtain ⟨s1, h1, h⟩ := Option.bind_eq_some_iff.1 h
    obtain ⟨loc', hn, rfl⟩ := Option.map_eq_some_iff.1 h1
    have hlen : loc'.length = c.1.length := by rw [newLocals_length (hcs c (by simp)) hn, List.length_map]
    obtain ⟨a, b⟩ := ih (fun c hc => hcs c (by simp [hc])) _ h fun c hc => hi c (by simp [hc])
    have hni := hi c (by simp)
    exact ⟨a.trans (scatter_off _ _ (by rw [zip_fst (by simp [hlen])]; exact hni)), b.trans (scatter_off _ _ (by rw [zip_fst hlen]; exact hni))⟩

/-- The cluster-local labels after propagation, cluster by cluster. -/
theorem propagateSub_locals (cs : List (List ℕ × (List ℤ → Option (List ℤ)))) (hcs : ∀ c ∈ cs, KeepsLength c ∧ c.1.Nodup)
    (hdis : cs.Pairwise fun c d => List.Disjoint c.1 d.1) (s s' : PropArrays) (h : propagateSub cs s = some s') :
    ∀ c ∈ cs, newLocals c.2 (c.1.map s.subLabels) = some (c.1.map s'.subLabels) := by
  induction cs generalizing s with
  | nil => simp
  | cons c cs ih =>
    obtain ⟨hd, hdis⟩ := List.pairwise_cons.1 hdis
    unfold propagateSub at h
    rw [propagateStep_newLocals] at h
    obtain ⟨s1, h1, h⟩ := Option.bind_eq_some_iff.1 h
    obtain ⟨loc', hn, rfl⟩ := Option.map_eq_some_iff.1 h1
    have hlen : loc'.length = c.1.length := by rw [newLocals_length (hcs c (by simp)).1 hn, List.length_map]
    intro d hmem
    rcases List.mem_cons.1 hmem with rfl | hmem
    · rw [hn]
      congr 1
      rw [← map_scatter_zip s.subLabels (hcs d (by simp)).2 hlen]
      refine List.map_congr_left fun p hp => ?_
      exact (propagateSub_off cs (fun c hc => (hcs c (by simp [hc])).1) _ _ h p fun e he hpe => hd e he hp hpe).2.symm
    · have := ih (fun c hc => hcs c (by simp [hc])) hdis _ h d hmem
      rw [← this]
      congr 1
      refine List.map_congr_left fun p hp => ?_
      exact (scatter_off _ _ (by rw [zip_fst hlen]; exact fun hpc => hd d hmem hpc hp)).symm

/-- Once propagated, nothing changes. -/
def Stable (c : List ℕ × (List ℤ → Option (List ℤ))) : Prop :=
  ∀ loc loc', newLocals c.2 loc = some loc' → newLocals c.2 loc' = some loc' ∧ localCount loc' = localCount loc

theorem propagateSub_again (cs : List (List ℕ × (List ℤ → Option (List ℤ)))) (hcs : ∀ c ∈ cs, KeepsLength c ∧ c.1.Nodup ∧ Stable c)
    (hdis : cs.Pairwise fun c d => List.Disjoint c.1 d.1) (s s' t : PropArrays) (h : propagateSub cs s = some s')
    (hr : t.runningId = s.runningId) (hs : ∀ c ∈ cs, ∀ p ∈ c.1, t.subLabels p = s'.subLabels p) :
    ∃ t', propagateSub cs t = some t' ∧ ∀ i, ((∃ c ∈ cs, i ∈ c.1) → t'.labels i = s'.labels i ∧ t'.subLabels i = s'.subLabels i) ∧
      ((∀ c ∈ cs, i ∉ c.1) → t'.labels i = t.labels i ∧ t'.subLabels i = t.subLabels i) := by
  induction cs generalizing s t with
  | nil => exact ⟨t, rfl, fun i => ⟨by simp, fun _ => ⟨rfl, rfl⟩⟩⟩
  | cons c cs ih =>
    have hloc := propagateSub_locals (c :: cs) (fun c hc => ⟨(hcs c hc).1, (hcs c hc).2.1⟩) hdis s s' h c (by simp)
    obtain ⟨hd, hdis⟩ := List.pairwise_cons.1 hdis
    obtain ⟨hk, hnd, hst⟩ := hcs c (by simp)
    unfold propagateSub at h
    rw [propagateStep_newLocals] at h
    obtain ⟨s1, h1, h⟩ := Option.bind_eq_some_iff.1 h
    obtain ⟨loc', hn, rfl⟩ := Option.map_eq_some_iff.1 h1
    obtain rfl : loc' = c.1.map s'.subLabels := Option.some.inj (hn.symm.trans hloc)
    obtain ⟨st1, st2⟩ := hst _ _ hn
    have ht : c.1.map t.subLabels = c.1.map s'.subLabels := List.map_congr_left fun p hp => hs c (by simp) p hp
    unfold propagateSub
    rw [propagateStep_newLocals, ht, st1, Option.map_some, Option.bind_some]
    obtain ⟨t', k1, k2⟩ := ih (fun c hc => hcs c (by simp [hc])) hdis _
      ⟨scatter t.labels (c.1.zip ((c.1.map s'.subLabels).map (· + t.runningId))), scatter t.subLabels (c.1.zip (c.1.map s'.subLabels)),
        t.runningId + localCount (c.1.map s'.subLabels)⟩ h (by simp only [hr, st2]) (fun d hmem p hp => by
          simp only
          rw [scatter_off _ _ (by rw [zip_fst (by simp)]; exact fun hpc => hd d hmem hpc hp)]
          exact hs d (by simp [hmem]) p hp)
    refine ⟨t', k1, fun i => ⟨?_, fun hi => ?_⟩⟩
    · rintro ⟨d, hmem, hi⟩
      rcases List.mem_cons.1 hmem with rfl | hmem
      · have hoff : ∀ e ∈ cs, i ∉ e.1 := fun e he hie => hd e he hi hie
        obtain ⟨a, b⟩ := (k2 i).2 hoff
        obtain ⟨a', b'⟩ := propagateSub_off cs (fun c hc => (hcs c (by simp [hc])).1) _ _ h i hoff
        rw [a, b, a', b', hr]
        exact ⟨scatter_congr _ (.inl (by rw [zip_fst (by simp)]; exact hi)), scatter_congr _ (.inl (by rw [zip_fst (by simp)]; exact hi))⟩
      · exact (k2 i).1 ⟨d, hmem, hi⟩
    · have hic := hi c (by simp)
      obtain ⟨a, b⟩ := (k2 i).2 fun e he => hi e (by simp [he])
      exact ⟨a.trans (scatter_off _ _ (by rw [zip_fst (by simp)]; exact hic)), b.trans (scatter_off _ _ (by rw [zip_fst (by simp)]; exact hic))⟩

end Verif
