import Verif.Lemmas.Propagate

/-!
# Labels of sub-clusters and branches
-/

namespace Verif
variable {W V P : Type*}

theorem offsetLoop_congr {n : ℕ} {lab : ℕ → ℤ} {val val' : ℤ → ℕ → ℤ} {w w' : ℤ → ℤ} (cs : List ℤ)
    (hv : ∀ c ∈ cs, (∀ p ∈ clusterPoints n lab c, val c p = val' c p) ∧ w c = w' c) (s : (ℕ → ℤ) × ℤ) :
    offsetLoop n lab val w cs s = offsetLoop n lab val' w' cs s := by
  induction cs generalizing s with
  | nil => rfl
  | cons c cs ih =>
    obtain ⟨h1, h2⟩ := hv c (by simp)
    unfold offsetLoop
    rw [ih (fun c hc => hv c (by simp [hc])), h2]
    congr 3
    exact List.map_congr_left fun p hp => by rw [h1 p hp]

/-- The labels of a cluster. -/
def locals (n : ℕ) (lab loc : ℕ → ℤ) (c : ℤ) : List ℤ := (clusterPoints n lab c).map loc

/-- `1` when a cluster has noise, as the code finds it. -/
def noiseFlag (n : ℕ) (lab loc : ℕ → ℤ) (c : ℤ) : ℤ := if (npUnique (locals n lab loc c)).head? = some (-1) then 1 else 0

/-- Number of different labels of a cluster. -/
def labelCount (n : ℕ) (lab loc : ℕ → ℤ) (c : ℤ) : ℤ := ((npUnique (locals n lab loc c)).length : ℕ)

theorem locals_bound {n : ℕ} {lab loc : ℕ → ℤ} {c : ℤ} (hd : DenseLabels (locals n lab loc c)) :
    0 ≤ labelCount n lab loc c ∧ ∀ p ∈ clusterPoints n lab c, 0 ≤ loc p + noiseFlag n lab loc c ∧ loc p + noiseFlag n lab loc c < labelCount n lab loc c := by
  refine ⟨by unfold labelCount; positivity, fun p hp => ?_⟩
  have hm : loc p ∈ locals n lab loc c := List.mem_map.2 ⟨p, hp, rfl⟩
  unfold noiseFlag labelCount
  cases h : npUnique (locals n lab loc c) with
  | nil => rw [npUnique_eq_nil] at h; rw [h] at hm; simp at hm
  | cons u us =>
    have := dense_lt hd h hm
    simpa using this

/-! ## `update_labels` -/

theorem updateStep_eq {half : P → P → P} {n : ℕ} {lab loc : ℕ → ℤ} {prob : ℕ → P} {c : ℤ} (hne : clusterPoints n lab c ≠ []) (s : SubArrays P) :
    updateStep half s ((clusterPoints n lab c).map fun i => (i, loc i, prob i)) =
      some ⟨scatter s.labels ((clusterPoints n lab c).map fun p => (p, (loc p + noiseFlag n lab loc c) + s.runningId)),
        scatter s.probs ((clusterPoints n lab c).map fun p => (p, half (s.probs p) (prob p))),
        scatter s.subLabels ((clusterPoints n lab c).map fun p => (p, loc p)),
        scatter s.subProbs ((clusterPoints n lab c).map fun p => (p, prob p)),
        s.runningId + labelCount n lab loc c⟩ := by
  unfold updateStep
  have h1 : ((clusterPoints n lab c).map fun i => (i, loc i, prob i)).map (fun p => p.2.1) = locals n lab loc c := by
    rw [List.map_map]; rfl
  rw [h1]
  cases h : npUnique (locals n lab loc c) with
  | nil =>
    rw [npUnique_eq_nil] at h
    exact absurd (List.map_eq_nil_iff.1 h) hne
  | cons u us =>
    simp only [List.map_map, Function.comp_def, noiseFlag, labelCount, h, List.head?_cons, Option.some.injEq]

theorem updateLoop_spec {half : P → P → P} {n : ℕ} {lab loc : ℕ → ℤ} {prob : ℕ → P} (cs : List ℤ) (hnd : cs.Nodup)
    (hne : ∀ c ∈ cs, clusterPoints n lab c ≠ []) (s : SubArrays P) :
    ∃ s', updateLoop half (cs.map fun c => (clusterPoints n lab c).map fun i => (i, loc i, prob i)) s = some s' ∧
      (s'.labels, s'.runningId) = offsetLoop n lab (fun c p => loc p + noiseFlag n lab loc c) (labelCount n lab loc) cs (s.labels, s.runningId) ∧
      ∀ i, (i < n ∧ lab i ∈ cs → s'.subLabels i = loc i ∧ s'.subProbs i = prob i ∧ s'.probs i = half (s.probs i) (prob i)) ∧
        (¬ (i < n ∧ lab i ∈ cs) → s'.subLabels i = s.subLabels i ∧ s'.subProbs i = s.subProbs i ∧ s'.probs i = s.probs i) := by
  induction cs generalizing s with
  | nil => exact ⟨s, rfl, rfl, fun i => ⟨fun h => by simp at h, fun _ => ⟨rfl, rfl, rfl⟩⟩⟩
  | cons c cs ih =>
    obtain ⟨hc, hnd'⟩ := List.nodup_cons.1 hnd
    rw [List.map_cons]
    unfold updateLoop
    rw [updateStep_eq (hne c (by simp)), Option.bind_some]
    obtain ⟨s', e1, e2, e3⟩ := ih hnd' (fun c hc => hne c (by simp [hc])) ⟨_, _, _, _, _⟩
    refine ⟨s', e1, e2, fun i => ?_⟩
    obtain ⟨f1, f2⟩ := e3 i
    have hcp := clusterPoints_nodup n lab c
    simp only [scatter_map _ _ hcp] at f1 f2
    by_cases hi : i < n ∧ lab i ∈ cs
    · have hni : i ∉ clusterPoints n lab c := fun h => hc ((mem_clusterPoints.1 h).2 ▸ hi.2)
      obtain ⟨g1, g2, g3⟩ := f1 hi
      rw [if_neg hni] at g3
      exact ⟨fun _ => ⟨g1, g2, g3⟩, fun h => absurd ⟨hi.1, by simp [hi.2]⟩ h⟩
    · obtain ⟨g1, g2, g3⟩ := f2 hi
      by_cases hm : i ∈ clusterPoints n lab c
      · rw [if_pos hm] at g1 g2 g3
        obtain ⟨m1, m2⟩ := mem_clusterPoints.1 hm
        exact ⟨fun _ => ⟨g1, g2, g3⟩, fun h => absurd ⟨m1, by simp [m2]⟩ h⟩
      · rw [if_neg hm] at g1 g2 g3
        refine ⟨fun h => ?_, fun _ => ⟨g1, g2, g3⟩⟩
        rcases List.mem_cons.1 h.2 with h2 | h2
        · exact absurd (mem_clusterPoints.2 ⟨h.1, h2⟩) hm
        · exact absurd ⟨h.1, h2⟩ hi

/-! ## Propagation -/

theorem map_idxOf {ps : List ℕ} (hnd : ps.Nodup) (f : ℕ → ℤ) : (List.range ps.length).map f = ps.map fun p => f (ps.idxOf p) := by
  refine List.ext_getElem (by simp) fun i h1 h2 => ?_
  simp only [List.length_map, List.length_range] at h1
  rw [List.getElem_map, List.getElem_map, List.getElem_range, hnd.idxOf_getElem]

/-- Propagation in one cluster. -/
theorem propagateList_spec [LinearOrder V] [Add V] {inv : W → Option V} (zero : V) {es : List (Edge W)} {loc : List ℤ}
    (hinv : ∀ e ∈ es, ∃ v, inv e.w = some v) (hr : ∀ e ∈ es, e.u < loc.length ∧ e.v < loc.length)
    (hconn : ∀ a < loc.length, ∀ b < loc.length, Conn es a b) (hex : ∃ x ∈ loc, x ≠ -1) :
    ∃ f : ℕ → ℤ, (∀ fuel, loc.length < fuel → propagateList inv zero es fuel loc = some ((List.range loc.length).map f)) ∧
      (∀ i < loc.length, f i ≠ -1 ∧ f i ∈ loc) ∧ ∀ i (h : i < loc.length), loc[i] ≠ -1 → f i = loc[i] := by
  set n := loc.length with hn
  set lab : ℕ → ℤ := fun i => loc.getD i (-1) with hlab
  have hget : ∀ i (h : i < n), lab i = loc[i] := fun i h => by
    rw [hlab]; simp only [List.getD]; rw [List.getElem?_eq_getElem (hn ▸ h)]; rfl
  obtain ⟨U, eU, sU⟩ := undirected_spec (lab := lab) es (fun e he _ => hinv e he) (fun _ => [])
  obtain ⟨lab', a1, a2, a3, _⟩ := propagateLoop_spec zero (n := n) (es := es) (S := fun x => x ∈ loc) hconn hr (U := U) (lab0 := lab)
    (fun i hi j => by rw [sU i hi j]; simp) n lab
    (by have := (List.filter_sublist (l := List.range n) (p := fun i => decide (lab i = -1))).length_le
        rw [List.length_range] at this; exact this)
    (fun j hj => Or.inr (by rw [hget j hj]; exact List.getElem_mem _)) (fun _ _ => rfl) (by
      obtain ⟨x, hx, hne⟩ := hex
      obtain ⟨i, hi, rfl⟩ := List.getElem_of_mem hx
      exact ⟨i, hi, by rw [hget i hi]; exact hne⟩)
  refine ⟨lab', fun fuel hf => ?_, a3, fun i hi hne => ?_⟩
  · unfold propagateList propagatePerCluster
    rw [← hn, ← hlab, eU, Option.bind_some, a1 fuel hf]
    rfl
  · rw [a2 i (by rw [hget i hi]; exact hne), hget i hi]

/-- What propagation of the labels of a cluster is assumed to do: `res` holds the new labels. -/
def Fills (n : ℕ) (lab sub res : ℕ → ℤ) (c : ℤ) (prop : List ℤ → Option (List ℤ)) : Prop :=
  (-1 ∈ locals n lab sub c → prop (locals n lab sub c) = some (locals n lab res c)) ∧
    (∀ p ∈ clusterPoints n lab c, res p ≠ -1 ∧ res p ∈ locals n lab sub c) ∧
    ∀ p ∈ clusterPoints n lab c, sub p ≠ -1 → res p = sub p

theorem zip_map_eq {α : Type*} (ps : List ℕ) (f : ℕ → α) : ps.zip (ps.map f) = ps.map fun p => (p, f p) := by
  induction ps with
  | nil => rfl
  | cons p ps ih => simp [ih]

theorem locals_eq_of_eq {n : ℕ} {lab a b : ℕ → ℤ} {c : ℤ} (h : ∀ p ∈ clusterPoints n lab c, a p = b p) : locals n lab a c = locals n lab b c :=
  List.map_congr_left h

theorem propagateStep_eq {n : ℕ} {lab sub res : ℕ → ℤ} {c : ℤ} {prop : List ℤ → Option (List ℤ)} (hne : clusterPoints n lab c ≠ [])
    (hd : DenseLabels (locals n lab sub c)) (hf : Fills n lab sub res c prop) (s : PropArrays)
    (hs : ∀ p ∈ clusterPoints n lab c, s.subLabels p = sub p) :
    propagateStep s (clusterPoints n lab c, prop) =
      some ⟨scatter s.labels ((clusterPoints n lab c).map fun p => (p, res p + s.runningId)),
        scatter s.subLabels ((clusterPoints n lab c).map fun p => (p, res p)),
        s.runningId + (labelCount n lab sub c - noiseFlag n lab sub c)⟩ := by
  unfold propagateStep
  have h1 : (clusterPoints n lab c).map s.subLabels = locals n lab sub c := locals_eq_of_eq hs
  simp only [h1]
  obtain ⟨f1, f2, f3⟩ := hf
  obtain ⟨p0, hp0⟩ := List.exists_mem_of_ne_nil _ hne
  cases h : npUnique (locals n lab sub c) with
  | nil =>
    rw [npUnique_eq_nil] at h
    exact absurd (List.map_eq_nil_iff.1 h) hne
  | cons u us =>
    have hflag : noiseFlag n lab sub c = if u = -1 then 1 else 0 := by unfold noiseFlag; rw [h]; simp
    have hcount : labelCount n lab sub c = ((u :: us).length : ℕ) := by unfold labelCount; rw [h]
    have hun : u = -1 ↔ -1 ∈ locals n lab sub c := npUnique_head_noise hd h
    have hlen : u = -1 → 1 < (u :: us).length := by
      intro hu
      obtain ⟨g1, g2⟩ := f2 p0 hp0
      have := mem_npUnique.2 g2
      rw [h, hu, List.mem_cons] at this
      rcases this with h' | h'
      · exact absurd h' g1
      · have := List.length_pos_of_mem h'
        simp only [List.length_cons]; omega
    have hloc : (if u = -1 ∧ 1 < (u :: us).length then prop (locals n lab sub c) else some (locals n lab sub c)) = some (locals n lab res c) := by
      by_cases hu : u = -1
      · rw [if_pos ⟨hu, hlen hu⟩, f1 (hun.1 hu)]
      · rw [if_neg (fun h => hu h.1)]
        refine congrArg some (locals_eq_of_eq fun p hp => (f3 p hp fun hc => hu (hun.2 ?_)).symm)
        rw [← hc]; exact List.mem_map.2 ⟨p, hp, rfl⟩
    simp only [hloc, Option.map_some]
    congr 2
    · unfold locals
      rw [List.map_map]
      exact congrArg _ (zip_map_eq _ _)
    · exact congrArg _ (zip_map_eq _ _)
    · rw [hcount, hflag]
      by_cases hu : u = -1
      · rw [if_pos ⟨hu, hlen hu⟩, if_pos hu]; omega
      · rw [if_neg (fun h => hu h.1), if_neg hu]; omega

theorem propagateSub_spec {n : ℕ} {lab sub res : ℕ → ℤ} {prop : ℤ → List ℤ → Option (List ℤ)} (cs : List ℤ) (hnd : cs.Nodup)
    (hne : ∀ c ∈ cs, clusterPoints n lab c ≠ []) (hd : ∀ c ∈ cs, DenseLabels (locals n lab sub c))
    (hf : ∀ c ∈ cs, Fills n lab sub res c (prop c)) (s : PropArrays) (hs : ∀ p, p < n → lab p ∈ cs → s.subLabels p = sub p) :
    ∃ s', propagateSub (cs.map fun c => (clusterPoints n lab c, prop c)) s = some s' ∧
      (s'.labels, s'.runningId) = offsetLoop n lab (fun _ p => res p) (fun c => labelCount n lab sub c - noiseFlag n lab sub c) cs (s.labels, s.runningId) ∧
      ∀ i, (i < n ∧ lab i ∈ cs → s'.subLabels i = res i) ∧ (¬ (i < n ∧ lab i ∈ cs) → s'.subLabels i = s.subLabels i) := by
  induction cs generalizing s with
  | nil => exact ⟨s, rfl, rfl, fun i => ⟨fun h => by simp at h, fun _ => rfl⟩⟩
  | cons c cs ih =>
    obtain ⟨hc, hnd'⟩ := List.nodup_cons.1 hnd
    rw [List.map_cons]
    unfold propagateSub
    rw [propagateStep_eq (hne c (by simp)) (hd c (by simp)) (hf c (by simp)) s (fun p hp => by
      obtain ⟨a, b⟩ := mem_clusterPoints.1 hp
      exact hs p a (by simp [b])), Option.bind_some]
    have hcp := clusterPoints_nodup n lab c
    obtain ⟨s', e1, e2, e3⟩ := ih hnd' (fun c hc => hne c (by simp [hc])) (fun c hc => hd c (by simp [hc])) (fun c hc => hf c (by simp [hc]))
      ⟨scatter s.labels ((clusterPoints n lab c).map fun p => (p, res p + s.runningId)),
        scatter s.subLabels ((clusterPoints n lab c).map fun p => (p, res p)),
        s.runningId + (labelCount n lab sub c - noiseFlag n lab sub c)⟩ (fun p hp hl => by
          simp only [scatter_map _ _ hcp]
          rw [if_neg (fun h => hc ((mem_clusterPoints.1 h).2 ▸ hl) : p ∉ clusterPoints n lab c)]
          exact hs p hp (by simp [hl]))
    refine ⟨s', e1, e2, fun i => ?_⟩
    obtain ⟨f1, f2⟩ := e3 i
    simp only [scatter_map _ _ hcp] at f2
    by_cases hi : i < n ∧ lab i ∈ cs
    · exact ⟨fun _ => f1 hi, fun h => absurd ⟨hi.1, by simp [hi.2]⟩ h⟩
    · have g := f2 hi
      by_cases hm : i ∈ clusterPoints n lab c
      · rw [if_pos hm] at g
        obtain ⟨m1, m2⟩ := mem_clusterPoints.1 hm
        exact ⟨fun _ => g, fun h => absurd ⟨m1, by simp [m2]⟩ h⟩
      · rw [if_neg hm] at g
        refine ⟨fun h => ?_, fun _ => g⟩
        rcases List.mem_cons.1 h.2 with h2 | h2
        · exact absurd (mem_clusterPoints.2 ⟨h.1, h2⟩) hm
        · exact absurd ⟨h.1, h2⟩ hi

/-! ## Branches -/

theorem branchCount_eq {l : List ℤ} (hge : ∀ x ∈ l, -1 ≤ x) {u : ℤ} {us : List ℤ} (h : npUnique l = u :: us) :
    (u :: us).length - (if u = -1 then 1 else 0) = branchCount l := by
  have hnd := npUnique_nodup l
  have hu : u = -1 ↔ -1 ∈ l := by
    have hul : u ∈ l := mem_npUnique.1 (by rw [h]; simp)
    constructor
    · rintro rfl; exact hul
    · intro hm
      have := npUnique_head_le h _ hm
      have := hge u hul
      omega
  have hp : (l.filter (· ≠ -1)).dedup.Perm ((npUnique l).filter (· ≠ -1)) := by
    refine (List.perm_ext_iff_of_nodup (List.nodup_dedup _) (hnd.filter _)).2 fun x => ?_
    rw [List.mem_dedup, List.mem_filter, List.mem_filter, mem_npUnique]
  unfold branchCount
  rw [hp.length_eq, h]
  by_cases hm : u = -1
  · rw [if_pos hm]
    rw [h, List.nodup_cons] at hnd
    rw [List.filter_cons_of_neg (by simp [hm]), List.filter_eq_self.2]
    · simp
    · intro x hx
      have : x ≠ u := fun e => hnd.1 (e ▸ hx)
      simpa [hm] using this
  · rw [if_neg hm, List.filter_eq_self.2]
    · simp
    · intro x hx
      have : x ∈ l := mem_npUnique.1 (by rw [h]; exact hx)
      have hne : x ≠ -1 := fun e => hm (hu.2 (e ▸ this))
      simpa using hne

/-- The clusters whose samples get a common label. -/
def Merged (n : ℕ) (lab branch : ℕ → ℤ) (k : ℕ) (tree : ℤ → Bool) (c : ℤ) : Prop :=
  branchCount (locals n lab branch c) ≤ k ∧ tree c

instance (n : ℕ) (lab branch : ℕ → ℤ) (k : ℕ) (tree : ℤ → Bool) (c : ℤ) : Decidable (Merged n lab branch k tree c) := by
  unfold Merged; infer_instance

theorem branchStep_eq {n : ℕ} {lab branch : ℕ → ℤ} {cp : ℕ → P} {k : ℕ} {tree : ℤ → Bool} {c : ℤ} (hne : clusterPoints n lab c ≠ [])
    (hd : DenseLabels (locals n lab branch c)) (s : BranchArrays P) :
    branchStep k branch cp s (clusterPoints n lab c, tree c) =
      some ⟨scatter s.labels ((clusterPoints n lab c).map fun p =>
          (p, (if Merged n lab branch k tree c then 0 else branch p + noiseFlag n lab branch c) + s.runningId)),
        scatter s.probs ((clusterPoints n lab c).map fun p => (p, if Merged n lab branch k tree c then cp p else s.probs p)),
        s.runningId + if Merged n lab branch k tree c then 1 else labelCount n lab branch c⟩ := by
  unfold branchStep
  have h1 : (clusterPoints n lab c).map branch = locals n lab branch c := rfl
  simp only [h1]
  cases h : npUnique (locals n lab branch c) with
  | nil =>
    rw [npUnique_eq_nil] at h
    exact absurd (List.map_eq_nil_iff.1 h) hne
  | cons u us =>
    have hflag : noiseFlag n lab branch c = if u = -1 then 1 else 0 := by unfold noiseFlag; rw [h]; simp
    have hcount : labelCount n lab branch c = ((u :: us).length : ℕ) := by unfold labelCount; rw [h]
    have hbc := branchCount_eq hd.ge h
    by_cases hm : Merged n lab branch k tree c
    · have hm' := hm
      unfold Merged at hm'
      simp only [hm, if_true, hbc, hm', and_self, zero_add]
    · have hm' := hm
      unfold Merged at hm'
      simp only [hm, hbc, hm', if_false, hflag, hcount]
      have hself : scatter s.probs ((clusterPoints n lab c).map fun p => (p, s.probs p)) = s.probs := by
        funext i
        rw [scatter_map _ _ (clusterPoints_nodup n lab c)]
        split_ifs <;> rfl
      rw [hself]
      congr 2
      · push_cast
        rfl
      · rw [← hbc]
        have : (if u = -1 then 1 else 0) ≤ (u :: us).length := by split_ifs <;> simp
        rw [Nat.sub_add_cancel this]

theorem branchLoop_spec {n : ℕ} {lab branch : ℕ → ℤ} {cp : ℕ → P} {k : ℕ} {tree : ℤ → Bool} (cs : List ℤ) (hnd : cs.Nodup)
    (hne : ∀ c ∈ cs, clusterPoints n lab c ≠ []) (hd : ∀ c ∈ cs, DenseLabels (locals n lab branch c)) (s : BranchArrays P) :
    ∃ s', branchLoop k branch cp (cs.map fun c => (clusterPoints n lab c, tree c)) s = some s' ∧
      (s'.labels, s'.runningId) = offsetLoop n lab (fun c p => if Merged n lab branch k tree c then 0 else branch p + noiseFlag n lab branch c)
        (fun c => if Merged n lab branch k tree c then 1 else labelCount n lab branch c) cs (s.labels, s.runningId) ∧
      ∀ i, (i < n ∧ lab i ∈ cs → s'.probs i = if Merged n lab branch k tree (lab i) then cp i else s.probs i) ∧
        (¬ (i < n ∧ lab i ∈ cs) → s'.probs i = s.probs i) := by
  induction cs generalizing s with
  | nil => exact ⟨s, rfl, rfl, fun i => ⟨fun h => by simp at h, fun _ => rfl⟩⟩
  | cons c cs ih =>
    obtain ⟨hc, hnd'⟩ := List.nodup_cons.1 hnd
    rw [List.map_cons]
    unfold branchLoop
    rw [branchStep_eq (hne c (by simp)) (hd c (by simp)) s, Option.bind_some]
    have hcp := clusterPoints_nodup n lab c
    obtain ⟨s', e1, e2, e3⟩ := ih hnd' (fun c hc => hne c (by simp [hc])) (fun c hc => hd c (by simp [hc])) ⟨_, _, _⟩
    refine ⟨s', e1, e2, fun i => ?_⟩
    obtain ⟨f1, f2⟩ := e3 i
    simp only [scatter_map _ _ hcp] at f1 f2
    by_cases hi : i < n ∧ lab i ∈ cs
    · have g := f1 hi
      rw [if_neg (fun h => hc ((mem_clusterPoints.1 h).2 ▸ hi.2) : i ∉ clusterPoints n lab c)] at g
      exact ⟨fun _ => g, fun h => absurd ⟨hi.1, by simp [hi.2]⟩ h⟩
    · have g := f2 hi
      by_cases hm : i ∈ clusterPoints n lab c
      · rw [if_pos hm] at g
        obtain ⟨m1, m2⟩ := mem_clusterPoints.1 hm
        refine ⟨fun _ => ?_, fun h => absurd ⟨m1, by simp [m2]⟩ h⟩
        rw [m2]; exact g
      · rw [if_neg hm] at g
        refine ⟨fun h => ?_, fun _ => g⟩
        rcases List.mem_cons.1 h.2 with h2 | h2
        · exact absurd (mem_clusterPoints.2 ⟨h.1, h2⟩) hm
        · exact absurd ⟨h.1, h2⟩ hi

end Verif
