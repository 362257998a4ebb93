import Verif.Spec.RawFit
import Verif.Props.Fit
import Verif.Props.TopCluster
import Verif.Props.FlatDbscan
import Verif.Props.SameTree

/-!
# C97: from the rows of the data to the labels; C98: the stored spanning tree
-/

namespace Verif
variable {W K α β : Type*}

section
variable [Field K] [LinearOrder K] [IsStrictOrderedRing K] [LinearOrder W] [OrderTop W] [Inhabited W] [Inhabited K]

/-- A cluster holds together at a length at which nothing outside is nearer. -/
theorem Clustered.sandwich {n : ℕ} (hn : 2 ≤ n) {wt : ℕ → K} {g f b t : List (Edge W)} (hf : MinSpanningForest g f)
    (hb : ∀ e ∈ b, e.w = ⊤) (ht : SpanningTree n t) (hp : t.Perm (f ++ b))
    {o : ClusterOpts K} (h1 : 1 < o.minClusterSize) (h0 : ∀ x, x < n → 0 ≤ wt x)
    (hl : ∀ x, x < n → wt x < o.minClusterSize) {lam : W → K} (hlam : Antitone lam)
    {r : ClusterResult W K} (hfin : (∀ e ∈ t, lam e.w ≠ 0) ∨ o.persistence ≤ 0 ∧ (∀ d, lam d = 0 ↔ d = ⊤) ∧
      ∀ (x y : ℕ) (i : ℤ), 0 ≤ i → r.labels[x]? = some i → r.labels[y]? = some i → Conn (below ⊤ t) x y)
    (hr : Clustered n lam wt o t r) (htop : n ∉ r.selected) {i : ℤ} (hi : i ∈ r.labels) (hi0 : i ≠ -1) :
    0 ≤ i ∧ ∃ τ : W,
      (∀ x y, r.labels[x]? = some i → r.labels[y]? = some i →
        Conn (t.filter fun e => decide ((r.labels[e.u]? = some i ∧ r.labels[e.v]? = some i) ∧ e.w ≤ τ)) x y) ∧
      ∀ x y, r.labels[x]? = some i → y < n → Conn (below τ g) x y → r.labels[y]? = some i := by
  obtain ⟨hlab, hi1, m, hm, hc⟩ := Clustered.component hn ht h1 h0 hl hlam hfin hr htop hi hi0
  have hperm := lexsortMst_perm t
  have hsort := lexsortMst_sorted t
  have hlt : ∀ {z}, r.labels[z]? = some i → z < n := fun h => by rw [← hlab]; exact (List.getElem?_eq_some_iff.1 h).1
  have hsub : ∀ e ∈ (lexsortMst t).take m, e ∈ t := fun e he => hperm.mem_iff.1 (List.mem_of_mem_take he)
  have hm' : m < (lexsortMst t).length := by rw [hperm.length_eq]; exact hm
  have hsplit : (lexsortMst t).take m ++ (lexsortMst t)[m] :: (lexsortMst t).drop (m + 1) = lexsortMst t := by
    rw [List.getElem_cons_drop, List.take_append_drop]
  have hs2 := hsort
  rw [← hsplit, List.pairwise_append, List.pairwise_cons] at hs2
  refine ⟨hi1, (lexsortMst t)[m].w, fun x y hx hy => ?_, fun x y hx hy hxy => ?_⟩
  · have hin := Conn.inside (fun _ h => h) (fun z => r.labels[z]? = some i) ((hc x y hx (hlt hy)).1 hy) fun z hz => by
      have hzn : z < n := by
        rcases hz.inRange (fun e he => ht.inRange e (hsub e he)) with h | h
        · exact h ▸ hlt hx
        · exact h.2
      exact (hc x z hx hzn).2 hz
    refine hin.mono fun e he => ?_
    obtain ⟨he1, he2⟩ := List.mem_filter.1 he
    exact List.mem_filter.2 ⟨hsub e he1, decide_eq_true ⟨of_decide_eq_true he2, hs2.2.2 e he1 _ List.mem_cons_self⟩⟩
  · rw [← hf.conn_below] at hxy
    refine (hc x y hx hy).2 (hxy.mono fun e he => ?_)
    obtain ⟨h6, h7⟩ := mem_below.1 he
    have hmem : e ∈ lexsortMst t := hperm.mem_iff.2 (hp.mem_iff.2 (List.mem_append_left _ h6))
    rw [← hsplit, List.mem_append, List.mem_cons] at hmem
    rcases hmem with h | rfl | h
    · exact h
    · exact absurd h7 (lt_irrefl _)
    · exact absurd h7 (not_lt.2 (hs2.2.1.1 e h))

/-! ### Rows -/

omit [Inhabited W] in
theorem rowDist_eq {dist : α → α → W} {P : List α} {i j : ℕ} {x y : α} (hx : P[i]? = some x) (hy : P[j]? = some y) : rowDist dist P i j = dist x y := by
  unfold rowDist
  rw [hx, hy]

omit [Inhabited W] in
theorem rowDist_core [Zero W] {dist : α → α → W} {P : List α} {ms i : ℕ} {x : α} (hx : P[i]? = some x) :
    (if ms ≤ 1 then 0 else (((List.range P.length).map (rowDist dist P i)).insertionSort (· ≤ ·)).getD ms ⊤) = coreOf dist P ms x := by
  unfold coreOf
  have : (List.range P.length).map (rowDist dist P i) = P.map (dist x) := by
    apply List.ext_getElem?
    intro j
    by_cases hj : j < P.length
    · rw [List.getElem?_map, List.getElem?_range hj, List.getElem?_map, List.getElem?_eq_getElem hj]
      simp only [Option.map_some]
      rw [rowDist_eq hx (List.getElem?_eq_getElem hj)]
    · rw [List.getElem?_eq_none (by simpa using hj), List.getElem?_eq_none (by simpa using hj)]
  rw [this]

/-- The `k`-th finite row. -/
theorem finite_row {finite : α → Bool} {X : List α} {k : ℕ} {x : α} (hk : (X.filter finite)[k]? = some x) :
    ∃ i, X[i]? = some x ∧ finite x = true ∧ (X.take i).countP finite = k := by
  induction X using List.reverseRecOn with
  | nil => simp at hk
  | append_singleton X y ih =>
    rw [List.filter_append] at hk
    by_cases h : k < (X.filter finite).length
    · rw [List.getElem?_append_left h] at hk
      obtain ⟨i, h1, h2, h3⟩ := ih hk
      have hi := (List.getElem?_eq_some_iff.1 h1).1
      exact ⟨i, by rw [List.getElem?_append_left hi]; exact h1, h2, by rw [List.take_append_of_le_length (by omega)]; exact h3⟩
    · rw [List.getElem?_append_right (by omega)] at hk
      cases hf : finite y with
      | false => simp [hf] at hk
      | true =>
        rw [List.filter_singleton, hf] at hk
        have hk0 : k - (X.filter finite).length = 0 := by
          have := (List.getElem?_eq_some_iff.1 hk).1; simpa using this
        rw [hk0] at hk
        simp at hk
        subst hk
        refine ⟨X.length, by simp, hf, ?_⟩
        rw [List.take_append_of_le_length le_rfl, List.take_length, List.countP_eq_length_filter]
        omega

/-- Number of the row `i` among the finite rows. -/
theorem finite_pos {finite : α → Bool} {X : List α} {i : ℕ} {x : α} (hx : X[i]? = some x) (hf : finite x = true) :
    (X.filter finite)[(X.take i).countP finite]? = some x := by
  have h := finiteIndex_pos hx hf
  rw [← takeRows_finite, takeRows_get (fun j hj => finiteIndex_lt hj), h]
  exact hx

theorem finite_pos_inj {finite : α → Bool} {X : List α} {i j : ℕ} {x y : α} (hx : X[i]? = some x) (hf : finite x = true) (hy : X[j]? = some y)
    (hf' : finite y = true) (h : (X.take i).countP finite = (X.take j).countP finite) : i = j := by
  have h1 := finiteIndex_pos hx hf
  have h2 := finiteIndex_pos hy hf'
  rw [h, h2, Option.some.injEq] at h1
  exact h1.symm

theorem count_eq_card (l : ℤ) (as : List ℤ) : ((Finset.range as.length).filter fun x => as[x]? = some l).card = as.count l := by
  induction as using List.reverseRecOn with
  | nil => rfl
  | append_singleton as a ih =>
    rw [List.length_append, List.length_singleton, Finset.range_add_one, Finset.filter_insert, List.count_append]
    have e : (Finset.range as.length).filter (fun x => (as ++ [a])[x]? = some l) = (Finset.range as.length).filter fun x => as[x]? = some l :=
      Finset.filter_congr fun x hx => by rw [List.getElem?_append_left (Finset.mem_range.1 hx)]
    rw [e]
    by_cases ha : a = l
    · subst ha
      rw [if_pos (by simp), Finset.card_insert_of_notMem (by simp), ih, List.count_singleton_self]
    · rw [if_neg (by simpa using ha), ih, List.count_singleton, if_neg (by simpa using ha), add_zero]

theorem side_units (finite : α → Bool) (X : List α) :
    ((X.zip (X.map fun _ => ())).filter fun p => finite p.1).map Prod.snd = (X.filter finite).map fun _ => () := by
  induction X with
  | nil => rfl
  | cons x X ih =>
    rw [List.map_cons, List.zip_cons_cons, List.filter_cons, List.filter_cons]
    cases finite x with
    | false => exact ih
    | true => simpa only [if_true, List.map_cons, List.cons.injEq, true_and] using ih

omit [Inhabited W] in
theorem rowReach_comm [Zero W] {dist : α → α → W} (hsym : ∀ x y, dist x y = dist y x) (P : List α) (ms : ℕ) (x y : α) :
    rowReach dist P ms x y = rowReach dist P ms y x := by
  unfold rowReach
  rw [hsym x y, max_right_comm]

theorem finite_side {finite : α → Bool} {X : List α} {side : List β} (hside : side.length = X.length) {i : ℕ} {x : α} (hx : X[i]? = some x)
    (hf : finite x = true) : (((X.zip side).filter fun p => finite p.1).map Prod.snd)[(X.take i).countP finite]? = side[i]? := by
  rw [← takeRows_side finite X side hside, takeRows_get (fun j hj => by rw [hside]; exact finiteIndex_lt hj), finiteIndex_pos hx hf]
  rfl

/-- Whatever clusters the finite rows: what `fit` returns is a sound clustering, unless the whole data set is selected. -/
theorem fit_sound_with {lam : W → K} (hlam : Antitone lam) (hpos : ∀ d, 0 ≤ lam d)
    {finite : α → Bool} {reach : α → α → W} (hsym : ∀ x y, reach x y = reach y x) {X : List α} {side : List β} (hside : side.length = X.length)
    (h2 : 2 ≤ (X.filter finite).length) {wt : β → K} {o : ClusterOpts K} (h1 : 1 < o.minClusterSize)
    (hw0 : ∀ b ∈ side, 0 ≤ wt b ∧ wt b < o.minClusterSize)
    {t : List (Edge W)} (hspan : SpanningTree (X.filter finite).length t)
    (hmin : MinSpanningForest (completeGraph (X.filter finite).length (rowDist reach (X.filter finite))) t)
    {outliers : List ℕ} (hout : outliers.Perm ((List.range X.length).filter fun i => !(X[i]?.map finite).getD false))
    {cluster : List α → List β → Option (ClusterResult W K)}
    (hcl : ∀ r1, cluster (X.filter finite) (((X.zip side).filter fun p => finite p.1).map Prod.snd) = some r1 →
      Clustered (X.filter finite).length lam (fun i => ((((X.zip side).filter fun p => finite p.1).map Prod.snd)[i]?.map wt).getD 1) o t r1 ∧
      ((X.filter finite).length ∉ r1.selected → (∀ e ∈ t, lam e.w ≠ 0) ∨ o.persistence ≤ 0 ∧ (∀ d, lam d = 0 ↔ d = ⊤) ∧
        ∀ (x y : ℕ) (i : ℤ), 0 ≤ i → r1.labels[x]? = some i → r1.labels[y]? = some i → Conn (below ⊤ t) x y))
    {r : FitResult W K} (hr : fitModel finite (fastWith cluster) outliers X side = .ok r) :
    ∃ r1, cluster (X.filter finite) (((X.zip side).filter fun p => finite p.1).map Prod.snd) = some r1 ∧
      LabelledRows finite X r.labels r.strengths ∧
      ((X.filter finite).length ∉ r1.selected →
        SoundGroups finite reach (fun i => (side[i]?.map wt).getD 1) o.minClusterSize X r.labels r.strengths) ∧
      ((X.filter finite).length ∈ r1.selected → ∀ l ∈ r.labels, l = -1 ∨ l = 0) := by
  classical
  set P := X.filter finite with hP
  set sideP := ((X.zip side).filter fun p => finite p.1).map Prod.snd with hsP
  set n := P.length with hn
  have hcore : ∀ r0, fastWith cluster P sideP = .ok r0 →
      ∃ r1, cluster P sideP = some r1 ∧ r0 = ⟨r1.labels, (List.range n).map r1.strengths, r1.linkage, r1.condensed⟩ := by
    intro r0 hr0
    unfold fastWith at hr0
    rw [if_neg (not_lt.2 h2)] at hr0
    cases hc : cluster P sideP with
    | none => rw [hc] at hr0; cases hr0
    | some r1 =>
      rw [hc] at hr0
      exact ⟨r1, rfl, (Except.ok.inj hr0).symm⟩
  obtain ⟨r0, hr0, hlen0, hlen1, hlen2, hrows⟩ := nonfinite_rows hside (fun r0 h => by
    obtain ⟨r1, h3, rfl⟩ := hcore r0 h
    obtain ⟨k, _, _, _, _, _, _, hmean, _⟩ := (hcl r1 h3).1.tree
    exact ⟨hmean.1, by simp [hn, hP]⟩) hout hr
  obtain ⟨r1, hr1, rfl⟩ := hcore r0 hr0
  obtain ⟨hcl1, hfin⟩ := hcl r1 hr1
  set wtP : ℕ → K := fun i => (sideP[i]?.map wt).getD 1 with hwtP
  have hside' : ∀ b ∈ sideP, b ∈ side := by
    intro b hb
    obtain ⟨q, hq, rfl⟩ := List.mem_map.1 hb
    exact (List.of_mem_zip (show (q.1, q.2) ∈ _ from (List.mem_filter.1 hq).1)).2
  have hwt : ∀ i, 0 ≤ wtP i ∧ wtP i < o.minClusterSize := by
    intro i
    simp only [hwtP]
    cases hi : sideP[i]? with
    | none => exact ⟨zero_le_one, h1⟩
    | some b => exact hw0 b (hside' b (List.mem_of_getElem? hi))
  obtain ⟨k, hct, -, hnn, hrange, -, -, hmean, hstr⟩ := hcl1.tree
  simp only at hlen0 hrows
  -- a label other than noise belongs to a finite row
  have hback : ∀ {i : ℕ} {l : ℤ}, r.labels[i]? = some l → l ≠ -1 →
      ∃ x, X[i]? = some x ∧ finite x = true ∧ P[(X.take i).countP finite]? = some x ∧ r1.labels[(X.take i).countP finite]? = some l := by
    intro i l hl hl0
    have hi : i < X.length := by rw [← hlen1]; exact (List.getElem?_eq_some_iff.1 hl).1
    have hx := List.getElem?_eq_getElem hi
    cases hf : finite X[i] with
    | false =>
      rw [((hrows i _ hx).1 hf).1, Option.some.injEq] at hl
      exact absurd hl.symm hl0
    | true =>
      refine ⟨_, hx, hf, finite_pos hx hf, ?_⟩
      rw [← ((hrows i _ hx).2 hf).1]; exact hl
  have hforth : ∀ {k : ℕ} {l : ℤ}, r1.labels[k]? = some l →
      ∃ i x, X[i]? = some x ∧ finite x = true ∧ (X.take i).countP finite = k ∧ P[k]? = some x ∧ r.labels[i]? = some l := by
    intro k l hl
    have hk : k < n := by rw [hn, ← hlen0]; exact (List.getElem?_eq_some_iff.1 hl).1
    obtain ⟨i, h3, h4, h5⟩ := finite_row (List.getElem?_eq_getElem hk)
    refine ⟨i, _, h3, h4, h5, List.getElem?_eq_getElem hk, ?_⟩
    rw [((hrows i _ h3).2 h4).1, h5]; exact hl
  have hlabelled : LabelledRows finite X r.labels r.strengths := by
    refine ⟨⟨hlen1, hlen2⟩, fun i x hx hf => (hrows i x hx).1 hf, fun i s hs => ?_⟩
    have hi : i < X.length := by rw [← hlen2]; exact (List.getElem?_eq_some_iff.1 hs).1
    have hx := List.getElem?_eq_getElem hi
    cases hf : finite X[i] with
    | false =>
      rw [((hrows i _ hx).1 hf).2, Option.some.injEq] at hs
      subst hs
      exact ⟨le_rfl, zero_le_one, fun _ => rfl⟩
    | true =>
      have hp := finite_pos hx hf
      have hlt : (X.take i).countP finite < n := (List.getElem?_eq_some_iff.1 hp).1
      rw [((hrows i _ hx).2 hf).2, List.getElem?_map, List.getElem?_range hlt] at hs
      simp only [Option.map_some, Option.some.injEq] at hs
      subst hs
      rw [((hrows i _ hx).2 hf).1]
      exact hstr _ hlt
  refine ⟨r1, hr1, hlabelled, fun htop => ⟨hlabelled, fun l hl hl0 => ?_, fun l hl hl0 => ?_⟩, fun htop l hl => ?_⟩
  · obtain ⟨i, hi⟩ := List.mem_iff_getElem?.1 hl
    obtain ⟨x, hx, hf, hp, hl1⟩ := hback hi hl0
    have hsw := Clustered.sandwich h2 hmin (b := []) (by simp) hspan (by simp) h1 (fun x _ => (hwt x).1) (fun x _ => (hwt x).2) hlam
      (hfin htop) hcl1 htop (List.mem_of_getElem? hl1) hl0
    refine ⟨hsw.1, ?_⟩
    have hw : o.minClusterSize ≤ ((Finset.range n).filter fun x => r1.labels[x]? = some l).sum wtP := by
      rcases hfin htop with hfe | ⟨hper, _⟩
      · obtain ⟨_, hb, hw⟩ := Clustered.weight h2 hspan h1 (fun x _ => (hwt x).1) (fun x _ => (hwt x).2) hlam hfe hcl1 htop
        have := hb l (List.mem_of_getElem? hl1)
        exact (hw l (by omega) this.2).2
      · exact Clustered.used h2 hspan h1 (fun x _ => (hwt x).1) (fun x _ => (hwt x).2) hlam hpos hper hcl1 hl0 (List.mem_of_getElem? hl1)
    refine hw.trans ?_
    -- the rows of the label, numbered among the finite rows
    have hsubset : ((Finset.range n).filter fun x => r1.labels[x]? = some l) ⊆
        ((Finset.range X.length).filter fun x => r.labels[x]? = some l).image fun i => (X.take i).countP finite := by
      intro k hk
      obtain ⟨i, x, h3, h4, h5, _, h6⟩ := hforth (Finset.mem_filter.1 hk).2
      exact Finset.mem_image.2 ⟨i, Finset.mem_filter.2 ⟨Finset.mem_range.2 (List.getElem?_eq_some_iff.1 h3).1, h6⟩, h5⟩
    refine (Finset.sum_le_sum_of_subset_of_nonneg hsubset fun i _ _ => (hwt i).1).trans (le_of_eq ?_)
    rw [Finset.sum_image]
    · refine Finset.sum_congr rfl fun i hi => ?_
      obtain ⟨x, hx, hf, _⟩ := hback (Finset.mem_filter.1 hi).2 hl0
      simp only [hwtP]
      rw [hsP, finite_side hside hx hf]
    · intro i hi j hj hij
      obtain ⟨x, hx, hf, _⟩ := hback (Finset.mem_filter.1 hi).2 hl0
      obtain ⟨y, hy, hf', _⟩ := hback (Finset.mem_filter.1 hj).2 hl0
      exact finite_pos_inj hx hf hy hf' hij
  · obtain ⟨i, hi⟩ := List.mem_iff_getElem?.1 hl
    obtain ⟨x, hx, hf, hp, hl1⟩ := hback hi hl0
    obtain ⟨_, τ, hin, hnear⟩ := Clustered.sandwich h2 hmin (b := []) (by simp) hspan (by simp) h1 (fun x _ => (hwt x).1) (fun x _ => (hwt x).2) hlam
      (hfin htop) hcl1 htop (List.mem_of_getElem? hl1) hl0
    refine ⟨τ, fun a c ha hc => ?_, fun a c ha hac => ?_⟩
    · obtain ⟨xa, ha1, ha2, ha3, ha4⟩ := hback ha hl0
      obtain ⟨xc, hc1, hc2, hc3, hc4⟩ := hback hc hl0
      have hconn := hin _ _ ha4 hc4
      clear ha hc hc3 ha3
      have key : ∀ k, Conn (t.filter fun e => decide ((r1.labels[e.u]? = some l ∧ r1.labels[e.v]? = some l) ∧ e.w ≤ τ)) ((X.take a).countP finite) k →
          r1.labels[k]? = some l → ∀ c xc, X[c]? = some xc → finite xc = true → (X.take c).countP finite = k →
          Relation.ReflTransGen (fun a b : ℕ => r.labels[a]? = some l ∧ r.labels[b]? = some l ∧ RowsWithin finite reach X (· ≤ τ) a b) a c := by
        intro k hk
        induction hk with
        | refl =>
          intro _ c xc h3 h4 h5
          rw [finite_pos_inj h3 h4 ha1 ha2 h5]
        | @tail k k' _ hs ih =>
          intro hk' c xc h3 h4 h5
          obtain ⟨e, he, hends⟩ := hs
          obtain ⟨het, hd⟩ := List.mem_filter.1 he
          obtain ⟨⟨hu, hv⟩, hw⟩ := of_decide_eq_true hd
          have hkl : r1.labels[k]? = some l := by
            rcases hends with ⟨rfl, rfl⟩ | ⟨rfl, rfl⟩
            · exact hu
            · exact hv
          obtain ⟨b, xb, g1, g2, g3, g4, g5⟩ := hforth hkl
          refine (ih hkl b xb g1 g2 g3).tail ⟨g5, ?_, xb, xc, g1, h3, g2, h4, ?_⟩
          · rw [((hrows c _ h3).2 h4).1, h5]; exact hk'
          · have hew := (mem_completeGraph.1 (hmin.forest.sub.subset het)).2.2.2
            have hpc := finite_pos h3 h4
            rw [h5] at hpc
            rcases hends with ⟨rfl, rfl⟩ | ⟨rfl, rfl⟩
            · rw [rowDist_eq g4 hpc] at hew
              rw [← hew]; exact hw
            · rw [rowDist_eq hpc g4] at hew
              rw [hsym, ← hew]; exact hw
      exact key _ hconn hc4 c xc hc1 hc2 rfl
    · obtain ⟨xa, ha1, ha2, ha3, ha4⟩ := hback ha hl0
      obtain ⟨x', y', g1, g2, g3, g4, g5⟩ := hac
      rw [ha1, Option.some.injEq] at g1
      subst g1
      have hcp := finite_pos g2 g4
      rw [((hrows c _ g2).2 g4).1]
      refine hnear _ _ ha4 (List.getElem?_eq_some_iff.1 hcp).1 ?_
      by_cases he : (X.take a).countP finite = (X.take c).countP finite
      · rw [he]; exact Conn.refl _ _
      · refine Conn.edge (e := ⟨(X.take a).countP finite, (X.take c).countP finite, reach xa y'⟩) (mem_below.2 ⟨mem_completeGraph.2
          ⟨(List.getElem?_eq_some_iff.1 ha3).1, (List.getElem?_eq_some_iff.1 hcp).1, he, ?_⟩, g5⟩)
        exact (rowDist_eq (dist := reach) ha3 hcp).symm
  · by_cases hl0 : l = -1
    · exact .inl hl0
    · right
      obtain ⟨i, hi⟩ := List.mem_iff_getElem?.1 hl
      obtain ⟨x, hx, hf, hp, hl1⟩ := hback hi hl0
      have hlt : (X.take i).countP finite < n := (List.getElem?_eq_some_iff.1 hp).1
      obtain ⟨row, hrow, hrc⟩ := List.mem_map.1 ((hct.children _).2 (.inl hlt))
      have hm := hmean.2 row hrow (by rw [hrc]; exact hlt)
      rw [hrc] at hm
      have hge := hm.2.2 l hl1
      obtain ⟨j, rfl⟩ := Int.eq_ofNat_of_zero_le (show 0 ≤ l by omega)
      have := ((hm.2.1 htop j).1 hl1).1
      omega

/-- What `fit` returns is a sound clustering, unless the whole data set is selected. -/
theorem fit_sound [Zero W] {lam : W → K} (hlam : Antitone lam) (hpos : ∀ d, 0 ≤ lam d) (hzero : ∀ d, lam d = 0 ↔ d = ⊤)
    {finite : α → Bool} {dist : α → α → W} (hsym : ∀ x y, dist x y = dist y x) {ms mcs : ℕ} (hmcs : 2 ≤ mcs) {X : List α} (h2 : 2 ≤ (X.filter finite).length)
    {mst : List α → List Unit → List (Edge W)}
    (hspan : SpanningTree (X.filter finite).length (mst (X.filter finite) ((X.filter finite).map fun _ => ())))
    (hmin : MinSpanningForest (completeGraph (X.filter finite).length (rowDist (rowReach dist (X.filter finite) ms) (X.filter finite)))
      (mst (X.filter finite) ((X.filter finite).map fun _ => ())))
    {outliers : List ℕ} (hout : outliers.Perm ((List.range X.length).filter fun i => !(X[i]?.map finite).getD false))
    {o : ClusterOpts K} (ho : o.minClusterSize = mcs)
    (hper : o.persistence ≤ 0 ∨ ∀ e ∈ mst (X.filter finite) ((X.filter finite).map fun _ => ()), e.w ≠ ⊤)
    {r : FitResult W K} (hr : fitModel finite (fastHdbscan lam mst (fun _ => 1) o) outliers X (X.map fun _ => ()) = .ok r) :
    ∃ r1, clustersFromMst lam (fun _ => 1) o (mst (X.filter finite) ((X.filter finite).map fun _ => ())) = some r1 ∧
      LabelledRows finite X r.labels r.strengths ∧ ((X.filter finite).length ∉ r1.selected → SoundClustering finite dist ms mcs X r.labels r.strengths) ∧
      ((X.filter finite).length ∈ r1.selected → ∀ l ∈ r.labels, l = -1 ∨ l = 0) := by
  have hmK : (1 : K) < o.minClusterSize := by rw [ho]; exact_mod_cast hmcs
  have hsd : ((X.zip (X.map fun _ => ())).filter fun p => finite p.1).map Prod.snd = (X.filter finite).map fun _ => () := side_units finite X
  have hwt : (fun i : ℕ => ((((X.filter finite).map fun _ => ())[i]?).map fun _ : Unit => (1 : K)).getD 1) = fun _ => 1 := by
    funext i
    cases ((X.filter finite).map fun _ => ())[i]? <;> rfl
  obtain ⟨r1, h3, h4, h5, h6⟩ := fit_sound_with (wt := fun _ => (1 : K)) hlam hpos (rowReach_comm hsym (X.filter finite) ms) (by simp) h2 hmK
    (fun _ _ => ⟨zero_le_one, hmK⟩) hspan hmin hout (fun r1 h3 => by
      rw [hsd] at h3 ⊢
      rw [hwt] at h3 ⊢
      refine ⟨clustered_of_mst h2 hspan hmK (fun _ _ => zero_le_one) (fun _ _ => hmK) hlam hpos h3, fun htop => ?_⟩
      rcases hper with h | h
      · exact .inr ⟨h, hzero, fun _ _ _ hi hx hy =>
          same_label_connected h2 hspan hmK (fun _ _ => zero_le_one) (fun _ _ => hmK) hlam hpos hzero h h3 (.inl htop) hi hx hy⟩
      · exact .inl fun e he h0 => h e he ((hzero _).1 h0)) hr
  rw [hsd, hwt] at h3
  refine ⟨r1, h3, h4, fun htop => ?_, h6⟩
  obtain ⟨s1, s2, s3⟩ := h5 htop
  refine ⟨s1, fun l hl hl0 => ⟨(s2 l hl hl0).1, ?_⟩, s3⟩
  have hw := (s2 l hl hl0).2
  have e1 : ∀ i : ℕ, (((X.map fun _ => ())[i]?).map fun _ : Unit => (1 : K)).getD 1 = 1 := fun i => by cases (X.map fun _ => ())[i]? <;> rfl
  simp only [e1] at hw
  rw [Finset.sum_const, nsmul_eq_mul, mul_one, ho] at hw
  rw [← count_eq_card, s1.length.1]
  exact_mod_cast hw

/-- **C97** for any way to compute the spanning tree: if it gives a minimum spanning tree of the mutual reachability distances between the finite rows, then
`fit` with default selection options returns, and the labels and strengths are a sound clustering of the rows of the data. -/
theorem C97_fit_any_tree_partial [Zero W] (lam : W → K) (hlam : Antitone lam) (hpos : ∀ d, 0 ≤ lam d) (hzero : ∀ d, lam d = 0 ↔ d = ⊤)
    (finite : α → Bool) (dist : α → α → W) (hsym : ∀ x y, dist x y = dist y x) (ms mcs : ℕ) (hmcs : 2 ≤ mcs) (X : List α) (h2 : 2 ≤ (X.filter finite).length)
    (mst : List α → List Unit → List (Edge W))
    (hspan : SpanningTree (X.filter finite).length (mst (X.filter finite) ((X.filter finite).map fun _ => ())))
    (hmin : MinSpanningForest (completeGraph (X.filter finite).length (rowDist (rowReach dist (X.filter finite) ms) (X.filter finite)))
      (mst (X.filter finite) ((X.filter finite).map fun _ => ())))
    (outliers : List ℕ) (hout : outliers.Perm ((List.range X.length).filter fun i => !(X[i]?.map finite).getD false))
    (o : ClusterOpts K) (ho : o.minClusterSize = mcs) (hsingle : o.allowSingle = false) (hmx : o.maxClusterSize = none) (heps : o.epsilon ≤ 0)
    (hper : o.persistence ≤ 0) :
    ∃ r, fitModel finite (fastHdbscan lam mst (fun _ => 1) o) outliers X (X.map fun _ => ()) = .ok r ∧
      SoundClustering finite dist ms mcs X r.labels r.strengths := by
  classical
  have hside : (X.map fun _ => ()).length = X.length := by simp
  have hsd : ((X.zip (X.map fun _ => ())).filter fun p => finite p.1).map Prod.snd = (X.filter finite).map fun _ => () := side_units finite X
  have hmK : (1 : K) < o.minClusterSize := by rw [ho]; exact_mod_cast hmcs
  have hwt : (fun i : ℕ => ((((X.filter finite).map fun _ => ())[i]?).map fun _ : Unit => (1 : K)).getD 1) = fun _ => 1 := by
    funext i
    cases ((X.filter finite).map fun _ => ())[i]? <;> rfl
  have hfit : o.method = .leaf ∨ ∀ rows : List (CRow K K), simplifyIf o.persistence (condenseTree (Hier.ofRows (mstToLinkage (fun _ => 1) (lexsortMst
      (mst (X.filter finite) ((X.filter finite).map fun _ => ()))))) (fun _ => 1) o.minClusterSize none lam) = some rows →
      LeavesFit (X.filter finite).length o.maxClusterSize rows := .inr fun rows _ m hm => by rw [hmx] at hm; simp at hm
  obtain ⟨r1, k, hr1, -⟩ := C63_clustering_total_partial _ h2 (fun _ => 1) _ hspan o hmK (fun _ _ => zero_le_one)
    (fun _ _ => hmK) lam hlam hpos (.inl hper) hfit
  have hfast : ∃ r0, fastHdbscan lam mst (fun _ => 1) o (X.filter finite) ((X.filter finite).map fun _ => ()) = .ok r0 := by
    unfold fastHdbscan fastWith
    rw [if_neg (by omega)]
    beta_reduce
    rw [hwt, hr1]
    exact ⟨_, rfl⟩
  obtain ⟨r, hr⟩ := (C31_returns lam mst (fun _ => 1) o finite X _ hside outliers hout h2 (by rw [hsd]; exact hspan)
    (fun _ _ => ⟨zero_le_one, hmK⟩) hmK (.inl hper)).2 (by rw [hsd]; exact hfast)
  obtain ⟨r1', hr1', -, hsound, -⟩ := fit_sound hlam hpos hzero hsym hmcs h2 hspan hmin hout ho (.inl hper) hr
  exact ⟨r, hr, hsound (C96_no_epsilon _ h2 (fun _ => 1) _ hspan o hmK (fun _ _ => zero_le_one) (fun _ _ => hmK) lam hlam hpos (.inl hper) hfit
    (.inr hsingle) heps hr1').1⟩

/-- **C97** (partial), other options: whenever `fit` returns, for any `allow_single_cluster`, `max_cluster_size`, epsilon and persistence, there is one label and
one strength per row, and the clustering is sound; or else `allow_single_cluster` or an epsilon is given and there is at most one label besides noise.
Missing: in that case the cluster may be apart (`C74_top_cluster_apart`); infinite edges together with a positive persistence. -/
theorem C97_fit_options_partial [Zero W] (lam : W → K) (hlam : Antitone lam) (hpos : ∀ d, 0 ≤ lam d) (hzero : ∀ d, lam d = 0 ↔ d = ⊤)
    (finite : α → Bool) (dist : α → α → W) (hsym : ∀ x y, dist x y = dist y x) (ms mcs : ℕ) (hmcs : 2 ≤ mcs) (X : List α) (h2 : 2 ≤ (X.filter finite).length)
    (mst : List α → List Unit → List (Edge W))
    (hspan : SpanningTree (X.filter finite).length (mst (X.filter finite) ((X.filter finite).map fun _ => ())))
    (hmin : MinSpanningForest (completeGraph (X.filter finite).length (rowDist (rowReach dist (X.filter finite) ms) (X.filter finite)))
      (mst (X.filter finite) ((X.filter finite).map fun _ => ())))
    (outliers : List ℕ) (hout : outliers.Perm ((List.range X.length).filter fun i => !(X[i]?.map finite).getD false))
    (o : ClusterOpts K) (ho : o.minClusterSize = mcs)
    (hper : o.persistence ≤ 0 ∨ ∀ x ∈ X, ∀ y ∈ X, rowReach dist (X.filter finite) ms x y ≠ ⊤)
    (r : FitResult W K) (hr : fitModel finite (fastHdbscan lam mst (fun _ => 1) o) outliers X (X.map fun _ => ()) = .ok r) :
    LabelledRows finite X r.labels r.strengths ∧ (SoundClustering finite dist ms mcs X r.labels r.strengths ∨
      (o.method ≠ .leaf ∧ o.allowSingle = true ∨ 0 < o.epsilon) ∧ ∀ l ∈ r.labels, l = -1 ∨ l = 0) := by
  have hmK : (1 : K) < o.minClusterSize := by rw [ho]; exact_mod_cast hmcs
  have hper' : o.persistence ≤ 0 ∨ ∀ e ∈ mst (X.filter finite) ((X.filter finite).map fun _ => ()), e.w ≠ ⊤ := by
    refine hper.imp_right fun h e he => ?_
    obtain ⟨hu, hv, _, hw⟩ := mem_completeGraph.1 (hmin.forest.sub.subset he)
    rw [rowDist_eq (List.getElem?_eq_getElem hu) (List.getElem?_eq_getElem hv)] at hw
    rw [hw]
    exact h _ (List.mem_filter.1 (List.getElem_mem hu)).1 _ (List.mem_filter.1 (List.getElem_mem hv)).1
  obtain ⟨r1, hr1, h3, h4, h5⟩ := fit_sound hlam hpos hzero hsym hmcs h2 hspan hmin hout ho hper' hr
  refine ⟨h3, ?_⟩
  by_cases htop : (X.filter finite).length ∈ r1.selected
  · refine .inr ⟨?_, h5 htop⟩
    by_contra hno
    push Not at hno
    refine absurd (C96_only_below_epsilon _ h2 (fun _ => 1) _ hspan o hmK (fun _ _ => zero_le_one) (fun _ _ => hmK) lam hlam hpos ?_ hr1 htop).1
      (not_lt.2 hno.2)
    by_cases hm : o.method = .leaf
    · exact .inl hm
    · exact .inr (by simpa using hno.1 hm)
  · exact .inl (h4 htop)

/-- **C97** (partial) with sample weights `wt`, and for any way to measure distances and build the tree: if the spanning tree is a minimum spanning tree of
symmetric distances `reach` between the finite rows, then whenever `fit` returns, for all options, there is one label and one strength per row, and the
groups of rows are sound with their total weight in place of their number; or else `allow_single_cluster` or an epsilon is given and there is at most one label besides noise.
Missing: weights that reach `min_cluster_size`; in the second case the cluster may be apart; infinite edges together with a positive persistence. -/
theorem C97_fit_weights_partial (lam : W → K) (hlam : Antitone lam) (hpos : ∀ d, 0 ≤ lam d) (hzero : ∀ d, lam d = 0 ↔ d = ⊤)
    (finite : α → Bool) (reach : α → α → W) (hsym : ∀ x y, reach x y = reach y x) (X : List α) (side : List β) (hside : side.length = X.length)
    (h2 : 2 ≤ (X.filter finite).length) (wt : β → K) (o : ClusterOpts K) (h1 : 1 < o.minClusterSize)
    (hw0 : ∀ b ∈ side, 0 ≤ wt b ∧ wt b < o.minClusterSize) (mst : List α → List β → List (Edge W)) (t : List (Edge W))
    (hmst : mst (X.filter finite) (((X.zip side).filter fun p => finite p.1).map Prod.snd) = t)
    (hspan : SpanningTree (X.filter finite).length t)
    (hmin : MinSpanningForest (completeGraph (X.filter finite).length (rowDist reach (X.filter finite))) t)
    (hper : o.persistence ≤ 0 ∨ ∀ e ∈ t, e.w ≠ ⊤)
    (outliers : List ℕ) (hout : outliers.Perm ((List.range X.length).filter fun i => !(X[i]?.map finite).getD false))
    (r : FitResult W K) (hr : fitModel finite (fastHdbscan lam mst wt o) outliers X side = .ok r) :
    LabelledRows finite X r.labels r.strengths ∧
      (SoundGroups finite reach (fun i => (side[i]?.map wt).getD 1) o.minClusterSize X r.labels r.strengths ∨
        (o.method ≠ .leaf ∧ o.allowSingle = true ∨ 0 < o.epsilon) ∧ ∀ l ∈ r.labels, l = -1 ∨ l = 0) := by
  obtain ⟨sideP, hsP⟩ : ∃ s, s = ((X.zip side).filter fun p => finite p.1).map Prod.snd := ⟨_, rfl⟩
  have hside' : ∀ b ∈ sideP, b ∈ side := by
    intro b hb
    rw [hsP] at hb
    obtain ⟨q, hq, rfl⟩ := List.mem_map.1 hb
    exact (List.of_mem_zip (show (q.1, q.2) ∈ _ from (List.mem_filter.1 hq).1)).2
  have hwt : ∀ i : ℕ, 0 ≤ (sideP[i]?.map wt).getD 1 ∧ (sideP[i]?.map wt).getD 1 < o.minClusterSize := by
    intro i
    cases hi : sideP[i]? with
    | none => exact ⟨zero_le_one, h1⟩
    | some b => exact hw0 b (hside' b (List.mem_of_getElem? hi))
  obtain ⟨r1, h3, h4, h5, h6⟩ := fit_sound_with (wt := wt) (t := t) hlam hpos hsym hside h2 h1 hw0 hspan hmin hout (fun r1 h3 => by
    beta_reduce at h3
    rw [← hsP] at h3 hmst ⊢
    rw [hmst] at h3
    refine ⟨clustered_of_mst h2 hspan h1 (fun x _ => (hwt x).1) (fun x _ => (hwt x).2) hlam hpos h3, fun htop => ?_⟩
    rcases hper with h | h
    · exact .inr ⟨h, hzero, fun _ _ _ hi hx hy =>
        same_label_connected h2 hspan h1 (fun x _ => (hwt x).1) (fun x _ => (hwt x).2) hlam hpos hzero h h3 (.inl htop) hi hx hy⟩
    · exact .inl fun e he h0 => h e he ((hzero _).1 h0)) hr
  beta_reduce at h3
  rw [← hsP] at h3 hmst
  rw [hmst] at h3
  refine ⟨h4, ?_⟩
  by_cases htop : (X.filter finite).length ∈ r1.selected
  · refine .inr ⟨?_, h6 htop⟩
    by_contra hno
    push Not at hno
    refine absurd (C96_only_below_epsilon _ h2 _ t hspan o h1 (fun x _ => (hwt x).1) (fun x _ => (hwt x).2) lam hlam hpos ?_ h3 htop).1
      (not_lt.2 hno.2)
    by_cases hm : o.method = .leaf
    · exact .inl hm
    · exact .inr (by simpa using hno.1 hm)
  · exact .inl (h5 htop)

omit [OrderTop W] [Inhabited W] in
theorem completeGraph_congr {n : ℕ} {w w' : ℕ → ℕ → W} (h : ∀ i j, i < n → j < n → w i j = w' i j) : completeGraph n w = completeGraph n w' := by
  unfold completeGraph
  refine List.flatMap_congr fun i hi => List.map_congr_left fun j hj => ?_
  rw [h i j (List.mem_range.1 hi) (List.mem_range.1 (List.mem_filter.1 hj).1)]

omit [Field K] [LinearOrder K] [IsStrictOrderedRing K] [Inhabited W] [Inhabited K] in
/-- The spanning tree of the rows is a minimum spanning tree of their mutual reachability distances (C60 for rows). -/
theorem kruskalRows_tree [Zero W] (dist : α → α → W) (hsym : ∀ x y, dist x y = dist y x) (ms : ℕ) (P : List α) (h2 : 2 ≤ P.length) (side : List β) :
    SpanningTree P.length (kruskalRows dist ms P side) ∧
      MinSpanningForest (completeGraph P.length (rowDist (rowReach dist P ms) P)) (kruskalRows dist ms P side) := by
  have hD : ∀ i j, rowDist dist P i j = rowDist dist P j i := by
    intro i j
    unfold rowDist
    cases P[i]? <;> cases P[j]? <;> simp [hsym]
  obtain ⟨h3, h4⟩ := C60_brute_force P.length ms (by omega) (rowDist dist P) hD
  refine ⟨h3, ?_⟩
  rw [completeGraph_congr (w' := fun i j => max (max (rowDist dist P i j)
    (if ms ≤ 1 then 0 else (((List.range P.length).map (rowDist dist P i)).insertionSort (· ≤ ·)).getD ms ⊤))
    (if ms ≤ 1 then 0 else (((List.range P.length).map (rowDist dist P j)).insertionSort (· ≤ ·)).getD ms ⊤))]
  · exact h4
  · intro i j hi hj
    have h5 := List.getElem?_eq_getElem hi
    have h6 := List.getElem?_eq_getElem hj
    rw [rowDist_eq h5 h6, rowDist_core h5, rowDist_core h6, rowDist_eq h5 h6]
    rfl

/-- **C97** (partial), `algorithm='kruskal'` without `knn_k`.  For every data set with at least two finite rows and every symmetric distance, `fit` with
`min_cluster_size` at least 2 and default selection options (`allow_single_cluster=False`, no `max_cluster_size`, epsilon and persistence 0, either method) returns,
and the labels and strengths it stores are a sound clustering of the rows.
Missing: other selection options; sample weights; fewer than two finite rows (`C31_one_finite_row`). -/
theorem C97_fit_kruskal_partial [Zero W] (lam : W → K) (hlam : Antitone lam) (hpos : ∀ d, 0 ≤ lam d) (hzero : ∀ d, lam d = 0 ↔ d = ⊤)
    (finite : α → Bool) (dist : α → α → W) (hsym : ∀ x y, dist x y = dist y x) (ms mcs : ℕ) (hmcs : 2 ≤ mcs) (X : List α)
    (h2 : 2 ≤ (X.filter finite).length)
    (outliers : List ℕ) (hout : outliers.Perm ((List.range X.length).filter fun i => !(X[i]?.map finite).getD false))
    (o : ClusterOpts K) (ho : o.minClusterSize = mcs) (hsingle : o.allowSingle = false) (hmx : o.maxClusterSize = none) (heps : o.epsilon ≤ 0)
    (hper : o.persistence ≤ 0) :
    ∃ r, fitModel finite (fastHdbscan lam (kruskalRows dist ms) (fun _ => 1) o) outliers X (X.map fun _ => ()) = .ok r ∧
      SoundClustering finite dist ms mcs X r.labels r.strengths := by
  obtain ⟨h3, h4⟩ := kruskalRows_tree dist hsym ms (X.filter finite) h2 (X.filter finite |>.map fun _ => ())
  exact C97_fit_any_tree_partial lam hlam hpos hzero finite dist hsym ms mcs hmcs X h2 (kruskalRows dist ms) h3 h4 outliers hout o ho hsingle hmx heps hper

/-- **C97** (partial), `algorithm='boruvka'`: the same for the edges of any run of the tree-based Borůvka algorithm on the finite rows, for every schedule, with stale
reads of the shared bounds, with or without `reproducible`.  Rows are vectors, `rt` is the square root.
Missing: as for Kruskal, and the conditions of C35. -/
theorem C97_fit_boruvka_partial [Zero W] {R : Type*} [LinearOrder R] (lam : W → K) (hlam : Antitone lam) (hpos : ∀ d, 0 ≤ lam d)
    (hzero : ∀ d, lam d = 0 ↔ d = ⊤) {vis : List W → W → Prop} (hvis : ∀ h w, vis h w → anyVis h w) {ar : Arith R W} (ha : ar.Lawful)
    {rt : W → W} (hrt : Monotone rt) (h0 : rt ar.zero = 0) (zero : R) (dims leafSize ms mcs : ℕ) (hl : 1 ≤ leafSize) (hmcs : 2 ≤ mcs)
    (finite : (ℕ → R) → Bool) (X : List (ℕ → R)) (h2 : 2 ≤ (X.filter finite).length) (hms : ms < (X.filter finite).length) (hbig : ms < 32768)
    (pts : ℕ → ℕ → R) (hpts : ∀ i x, (X.filter finite)[i]? = some x → pts i = x)
    (hfin : ∀ x ∈ X, ∀ y ∈ X, rdist ar dims x y < ⊤) (t : KdTree R)
    (ht : buildKdTree ar zero pts dims (X.filter finite).length leafSize = some t) (repro : Option ℕ) (edges : List (Edge W)) (core : ℕ → W)
    (h : TreeBoruvka vis ar rt dims pts t (numNodes (X.filter finite).length leafSize) (X.filter finite).length ms repro
      (edges.map fun e => ⟨e.u, some e.v, e.w⟩) core)
    (mst : List (ℕ → R) → List Unit → List (Edge W)) (hmst : mst (X.filter finite) ((X.filter finite).map fun _ => ()) = edges)
    (outliers : List ℕ) (hout : outliers.Perm ((List.range X.length).filter fun i => !(X[i]?.map finite).getD false))
    (o : ClusterOpts K) (ho : o.minClusterSize = mcs) (hsingle : o.allowSingle = false) (hmx : o.maxClusterSize = none) (heps : o.epsilon ≤ 0)
    (hper : o.persistence ≤ 0) :
    ∃ r, fitModel finite (fastHdbscan lam mst (fun _ => 1) o) outliers X (X.map fun _ => ()) = .ok r ∧
      SoundClustering finite (fun x y => rt (rdist ar dims x y)) ms mcs X r.labels r.strengths := by
  set P := X.filter finite with hP
  have inj : ∀ {a b : List (Edge W)}, a.map (fun e => (⟨e.u, some e.v, e.w⟩ : TEdge W)) = b.map (fun e => ⟨e.u, some e.v, e.w⟩) → a = b := by
    intro a b hab
    refine List.map_injective_iff.2 (fun x y hxy => ?_) hab
    cases x; cases y
    simpa using hxy
  have hmem : ∀ i < P.length, pts i ∈ X := fun i hi => by
    rw [hpts i _ (List.getElem?_eq_getElem hi)]
    exact (List.mem_filter.1 (List.getElem_mem hi)).1
  obtain ⟨hc, tree, e1, e2, e3⟩ := C35_minimum_spanning_tree_partial hvis ha hrt zero pts dims P.length leafSize ms hl h2 hms hbig
    (fun i hi j hj => hfin _ (hmem i hi) _ (hmem j hj)) t ht repro _ core h
  rw [← inj e1] at e2 e3
  refine C97_fit_any_tree_partial lam hlam hpos hzero finite _ (fun x y => by rw [rdist_comm ha]) ms mcs hmcs X h2 mst (by rw [hmst]; exact e2) ?_
    outliers hout o ho hsingle hmx heps hper
  rw [hmst, completeGraph_congr (w' := fun i j => max (max (rt (rdist ar dims (pts i) (pts j))) (core i)) (core j))]
  · exact e3
  · intro i j hi hj
    have h5 := List.getElem?_eq_getElem hi
    have h6 := List.getElem?_eq_getElem hj
    have hcore : ∀ i (hi : i < P.length), core i = coreOf (fun x y => rt (rdist ar dims x y)) P ms P[i] := by
      intro i hi
      have h7 := List.getElem?_eq_getElem hi
      rw [hc i hi, ← rowDist_core h7, h0]
      have : (List.range P.length).map (fun q => rt (rdist ar dims (pts i) (pts q))) =
          (List.range P.length).map (rowDist (fun x y => rt (rdist ar dims x y)) P i) := by
        refine List.map_congr_left fun q hq => ?_
        have h8 := List.getElem?_eq_getElem (List.mem_range.1 hq)
        rw [rowDist_eq h7 h8, hpts i _ h7, hpts q _ h8]
      rw [this]
      by_cases h9 : ms ≤ 1
      · rw [if_pos h9, if_neg (by omega)]
      · rw [if_neg h9, if_pos (by omega)]
    rw [rowDist_eq h5 h6, hcore i hi, hcore j hj, hpts i _ h5, hpts j _ h6]
    rfl

/-! ### C98 -/

omit [Field K] [LinearOrder K] [IsStrictOrderedRing K] [Inhabited K] in
/-- **C98** (partial).  `minimum_spanning_tree_` after `fit` with `algorithm='kruskal'`: each edge stands for two rows `i` and `j` of the data without missing values, and its
length is their mutual reachability distance; the edge names them by their numbers among the finite rows.  If no row with missing values comes before a finite row, these numbers
are `i` and `j` themselves.
Missing: with a missing value in an earlier row the edges name other rows (`C98_missing_row_first`). -/
theorem C98_stored_tree_partial [Zero W] (finite : α → Bool) (dist : α → α → W) (hsym : ∀ x y, dist x y = dist y x) (ms : ℕ) (X : List α)
    (e : Edge W) (he : e ∈ storedTree finite (kruskalRows dist ms) X (X.map fun _ => ())) :
    ∃ i j x y, X[i]? = some x ∧ X[j]? = some y ∧ finite x = true ∧ finite y = true ∧ i ≠ j ∧ e.w = rowReach dist (X.filter finite) ms x y ∧
      e.u = (X.take i).countP finite ∧ e.v = (X.take j).countP finite ∧
      ((∀ (a b : ℕ) x y, a < b → X[a]? = some x → X[b]? = some y → finite y = true → finite x = true) → e.u = i ∧ e.v = j) := by
  set P := X.filter finite with hP
  have hmem : 2 ≤ P.length ∧ e ∈ kruskalBrute P.length ms (rowDist dist P) CLParams.none := by
    unfold storedTree at he
    simp only at he
    have e1 : (if X.all finite = true then X else takeRows X (finiteIndex finite X)) = P := by
      by_cases hall : X.all finite = true
      · rw [if_pos hall, hP]
        exact (List.filter_eq_self.2 (List.all_eq_true.1 hall)).symm
      · rw [if_neg hall]; exact takeRows_finite finite X
    rw [e1] at he
    by_cases h2 : P.length < 2
    · rw [if_pos h2] at he; cases he
    · rw [if_neg h2, (lexsortMst_perm _).mem_iff] at he
      exact ⟨by omega, he⟩
  obtain ⟨h2, he⟩ := hmem
  have hD : ∀ i j, rowDist dist P i j = rowDist dist P j i := by
    intro i j
    unfold rowDist
    cases P[i]? <;> cases P[j]? <;> simp [hsym]
  obtain ⟨_, h4⟩ := C60_brute_force P.length ms (by omega) (rowDist dist P) hD
  obtain ⟨hu, hv, hne, hw⟩ := mem_completeGraph.1 (h4.forest.sub.subset he)
  have h5 := List.getElem?_eq_getElem hu
  have h6 := List.getElem?_eq_getElem hv
  beta_reduce at hw
  rw [rowDist_eq h5 h6, rowDist_core h5, rowDist_core h6] at hw
  obtain ⟨i, a1, a2, a3⟩ := finite_row h5
  obtain ⟨j, b1, b2, b3⟩ := finite_row h6
  have hfirst : ∀ {i : ℕ} {x : α}, X[i]? = some x → finite x = true →
      (∀ (a b : ℕ) x y, a < b → X[a]? = some x → X[b]? = some y → finite y = true → finite x = true) → (X.take i).countP finite = i := by
    intro i x hx hf h
    have hi := (List.getElem?_eq_some_iff.1 hx).1
    rw [List.countP_eq_length.2, List.length_take, min_eq_left hi.le]
    intro y hy
    obtain ⟨k, hk⟩ := List.mem_iff_getElem?.1 hy
    have hki : k < i := by have := (List.getElem?_eq_some_iff.1 hk).1; rw [List.length_take] at this; omega
    rw [List.getElem?_take, if_pos hki] at hk
    exact h k i y x hki hk hx hf
  refine ⟨i, j, _, _, a1, b1, a2, b2, fun hij => ?_, hw, a3.symm, b3.symm, fun h => ⟨?_, ?_⟩⟩
  · subst hij; exact hne (a3.symm.trans b3)
  · rw [← a3]; exact hfirst a1 a2 h
  · rw [← b3]; exact hfirst b1 b2 h

end

/-! ### Cases -/

/-- Distance of one-dimensional points; `none` is a row with NaN. -/
def rowLine (x y : Option ℚ) : WithTop ℚ := ((|x.getD 0 - y.getD 0| : ℚ) : WithTop ℚ)

theorem rowLine_comm (x y : Option ℚ) : rowLine x y = rowLine y x := by
  unfold rowLine
  rw [abs_sub_comm]

/-- Case for C97: two pairs of points and two rows with NaN. -/
example : ∃ r, fitModel Option.isSome (fastHdbscan lamq (kruskalRows rowLine 1) (fun _ => 1) (exOpts .eom 0)) [1, 4] exFitData (exFitData.map fun _ => ()) = .ok r ∧
    SoundClustering Option.isSome rowLine 1 2 exFitData r.labels r.strengths :=
  C97_fit_kruskal_partial lamq lamq_antitone lamq_nonneg lamq_zero Option.isSome rowLine rowLine_comm 1 2 le_rfl exFitData (by decide) [1, 4]
    (by decide +kernel) (exOpts .eom 0) rfl rfl rfl le_rfl le_rfl

/-- Its labels. -/
example : (match fitModel Option.isSome (fastHdbscan lamq (kruskalRows rowLine 1) (fun _ => 1) (exOpts .eom 0)) [1, 4] exFitData (exFitData.map fun _ => ()) with
    | .ok r => decide (r.labels = [1, -1, 1, 0, -1, 0])
    | .error _ => false) = true := by decide +kernel

/-- Case for C97 with other options: a persistence of 1/10 and an epsilon of 3/2. -/
example : ∃ r, fitModel Option.isSome (fastHdbscan lamq (kruskalRows rowLine 1) (fun _ => 1) { exOpts .eom 0 with persistence := 1 / 10, epsilon := 3 / 2 }) [1, 4]
      exFitData (exFitData.map fun _ => ()) = .ok r ∧ r.labels = [1, -1, 1, 0, -1, 0] ∧ LabelledRows Option.isSome exFitData r.labels r.strengths ∧
    SoundClustering Option.isSome rowLine 1 2 exFitData r.labels r.strengths := by
  have hl : (match fitModel Option.isSome (fastHdbscan lamq (kruskalRows rowLine 1) (fun _ => 1) { exOpts .eom 0 with persistence := 1 / 10, epsilon := 3 / 2 })
      [1, 4] exFitData (exFitData.map fun _ => ()) with
    | .ok r => decide (r.labels = [1, -1, 1, 0, -1, 0])
    | .error _ => false) = true := by decide +kernel
  cases hr : fitModel Option.isSome (fastHdbscan lamq (kruskalRows rowLine 1) (fun _ => 1) { exOpts .eom 0 with persistence := 1 / 10, epsilon := 3 / 2 }) [1, 4]
      exFitData (exFitData.map fun _ => ()) with
  | error e => rw [hr] at hl; cases hl
  | ok r =>
    rw [hr] at hl
    have hlab : r.labels = [1, -1, 1, 0, -1, 0] := of_decide_eq_true hl
    obtain ⟨h3, h4⟩ := kruskalRows_tree rowLine rowLine_comm 1 (exFitData.filter Option.isSome) (by decide) (exFitData.filter Option.isSome |>.map fun _ => ())
    obtain ⟨h5, h6⟩ := C97_fit_options_partial lamq lamq_antitone lamq_nonneg lamq_zero Option.isSome rowLine rowLine_comm 1 2 le_rfl exFitData (by decide)
      (kruskalRows rowLine 1) h3 h4 [1, 4] (by decide +kernel) _ rfl (.inr fun x _ y _ => WithTop.coe_ne_top) r hr
    refine ⟨r, rfl, hlab, h5, h6.resolve_right fun h => ?_⟩
    have := h.2 1 (by rw [hlab]; decide)
    omega

/-- Case for C97 with Borůvka: four points on a line, squared distances. -/
example : ∃ (mst : List (ℕ → ℚ) → List Unit → List (Edge (WithTop ℚ))) (r : FitResult (WithTop ℚ) ℚ),
    fitModel (fun _ => true) (fastHdbscan lamq mst (fun _ => 1) (exOpts .eom 0)) [] ((List.range 4).map fun i k => (gapPts i k : ℚ)) [(), (), (), ()] = .ok r ∧
    SoundClustering (fun _ => true) (fun x y => id (rdist (roundedArith (id : ℚ → ℚ)) 1 x y)) 1 2 ((List.range 4).map fun i k => (gapPts i k : ℚ)) r.labels
      r.strengths := by
  have ha : (roundedArith (id : ℚ → ℚ)).Lawful := exactArith_lawful
  have hfin : ∀ i < 4, ∀ j < 4, rdist (roundedArith (id : ℚ → ℚ)) 1 (fun k => (gapPts i k : ℚ)) (fun k => (gapPts j k : ℚ)) < ⊤ := by decide +kernel
  obtain ⟨t, ht, _⟩ := buildKdTree_valid (roundedArith (id : ℚ → ℚ)) 0 (fun i j => (gapPts i j : ℚ)) 1 4 2 (by decide) (by decide)
  obtain ⟨e1, c1, r1⟩ := C35_gives_result ha id 0 (fun i j => (gapPts i j : ℚ)) 1 4 2 1 (by decide) (by decide) (by decide) (by decide) hfin t ht none (by simp)
  have hv : ∀ (h : List (WithTop ℚ)) w, lastVis h w → anyVis h w := fun _ _ => lastVis_anyVis
  obtain ⟨_, t1, q1, _⟩ := C35_minimum_spanning_tree_partial hv ha monotone_id 0 (fun i j => (gapPts i j : ℚ)) 1 4 2 1 (by decide) (by decide) (by decide)
    (by decide) hfin t ht none e1 c1 r1
  rw [q1] at r1
  refine ⟨fun _ _ => t1, C97_fit_boruvka_partial lamq lamq_antitone lamq_nonneg lamq_zero hv ha monotone_id rfl 0 1 2 1 2 (by decide) le_rfl (fun _ => true)
    ((List.range 4).map fun i k => (gapPts i k : ℚ)) (by simp) (by simp) (by decide) (fun i k => (gapPts i k : ℚ)) (fun i x hx => ?_) (fun x hx y hy => ?_) t
    (by simpa using ht) none t1 c1 (by simpa using r1) _ rfl [] (by decide) (exOpts .eom 0) rfl rfl rfl le_rfl le_rfl⟩
  · rw [List.filter_eq_self.2 fun _ _ => rfl, List.getElem?_map] at hx
    obtain ⟨j, hj, rfl⟩ := Option.map_eq_some_iff.1 hx
    obtain ⟨_, hj⟩ := List.getElem?_eq_some_iff.1 hj
    rw [List.getElem_range] at hj
    rw [hj]
  · obtain ⟨i, hi, rfl⟩ := List.mem_map.1 hx
    obtain ⟨j, hj, rfl⟩ := List.mem_map.1 hy
    exact hfin i (List.mem_range.1 hi) j (List.mem_range.1 hj)

/-- Case for C98: the last row has NaN, and the edges name the right rows. -/
example : storedTree Option.isSome (kruskalRows rowLine 1) [some (0 : ℚ), some 1, some 5, none] [(), (), (), ()] =
    [⟨0, 1, ((1 : ℚ) : WithTop ℚ)⟩, ⟨1, 2, ((4 : ℚ) : WithTop ℚ)⟩] := by decide +kernel

/-- **C98** fails with NaN in the first row: the first edge of `minimum_spanning_tree_` joins rows 0 and 1, but row 0 has no position, and the other edge has length 1
although its rows 1 and 2 are at distance 4. -/
theorem C98_missing_row_first : storedTree Option.isSome (kruskalRows rowLine 1) [none, some (0 : ℚ), some 4, some 5] [(), (), (), ()] =
      [⟨1, 2, ((1 : ℚ) : WithTop ℚ)⟩, ⟨0, 1, ((4 : ℚ) : WithTop ℚ)⟩] ∧ rowLine (some 0) (some 4) = ((4 : ℚ) : WithTop ℚ) := by
  constructor <;> decide +kernel

/-- Weights of 1/2 and 3/2 for the first pair of points and 3/2 for the second. -/
def exFitWeights : List ℚ := [1 / 2, 1, 3 / 2, 3 / 2, 1, 3 / 2]

/-- Case for C97 with weights. -/
example (r : FitResult (WithTop ℚ) ℚ)
    (hr : fitModel Option.isSome (fastHdbscan lamq (kruskalRows rowLine 1) (fun b : ℚ => b) (exOpts .eom 0)) [1, 4] exFitData exFitWeights = .ok r) :
    LabelledRows Option.isSome exFitData r.labels r.strengths := by
  obtain ⟨h3, h4⟩ := kruskalRows_tree rowLine rowLine_comm 1 (exFitData.filter Option.isSome) (by decide)
    (((exFitData.zip exFitWeights).filter fun p => p.1.isSome).map Prod.snd)
  refine (C97_fit_weights_partial lamq lamq_antitone lamq_nonneg lamq_zero Option.isSome _ (rowReach_comm rowLine_comm _ 1) exFitData
      exFitWeights rfl (by decide) (fun b : ℚ => b) (exOpts .eom 0) ?_ ?_ (kruskalRows rowLine 1) _ rfl h3 h4 (.inl le_rfl) [1, 4] ?_ r hr).1
  · decide +kernel
  · decide +kernel
  · decide +kernel

/-- Its labels. -/
example : (match fitModel Option.isSome (fastHdbscan lamq (kruskalRows rowLine 1) (fun b : ℚ => b) (exOpts .eom 0)) [1, 4] exFitData exFitWeights with
    | .ok r => decide (r.labels = [1, -1, 1, 0, -1, 0])
    | .error _ => false) = true := by decide +kernel

end Verif
