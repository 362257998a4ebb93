import Verif.Lemmas.TreeRound
import Verif.Lemmas.Bridge

/-!
# The first round of `parallel_boruvka`, from the nearest neighbours
-/

namespace Verif
variable {R W : Type*} [LinearOrder R] [LinearOrder W] [OrderTop W]

/-! ## Rows of nearest neighbours -/

/-- What a row of the nearest-neighbour query for point `i` looks like: `k` entries in ascending order, all of them real points, and
all points left out are at least as far away. -/
structure KnnRow (n k : ℕ) (dist : ℕ → W) (row : List (W × Option ℕ)) : Prop where
  length : row.length = k
  sorted : row.Pairwise fun x y => x.1 ≤ y.1
  real : ∃ rest, (row ++ rest).Perm ((List.range n).map fun q => (dist q, some q)) ∧ ∀ x ∈ row, ∀ y ∈ rest, x.1 ≤ y.1

theorem knnRow_of_query {ar : Arith R W} (ha : ar.Lawful) (dims : ℕ) (pts : ℕ → ℕ → R) {t : KdTree R} {n nNodes : ℕ}
    (ht : t.Valid pts dims n nNodes) {k : ℕ} (hk : k ≤ 32768) (h0 : 0 < k) (hkn : k ≤ n) (pt : ℕ → R)
    (hfin : ∀ q < n, rdist ar dims pt (pts q) < ⊤) {row : List (W × Option ℕ)}
    (hrow : treeQuery ar id dims pts t nNodes k pt = some row) : KnnRow n k (fun q => rdist ar dims pt (pts q)) row := by
  obtain ⟨out, e, h1, h2, rest, h3, h4⟩ := treeQuery_spec ha (rt := id) (fun _ _ h => h) dims pts ht hk h0 pt
  rw [hrow] at e
  obtain rfl := Option.some.inj e
  refine ⟨h1, h2, ?_⟩
  simp only [id] at h3
  -- the padding is not kept
  set real := (List.range n).map fun q => (rdist ar dims pt (pts q), some q) with hreal
  have hcount : ∀ p : (W × Option ℕ) → Bool, (row.filter p).length + (rest.filter p).length =
      ((List.replicate k ((⊤ : W), (none : Option ℕ))).filter p).length + (real.filter p).length := by
    intro p
    have := (h3.filter p).length_eq
    rw [List.filter_append, List.filter_append, List.length_append, List.length_append] at this
    exact this
  have hs1 : (real.filter fun x => x.2.isSome).length = n := by
    rw [List.filter_eq_self.2]
    · simp [hreal]
    · intro x hx
      obtain ⟨q, _, rfl⟩ := List.mem_map.1 hx
      rfl
  have hs2 : (real.filter fun x => !x.2.isSome) = [] := by
    rw [List.filter_eq_nil_iff]
    intro x hx
    obtain ⟨q, _, rfl⟩ := List.mem_map.1 hx
    simp
  have hmem : ∀ x, x ∈ row ∨ x ∈ rest → x = (⊤, none) ∨ ∃ q < n, x = (rdist ar dims pt (pts q), some q) := by
    intro x hx
    have : x ∈ List.replicate k ((⊤ : W), (none : Option ℕ)) ++ real := h3.mem_iff.1 (List.mem_append.2 hx)
    rcases List.mem_append.1 this with h | h
    · exact Or.inl (List.eq_of_mem_replicate h)
    · obtain ⟨q, hq, rfl⟩ := List.mem_map.1 h
      exact Or.inr ⟨q, List.mem_range.1 hq, rfl⟩
  have hnopad : ∀ x ∈ row, x.2.isSome = true := by
    intro x hx
    by_contra hns
    have hx' : x = (⊤, none) := by
      rcases hmem x (Or.inl hx) with h | ⟨q, _, h⟩
      · exact h
      · rw [h] at hns; simp at hns
    subst hx'
    have hrest : (rest.filter fun x => x.2.isSome) = [] := by
      rw [List.filter_eq_nil_iff]
      intro y hy hsome
      rcases hmem y (Or.inr hy) with h | ⟨q, hq, h⟩
      · rw [h] at hsome; simp at hsome
      · have := h4 _ hx y hy
        rw [h] at this
        exact absurd (hfin q hq) (not_lt.2 this)
    have hc := hcount fun x => x.2.isSome
    rw [hrest, hs1] at hc
    have h5 : (row.filter fun x => x.2.isSome).length < row.length :=
      List.length_filter_lt_length_iff_exists.2 ⟨_, hx, by simp⟩
    have h6 : ((List.replicate k ((⊤ : W), (none : Option ℕ))).filter fun x => x.2.isSome) = [] := by
      rw [List.filter_eq_nil_iff]; intro y hy; rw [List.eq_of_mem_replicate hy]; simp
    rw [h6, List.length_nil] at hc
    omega
  refine ⟨rest.filter fun x => x.2.isSome, ?_, fun x hx y hy => h4 x hx y (List.mem_of_mem_filter hy)⟩
  have hp := h3.filter fun x => x.2.isSome
  rw [List.filter_append, List.filter_append] at hp
  have h6 : ((List.replicate k ((⊤ : W), (none : Option ℕ))).filter fun x => x.2.isSome) = [] := by
    rw [List.filter_eq_nil_iff]; intro y hy; rw [List.eq_of_mem_replicate hy]; simp
  have h7 : (real.filter fun x => x.2.isSome) = real := by
    rw [List.filter_eq_self]
    intro x hx
    obtain ⟨q, _, rfl⟩ := List.mem_map.1 hx
    rfl
  have h8 : (row.filter fun x => x.2.isSome) = row := List.filter_eq_self.2 hnopad
  rw [h6, h7, h8, List.nil_append] at hp
  exact hp

omit [LinearOrder R] [OrderTop W] in
theorem KnnRow.entry {n k : ℕ} {dist : ℕ → W} {row : List (W × Option ℕ)} (h : KnnRow n k dist row) {x : W × Option ℕ} (hx : x ∈ row) :
    ∃ q < n, x = (dist q, some q) := by
  obtain ⟨rest, h1, _⟩ := h.real
  have := h1.mem_iff.1 (List.mem_append_left _ hx)
  obtain ⟨q, hq, rfl⟩ := List.mem_map.1 this
  exact ⟨q, List.mem_range.1 hq, rfl⟩

omit [LinearOrder R] [OrderTop W] in
/-- Every entry is at most the last one. -/
theorem KnnRow.le_last {n k : ℕ} {dist : ℕ → W} {row : List (W × Option ℕ)} (h : KnnRow n k dist row) {x y : W × Option ℕ} (hx : x ∈ row)
    (hy : row.getLast? = some y) : x.1 ≤ y.1 := by
  obtain ⟨l, rfl⟩ : ∃ l, row = l ++ [y] := by
    obtain ⟨l, hl⟩ := List.getLast?_eq_some_iff.1 hy
    exact ⟨l, hl⟩
  rcases List.mem_append.1 hx with hx | hx
  · exact (List.pairwise_append.1 h.sorted).2.2 x hx y (by simp)
  · rw [List.mem_singleton.1 hx]

/-! ## The first edges -/

omit [LinearOrder R] [LinearOrder W] [OrderTop W] in
/-- Edges from a vertex to itself are skipped. -/
theorem MergeRound.filter_loops {f f' : List (Edge W)} {P : List (ℕ × Edge W)} (h : MergeRound f P f') :
    MergeRound f (P.filter fun p => decide (p.2.u ≠ p.2.v)) f' := by
  induction h with
  | nil f => exact MergeRound.nil f
  | @take f p P f' hc _ ih =>
    rw [List.filter_cons_of_pos]
    · exact MergeRound.take hc ih
    · simp only [ne_eq, decide_not, Bool.not_eq_eq_eq_not, Bool.not_true, decide_eq_false_iff_not]
      intro he; exact hc (by rw [he]; exact Conn.refl _ _)
  | @skip f p P f' hc _ ih =>
    by_cases hp : p.2.u = p.2.v
    · rw [List.filter_cons_of_neg (by simp [hp])]; exact ih
    · rw [List.filter_cons_of_pos (by simp [hp])]; exact MergeRound.skip hc ih

omit [LinearOrder R] [OrderTop W] in
theorem initRow_some {n : ℕ} {core : ℕ → W} {i : ℕ} {row : List (W × Option ℕ)} {e : TEdge W} (h : initRow n core i row = some e) :
    ∃ p ∈ row, core (p.2.getD (n - 1)) ≤ core i ∧ e = ⟨i, p.2, max (core i) p.1⟩ := by
  induction row with
  | nil => simp [initRow] at h
  | cons p ps ih =>
    unfold initRow at h
    split at h
    · rename_i hc
      exact ⟨p, List.mem_cons_self, hc, (Option.some.inj h).symm⟩
    · obtain ⟨q, h1, h2⟩ := ih h
      exact ⟨q, List.mem_cons_of_mem _ h1, h2⟩

omit [LinearOrder R] [LinearOrder W] [OrderTop W] in
theorem conn_nil {a b : ℕ} : Conn ([] : List (Edge W)) a b ↔ a = b := by
  constructor
  · intro h
    induction h with
    | refl => rfl
    | tail _ hadj _ => obtain ⟨e, he, _⟩ := hadj; simp at he
  · rintro rfl; exact Conn.refl _ _

omit [OrderTop W] in
theorem treeStart_inv {t : KdTree R} {pts : ℕ → ℕ → R} {dims nNodes n : ℕ} {weight : ℕ → ℕ → W} {core : ℕ → W}
    {rows : ℕ → List (W × Option ℕ)}
    (hgood : ∀ i < n, ∀ e, initRow n core i (rows i).tail = some e → e.u = i ∧ ∃ v < n, e.v = some v ∧
      (i ≠ v → e.w = weight i v ∧ ∀ j < n, j ≠ i → e.w ≤ weight i j ∧ e.w ≤ weight j i)) :
    TInv t pts dims nNodes n weight (treeStart t nNodes n core rows) := by
  set P : List (ℕ × TEdge W) := (List.range n).filterMap fun i => (initRow n core i (rows i).tail).map fun e => (i, e) with hP
  have hPs : P.map Prod.snd = (List.range n).filterMap fun i => initRow n core i (rows i).tail := by
    rw [hP, List.map_filterMap]
    congr 1
    funext i
    rw [Option.map_map]
    cases initRow n core i (rows i).tail <;> rfl
  have hPmem : ∀ p ∈ P, p.1 < n ∧ initRow n core p.1 (rows p.1).tail = some p.2 := by
    intro p hp
    obtain ⟨i, hi, he⟩ := List.mem_filterMap.1 hp
    obtain ⟨e, h1, rfl⟩ := Option.map_eq_some_iff.1 he
    exact ⟨List.mem_range.1 hi, h1⟩
  have hPnd : P.Pairwise fun a b => a.1 ≠ b.1 := by
    rw [hP, List.pairwise_filterMap]
    refine List.Pairwise.imp ?_ (List.nodup_iff_pairwise_ne.1 List.nodup_range)
    intro a b hab x hx y hy
    obtain ⟨_, _, rfl⟩ := Option.map_eq_some_iff.1 hx
    obtain ⟨_, _, rfl⟩ := Option.map_eq_some_iff.1 hy
    exact hab
  obtain ⟨m1, m2, m3⟩ := mergeStepT_map n P dsRankCreate []
  have hE : ∀ p ∈ P, ∃ v < n, p.2.v = some v ∧ p.2.toEdge n = ⟨p.1, v, p.2.w⟩ := by
    intro p hp
    obtain ⟨h1, h2⟩ := hPmem p hp
    obtain ⟨h3, v, hv, h4, _⟩ := hgood p.1 h1 p.2 h2
    exact ⟨v, hv, h4, by unfold TEdge.toEdge; rw [h3, h4]; rfl⟩
  have hinr : ∀ q ∈ P.map (entryEdge n), q.2.u < n ∧ q.2.v < n := by
    intro q hq
    obtain ⟨p, hp, rfl⟩ := List.mem_map.1 hq
    obtain ⟨v, hv, _, he⟩ := hE p hp
    unfold entryEdge
    rw [he]
    exact ⟨(hPmem p hp).1, hv⟩
  have hid : Represents n (dsRankCreate).parent ([] : List (Edge W)) := Represents.id n
  obtain ⟨b, hb, hround, hrep⟩ := merge_spec (P.map (entryEdge n)) hinr dsRankCreate (f := []) (acc := []) (by simpa using hid)
  simp only [List.append_nil, List.nil_append] at hb hround hrep
  rw [List.map_nil] at m1 m2
  have e1 : (initT n core rows dsRankCreate).1.parent = ((P.map (entryEdge n)).foldl (mergeStep n) (dsRankCreate, [])).1.parent := by
    rw [← m1, hPs]; rfl
  have e2 : (initT n core rows dsRankCreate).2.map (TEdge.toEdge n) = b := by rw [← hb, ← m2, hPs]; rfl
  have hrep' : Represents n (initT n core rows dsRankCreate).1.parent ((initT n core rows dsRankCreate).2.map (TEdge.toEdge n)) := by
    rw [e1, e2]; exact hrep
  have hrun : BoruvkaRun (completeGraph n weight) ((initT n core rows dsRankCreate).2.map (TEdge.toEdge n)) := by
    rw [e2]
    refine BoruvkaRun.round BoruvkaRun.start (P := (P.map (entryEdge n)).filter fun p => decide (p.2.u ≠ p.2.v)) ?_ ?_ hround.filter_loops
    · refine List.Pairwise.filter _ ?_
      rw [List.pairwise_map]
      refine hPnd.imp fun {a b} hab hc => hab ?_
      exact conn_nil.1 hc
    · intro q hq
      rw [List.mem_filter] at hq
      obtain ⟨hq1, hq2⟩ := hq
      obtain ⟨p, hp, rfl⟩ := List.mem_map.1 hq1
      obtain ⟨h1, h2⟩ := hPmem p hp
      obtain ⟨_, v', _, h4', h5⟩ := hgood p.1 h1 p.2 h2
      obtain ⟨v, hv, h4, he⟩ := hE p hp
      obtain rfl : v' = v := by rw [h4] at h4'; exact (Option.some.inj h4').symm
      unfold entryEdge at hq2 ⊢
      simp only at hq2 ⊢
      rw [he] at hq2 ⊢
      have hne : p.1 ≠ v' := by simpa using hq2
      obtain ⟨h6, h7⟩ := h5 hne
      refine ⟨mem_completeGraph.2 ⟨h1, hv, hne, h6⟩, Conn.refl _ _, fun hc => hne (conn_nil.1 hc), ?_⟩
      intro d hd hcut
      obtain ⟨d1, d2, d3, d4⟩ := mem_completeGraph.1 hd
      rw [conn_nil, conn_nil] at hcut
      simp only
      rw [d4]
      by_cases hu : p.1 = d.u
      · rw [← hu]
        exact (h7 d.v d2 fun hh => d3 (by rw [← hu, hh])).1
      · have hv' : p.1 = d.v := by
          by_contra hv'
          exact hcut ⟨fun h => absurd h hu, fun h => absurd h hv'⟩
        rw [← hv']
        exact (h7 d.u d1 (fun hh => hu hh.symm)).2
  have hcnt : (uniqueLabels n (fun i => (dsFind n (initT n core rows dsRankCreate).1.parent i).2)).length =
      compCount n ((initT n core rows dsRankCreate).2.map (TEdge.toEdge n)) := by
    refine uniqueLabels_length ?_
    intro a b _ _
    simp only [dsFind_eq]
    exact hrep'.conn a b
  refine ⟨hrun, hrep', fun i => by simp only [treeStart, dsFind_eq], ?_, ?_, ?_⟩
  · have hac := hrun.safe.acyclic.length_add_compCount hrep'.inRange
    rw [List.length_map] at hac
    show (uniqueLabels n _).length + (initT n core rows dsRankCreate).2.length = n
    rw [hcnt]; omega
  · exact updateNodes_exact _ _ fun v s e _ c hc => by simp at hc
  · intro e he
    have he' : e ∈ ((P.map Prod.snd).foldl (mergeStepT n) (dsRankCreate, [])).2 := by rw [hPs]; exact he
    rcases m3 e he' with h | h
    · simp at h
    · obtain ⟨p, hp, rfl⟩ := List.mem_map.1 h
      obtain ⟨v, _, hv, _⟩ := hE p hp
      exact ⟨v, hv⟩

end Verif
