import Verif.Lemmas.CoreGraph

/-!
# Borůvka on a graph stored in one direction

Without symmetry the chosen edges need not be lightest, but they still form a spanning forest.
-/

namespace Verif
variable {W : Type*}

/-- A well-formed graph without self-loops; an edge may be stored in one row only. -/
structure Csr.Directed (n : ℕ) (c : Csr W) : Prop where
  mono : Monotone c.indptr
  last : c.indptr n = c.ent.length
  target : ∀ i < n, ∀ p ∈ c.row i, p.1 < n ∧ p.1 ≠ i

theorem MergeRound.acyclic {P : List (ℕ × Edge W)} {f f' : List (Edge W)} (hr : MergeRound f P f') (h : Acyclic f) : Acyclic f' := by
  induction hr with
  | nil f => exact h
  | take hc _ ih => exact ih (Acyclic.snoc_iff.2 ⟨h, hc⟩)
  | skip _ _ ih => exact ih h

theorem MergeRound.mem {P : List (ℕ × Edge W)} {f f' : List (Edge W)} (hr : MergeRound f P f') {e : Edge W} (he : e ∈ f') :
    e ∈ f ∨ ∃ p ∈ P, p.2 = e := by
  induction hr with
  | nil f => exact .inl he
  | @take f p P f' hc _ ih =>
    rcases ih he with h | ⟨q, h1, h2⟩
    · rcases List.mem_append.1 h with h | h
      · exact .inl h
      · exact .inr ⟨p, by simp, (List.mem_singleton.1 h).symm⟩
    · exact .inr ⟨q, by simp [h1], h2⟩
  | @skip f p P f' _ _ ih =>
    rcases ih he with h | ⟨q, h1, h2⟩
    · exact .inl h
    · exact .inr ⟨q, by simp [h1], h2⟩

section
variable [LinearOrder W] [OrderTop W]

/-- Invariant of the loop of `boruvka_mst` on a graph stored in one direction. -/
structure DInv (n : ℕ) (c : Csr W) (s : BState W) : Prop where
  sub : ∀ e ∈ s.edges, e ∈ c.graph n
  acyclic : Acyclic s.edges
  rep : Represents n s.ds.parent s.edges
  comp : ∀ i, s.comp i = root n s.ds.parent i
  count : s.nComp + s.edges.length = n
  live : ∀ i < n, LiveRow s.arr (c.indptr i) (c.indptr (i + 1)) ((c.row i).filter (keepEntry s.comp i))

theorem DInv.cand {n : ℕ} {c : Csr W} {s : BState W} (h : DInv n c s) (hc : c.Directed n) (hg : c.NoGaps n) {i : ℕ}
    (hi : i < n) :
    (if c.indptr i = c.ent.length then none else
      (s.arr.idx (c.indptr i)).map fun nb => (⟨i, nb, s.arr.dst (c.indptr i)⟩ : Edge W)) =
    (((c.row i).filter (keepEntry s.comp i)).head?).map fun p => ⟨i, p.1, p.2⟩ := by
  have hlen := Csr.row_length hc.mono hc.last hi
  have hlast : c.indptr (i + 1) ≤ c.ent.length := by rw [← hc.last]; exact hc.mono hi
  by_cases he : c.row i = []
  · rw [if_pos (hg i hi he), he]; rfl
  · have hpos : 0 < (c.row i).length := List.length_pos_iff.2 he
    rw [if_neg (by omega)]
    have hl := h.live i hi
    have h0 := hl.idx 0 (by omega)
    rw [Nat.add_zero] at h0
    cases hf : (c.row i).filter (keepEntry s.comp i) with
    | nil => rw [hf] at h0; rw [h0]; rfl
    | cons x l =>
      rw [hf] at h0 hl
      have := hl.dst 0 x rfl
      rw [Nat.add_zero] at this
      rw [h0, this]; rfl

theorem DInv.candidates {n : ℕ} {c : Csr W} {s : BState W} (h : DInv n c s) (hc : c.Directed n) (hg : c.NoGaps n) :
    let D := selectComponents n c.ent.length c.indptr s.arr s.comp
    (∀ q ∈ D, q.2 ∈ c.graph n ∧ ¬ Conn s.edges q.2.u q.2.v) ∧ (∀ q ∈ D, q.2.u < n ∧ q.2.v < n) ∧
      (D = [] → ∀ e ∈ c.graph n, Conn s.edges e.u e.v) := by
  obtain ⟨h1, h2, h3⟩ := select_spec n c.ent.length c.indptr s.arr s.comp
  simp only at h1 h2 h3 ⊢
  set D := selectComponents n c.ent.length c.indptr s.arr s.comp
  have hrep := h.rep
  have hcr : ∀ x y, s.comp x = s.comp y ↔ Conn s.edges x y := fun x y => by rw [h.comp, h.comp]; exact hrep.conn x y
  have hmem : ∀ q ∈ D, (q.2.v, q.2.w) ∈ c.row q.2.u ∧ s.comp q.2.v ≠ s.comp q.2.u := by
    intro q hq
    obtain ⟨_, hlt, hcand⟩ := h2 q hq
    rw [h.cand hc hg hlt] at hcand
    obtain ⟨p, hp, hpe⟩ := Option.map_eq_some_iff.1 hcand
    have hm := List.mem_of_mem_head? hp
    rw [List.mem_filter] at hm
    rw [← hpe]
    exact ⟨hm.1, by simpa [keepEntry] using hm.2⟩
  refine ⟨fun q hq => ⟨Csr.mem_graph.2 ⟨(h2 q hq).2.1, (hmem q hq).1⟩, fun hh => (hmem q hq).2 ((hcr _ _).2 hh).symm⟩,
    fun q hq => ⟨(h2 q hq).2.1, (hc.target _ (h2 q hq).2.1 _ (hmem q hq).1).1⟩, ?_⟩
  intro hnil d hd
  by_contra hnc
  rw [Csr.mem_graph] at hd
  have hk : (d.v, d.w) ∈ (c.row d.u).filter (keepEntry s.comp d.u) := by
    rw [List.mem_filter]
    refine ⟨hd.2, ?_⟩
    simp only [keepEntry, decide_eq_true_eq]
    exact fun hh => hnc ((hcr _ _).1 hh.symm)
  cases hf : (c.row d.u).filter (keepEntry s.comp d.u) with
  | nil => rw [hf] at hk; exact absurd hk (by simp)
  | cons x l =>
    have hcand := h.cand hc hg hd.1
    rw [hf] at hcand
    obtain ⟨q, h5, _⟩ := h3 d.u hd.1 _ hcand
    rw [hnil] at h5
    exact absurd h5 (by simp)

theorem boruvkaLoop_directed {n : ℕ} {c : Csr W} (hc : c.Directed n) (hg : c.NoGaps n) (f : ℕ) :
    ∀ s : BState W, DInv n c s → s.nComp ≤ f →
      let r := boruvkaLoop n c.ent.length c.indptr f s
      DInv n c r ∧ (r.nComp ≤ 1 ∨ ∀ e ∈ c.graph n, Conn r.edges e.u e.v) := by
  induction f with
  | zero => intro s h hf; exact ⟨h, Or.inl (by simp only [boruvkaLoop]; omega)⟩
  | succ f ih =>
    intro s h hf
    simp only
    unfold boruvkaLoop
    by_cases hn : 1 < s.nComp
    · rw [if_pos hn]
      obtain ⟨h2, h3, h4⟩ := h.candidates hc hg
      set D := selectComponents n c.ent.length c.indptr s.arr s.comp
      obtain ⟨b, hb, hround, hrep⟩ := merge_spec D h3 s.ds (f := s.edges) (acc := []) (by simpa using h.rep)
      simp only [List.append_nil, List.nil_append] at hb hround hrep
      have hr2 : (mergeComponents n s.ds D).2 = b := hb
      have hr1 : Represents n (mergeComponents n s.ds D).1.parent (s.edges ++ b) := hrep
      have hac : Acyclic (s.edges ++ b) := hround.acyclic h.acyclic
      have hsub : ∀ e ∈ s.edges ++ b, e ∈ c.graph n := by
        intro e he
        rcases hround.mem he with g | ⟨p, hp, rfl⟩
        · exact h.sub e g
        · exact (h2 p hp).1
      by_cases hb0 : (mergeComponents n s.ds D).2.length = 0
      · rw [if_pos hb0]
        have hbn : b = [] := by rw [← hr2]; exact List.length_eq_zero_iff.1 hb0
        subst hbn
        rw [List.append_nil] at hr1 hround
        have hDn : D = [] := by
          rcases hD : D with _ | ⟨q, D'⟩
          · rfl
          · exfalso
            rw [hD] at hround
            have hnc := (h2 q (by rw [hD]; simp)).2
            cases hround with
            | take _ hm =>
              obtain ⟨b', hb', _⟩ := hm.prefix
              have := congrArg List.length hb'
              simp at this
            | skip hs _ => exact hnc hs
        have hsafe := h.rep
        refine ⟨⟨h.sub, h.acyclic, hr1, fun i => ?_, h.count, h.live⟩, Or.inr (h4 hDn)⟩
        -- the parent array is unchanged when nothing is merged
        have : (mergeComponents n s.ds D).1 = s.ds := by rw [hDn]; rfl
        rw [h.comp]; simp only [this]
      · rw [if_neg hb0]
        have hinr : InRange n (s.edges ++ b) := hr1.inRange
        have hcnt : (s.edges ++ b).length ≤ n := by
          have := hac.length_add_compCount hinr; omega
        rw [List.length_append] at hcnt
        have hcount := h.count
        rw [hr2] at hb0 ⊢
        apply ih
        · refine ⟨hsub, hac, hr1, fun i => by simp only [dsFind_eq], ?_, ?_⟩
          · simp only [List.length_append]; omega
          · intro i hi
            have hl := compactAll_spec hc.mono (fun i => (dsFind n (mergeComponents n s.ds D).1.parent i).2) h.live i hi
            rw [keepEntry_trans] at hl
            · exact hl
            · intro x y hxy
              simp only [dsFind_eq]
              rw [hr1.conn]
              rw [h.comp, h.comp, h.rep.conn] at hxy
              exact hxy.append_left
        · simp only; omega
    · rw [if_neg hn]
      exact ⟨h, Or.inl (by omega)⟩

/-- Everything about the result of `boruvka_mst` on a graph stored in one direction, without gaps. -/
theorem boruvkaMst_directed {n : ℕ} {c : Csr W} (hc : c.Directed n) (hg : c.NoGaps n) :
    let r := boruvkaMst n c
    (∀ e ∈ r.2.2, e ∈ c.graph n) ∧ Acyclic r.2.2 ∧ (∀ e ∈ c.graph n, Conn r.2.2 e.u e.v) ∧ InRange n r.2.2 ∧
      (∀ i j, r.2.1 i = r.2.1 j ↔ Conn r.2.2 i j) ∧ r.1 = compCount n r.2.2 := by
  have h0 : DInv n c ⟨dsRankCreate, fun i => i, n, c.work, []⟩ := by
    refine ⟨by simp, Acyclic.nil, Represents.id n, fun i => ?_, by simp, fun i hi => ?_⟩
    · simp only [dsRankCreate]; rw [(PForest.id n).root_of_fixed rfl]
    · have : (c.row i).filter (keepEntry (fun i => i) i) = c.row i := by
        rw [List.filter_eq_self]
        intro p hp
        simpa [keepEntry] using (hc.target i hi p hp).2
      rw [this]
      exact Csr.work_live hc.mono hc.last i hi
  obtain ⟨h1, h2⟩ := boruvkaLoop_directed hc hg n _ h0 (le_refl _)
  unfold boruvkaMst
  generalize boruvkaLoop n c.ent.length c.indptr n ⟨dsRankCreate, fun i => i, n, c.work, []⟩ = s at *
  have hcc := h1.acyclic.length_add_compCount h1.rep.inRange
  have hcount := h1.count
  show (∀ e ∈ s.edges, e ∈ c.graph n) ∧ Acyclic s.edges ∧ (∀ e ∈ c.graph n, Conn s.edges e.u e.v) ∧ InRange n s.edges ∧
    (∀ i j, s.comp i = s.comp j ↔ Conn s.edges i j) ∧ s.nComp = compCount n s.edges
  refine ⟨h1.sub, h1.acyclic, ?_, h1.rep.inRange, fun i j => ?_, by omega⟩
  · rcases h2 with h2 | h2
    · intro e he
      have := (Csr.mem_graph.1 he)
      exact conn_of_compCount_le_one (n := n) (by omega) this.1 (hc.target _ this.1 _ this.2).1
    · exact h2
  · rw [h1.comp, h1.comp]; exact h1.rep.conn i j

end

end Verif
