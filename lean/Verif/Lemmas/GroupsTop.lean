import Verif.Lemmas.Groups

/-!
# Large components of the spanning tree and the top cluster
-/

namespace Verif
variable {W K S L : Type*}

section
variable [LinearOrder S] [One S] {H : Hier W S} {wt : ℕ → S} {mcs : S} {lam : W → L} {rows : List (CRow L S)} {k : ℕ} {relabel top : ℕ → ℕ}

/-- A node of the top cluster contains every surviving node or is contained in it. -/
theorem CondRes.top_comparable (hh : CondHyp H wt mcs) (h : CondRes H wt mcs none lam rows k relabel top) {v w : ℕ} (hv : H.Alive wt mcs v)
    (hw : H.Alive wt mcs w) (he : relabel v = H.n) : H.Sub v w ∨ H.Sub w v := by
  have hvalid := hh.valid
  have : ∀ t, t ≤ H.root → H.Sub t v → H.Sub t w → H.Sub v w ∨ H.Sub w v := by
    intro t
    induction t using Nat.strong_induction_on with
    | _ t ih =>
      intro htR h1 h2
      rcases h1.cases_head with h3 | ⟨a, ha, hav⟩
      · rw [← h3]; exact .inl h2
      rcases h2.cases_head with h4 | ⟨b, hb, hbw⟩
      · rw [← h4]; exact .inr h1
      have haR := ha.lt hvalid
      have hbR := hb.lt hvalid
      by_cases hab : a = b
      · subst hab
        exact ih a haR (by omega) hav hbw
      · exfalso
        have hta : H.Alive wt mcs t := alive_up hh hv h1 htR
        have hca := (alive_kid_iff hh ha).1 (alive_up hh hv hav (by omega))
        have hcb := (alive_kid_iff hh hb).1 (alive_up hh hw hbw (by omega))
        have hs : H.Split wt mcs none t := by
          rcases ha.2.2 with rfl | rfl <;> rcases hb.2.2 with rfl | rfl
          · exact absurd rfl hab
          · exact split_of_none hca hcb
          · exact split_of_none hcb hca
          · exact absurd rfl hab
        have h5 := (h.top_below hh hta hs ha hav hv).le hvalid
        rw [he, h.top_root] at h5
        omega
  exact this H.root le_rfl (Hier.sub_root hvalid hv.2.1) (Hier.sub_root hvalid hw.2.1)

end

theorem list_max_lam [LinearOrder L] {rows : List (CRow L S)} (h : rows ≠ []) : ∃ r ∈ rows, ∀ r' ∈ rows, r'.lam ≤ r.lam := by
  induction rows with
  | nil => exact absurd rfl h
  | cons a rows ih =>
    by_cases hne : rows = []
    · exact ⟨a, by simp, fun r' hr' => by rw [hne] at hr'; simp at hr'; rw [hr']⟩
    obtain ⟨r, h1, h2⟩ := ih hne
    by_cases hle : r.lam ≤ a.lam
    · refine ⟨a, by simp, fun r' hr' => ?_⟩
      rcases List.mem_cons.1 hr' with rfl | h3
      · exact le_rfl
      · exact (h2 r' h3).trans hle
    · refine ⟨r, List.mem_cons_of_mem _ h1, fun r' hr' => ?_⟩
      rcases List.mem_cons.1 hr' with rfl | h3
      · exact (not_le.1 hle).le
      · exact h2 r' h3

theorem exists_sample_below {H : Hier W S} (hv : H.Valid) : ∀ v, v ≤ H.root → ∃ y, y < H.n ∧ H.Sub v y := by
  intro v
  induction v using Nat.strong_induction_on with
  | _ v ih =>
    intro hR
    by_cases hvn : v < H.n
    · exact ⟨v, hvn, Hier.Sub.refl _⟩
    have hre := H.root_eq
    have hk : H.IsKid v (H.l (v - H.n)) := ⟨by omega, by omega, .inl rfl⟩
    have hlt := hk.lt hv
    obtain ⟨y, h1, h2⟩ := ih _ hlt (by omega)
    exact ⟨y, h1, (Hier.Sub.kid hk).trans h2⟩

section
variable [AddCommMonoid S] [LinearOrder S] [IsOrderedAddMonoid S] [One S] [LinearOrder W] [Inhabited W] [Inhabited S] [LinearOrder L]

/-- A large component is inside the samples that leave no earlier than anything leaves the top cluster, or contains them all, and then there are such samples. -/
theorem tree_groups_top {n : ℕ} (hn : 2 ≤ n) {wt : ℕ → S} {mcs : S} (h0 : ∀ x, x < n → 0 ≤ wt x) (hl : ∀ x, x < n → wt x < mcs)
    {es : List (Edge W)} (ht : SpanningTree n es) (hs : es.Pairwise fun a b => a.w ≤ b.w) {lam : W → L} (hlam : Antitone lam) {T : List (CRow L S)}
    (hT : T = condenseTree (Hier.ofRows (mstToLinkage wt es)) wt mcs none lam) {m x : ℕ} (hx : x < n) (hbig : BigComp n wt mcs es m x) :
    (∀ row ∈ T, row.child < n → Conn (es.take m) x row.child → ∀ row' ∈ T, row'.parent = n → row'.lam ≤ row.lam) ∨
    (∀ row ∈ T, row.child < n → (∀ row' ∈ T, row'.parent = n → row'.lam ≤ row.lam) → Conn (es.take m) x row.child) ∧
      ∃ row ∈ T, row.child < n ∧ ∀ row' ∈ T, row'.parent = n → row'.lam ≤ row.lam := by
  obtain ⟨hden, hd, -, -⟩ := C12_linkage_is_dendrogram n (by omega) wt es ht hs
  have hrl : (mstToLinkage wt es).length = es.length := by
    have := congrArg List.length hd; simpa using this
  have hlen := ht.length (by omega)
  have hHn := hden.hier_n
  have hre := (Hier.ofRows (mstToLinkage wt es)).root_eq
  have hmm : (Hier.ofRows (mstToLinkage wt es)).m = es.length := hrl
  have hh := hden.condHyp h0 hl
  obtain ⟨k, relabel, top, hr⟩ := condense_res (mx := none) hh (by omega) lam
  rw [← hT] at hr
  have hv := hh.valid
  have hdEs : ∀ i (hi : i < es.length), (Hier.ofRows (mstToLinkage wt es)).d i = es[i].w := by
    intro i hi
    have hg : (mstToLinkage wt es)[i]? = some (mstToLinkage wt es)[i] := List.getElem?_eq_getElem (by omega)
    rw [Hier.ofRows_d hg]
    have := congrArg (fun l => l[i]?) hd
    simp only [List.getElem?_map] at this
    rw [hg, List.getElem?_eq_getElem hi] at this
    simpa using this
  set H := Hier.ofRows (mstToLinkage wt es) with hH
  have hmonoD : ∀ i j, i ≤ j → j < H.m → H.d i ≤ H.d j := by
    intro i j hij hj
    rw [hdEs i (by omega), hdEs j (by omega)]
    rcases hij.lt_or_eq with h | rfl
    · exact List.pairwise_iff_getElem.1 hs i j _ _ h
    · exact le_rfl
  have hht : ∀ u v, H.Alive wt mcs v → H.n ≤ u → u ≤ H.root → H.Sub u v → lam (H.d (u - H.n)) ≤ lam (H.d (v - H.n)) := fun u v hva hu huR hsub =>
    hlam (hsub.height hv hmonoD hva.1 huR)
  obtain ⟨i, h1, h2, h3, h4⟩ := group_node hn hl ht hs hx hbig
  have hal : H.Alive wt mcs (n + i) := ⟨by omega, by omega, .inr h3⟩
  -- a sample below a surviving node leaves below it
  have hbelow : ∀ u, H.Alive wt mcs u → ∀ y v, H.Sub u y → H.Home wt mcs y v → H.Sub u v := by
    rintro u hu y v hsub ⟨hva, a, hka, hna, hsa⟩
    rcases hsub.comparable hv hsa with h | h
    · rcases h.cases_tail with h' | ⟨w, hw, hwk⟩
      · exact absurd (h' ▸ hu) hna
      · rw [hka.unique hv hwk]; exact hw
    · exact absurd (alive_up hh hu h (by have := hka.lt hv; have := hva.2.1; omega)) hna
  -- every row below the top cluster has a node
  have hnode : ∀ row ∈ T, row.parent = n → ∃ v, H.Alive wt mcs v ∧ relabel v = H.n ∧ row.lam = lam (H.d (v - H.n)) := by
    intro row hrow hp
    by_cases hc : row.child < H.n
    · obtain ⟨v, g1, g2, g3, _⟩ := hr.rows_pt row hrow hc
      exact ⟨v, g1.1, by omega, g3⟩
    · obtain ⟨_, _, v, g1, _, g2, g3, _⟩ := hr.rows_cl row hrow (by omega)
      exact ⟨v, g1, by omega, g3⟩
  by_cases hcase : ∀ row' ∈ T, row'.parent = n → row'.lam ≤ lam (H.d i)
  · left
    intro row hrow hc hcon row' hrow' hp'
    obtain ⟨v, hhome, _, hl', _⟩ := hr.rows_pt row hrow (by omega)
    have hsub := hbelow _ hal _ v ((h4 _ hc).2 hcon) hhome
    have := hht _ _ hhome.1 (by omega) (by omega) hsub
    rw [hHn, show n + i - n = i by omega, ← hHn, ← hl'] at this
    exact (hcase row' hrow' hp').trans this
  · right
    push Not at hcase
    obtain ⟨row0, hrow0, hp0, hlt0⟩ := hcase
    -- the row at the top cluster with the largest lambda
    obtain ⟨rowM, hM, hmaxM⟩ : ∃ r ∈ T.filter (fun row => decide (row.parent = n)), ∀ r' ∈ T.filter (fun row => decide (row.parent = n)), r'.lam ≤ r.lam := by
      exact list_max_lam (List.ne_nil_of_mem (List.mem_filter.2 ⟨hrow0, by simpa using hp0⟩))
    obtain ⟨hMT, hMp⟩ := List.mem_filter.1 hM
    have hMp : rowM.parent = n := by simpa using hMp
    have hmax : ∀ row' ∈ T, row'.parent = n → row'.lam ≤ rowM.lam := fun row' hrow' hp' => hmaxM row' (List.mem_filter.2 ⟨hrow', by simpa using hp'⟩)
    have hltM : lam (H.d i) < rowM.lam := hlt0.trans_le (hmax row0 hrow0 hp0)
    obtain ⟨v0, ha0, hr0, hl0⟩ := hnode rowM hMT hMp
    have hgv : H.Sub (n + i) v0 := by
      rcases hr.top_comparable hh ha0 hal hr0 with h | h
      · have := hht _ _ hal ha0.1 ha0.2.1 h
        rw [← hl0, hHn, show n + i - n = i by omega] at this
        exact absurd this (not_le.2 hltM)
      · exact h
    refine ⟨fun row hrow hc hdense => ?_, ?_⟩
    · obtain ⟨v, hhome, _, hl', _⟩ := hr.rows_pt row hrow (by omega)
      refine (h4 _ hc).1 ?_
      rcases hr.top_comparable hh ha0 hhome.1 hr0 with h | h
      · exact (hgv.trans h).trans (Home.sub hhome)
      · -- both lie above `v0`
        rcases hgv.comparable hv h with h' | h'
        · exact h'.trans (Home.sub hhome)
        · have := hht _ _ hal hhome.1.1 hhome.1.2.1 h'
          rw [← hl', hHn, show n + i - n = i by omega] at this
          exact absurd ((hdense rowM hMT hMp).trans this) (not_le.2 hltM)
    · obtain ⟨y, hy, hsy⟩ := exists_sample_below hv v0 ha0.2.1
      obtain ⟨row, hrow, hc⟩ := List.mem_map.1 (hr.complete y hy)
      refine ⟨row, hrow, by omega, fun row' hrow' hp' => ?_⟩
      obtain ⟨v, hhome, _, hl', _⟩ := hr.rows_pt row hrow (by omega)
      have := hht _ _ hhome.1 ha0.1 ha0.2.1 (hbelow v0 ha0 _ v (hc ▸ hsy) hhome)
      rw [← hl', ← hl0] at this
      exact (hmax row' hrow' hp').trans this

end
end Verif
