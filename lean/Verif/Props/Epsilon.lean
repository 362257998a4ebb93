import Verif.Lemmas.Epsilon
import Verif.Spec.Selection
import Mathlib.Tactic.IntervalCases
import Mathlib.Data.Rat.Defs
import Mathlib.Algebra.Order.Ring.Rat

/-!
# Property C25: `cluster_selection_epsilon`
-/

namespace Verif
variable {L S : Type*} {n k : ℕ}

theorem CondTree.clBin [One S] [LT S] [DecidableLT S] {rows : List (CRow L S)} (h : CondTree n k rows)
    (hk : ∀ row ∈ rows, 1 < row.size ↔ n ≤ row.child) (hb : CBinary n k rows) : ClBin (clusterTree rows) := by
  intro c
  have he : ((clusterTree rows).filter fun row => decide (row.parent = c)) =
      rows.filter fun row => decide (n ≤ row.child ∧ row.parent = c) := by
    unfold clusterTree
    rw [List.filter_filter]
    apply List.filter_congr
    intro row hr
    rw [← Bool.decide_and]
    exact decide_eq_decide.2 ⟨fun h1 => ⟨(hk row hr).1 h1.2, h1.1⟩, fun h1 => ⟨h1.2, (hk row hr).2 h1.1⟩⟩
  rw [he]
  by_cases hc : n ≤ c ∧ c < n + k
  · rcases hb c hc.1 hc.2 with h1 | ⟨a, lv, s, t, _, h1⟩
    · exact .inl h1
    · exact .inr ⟨a, lv, s, t, h1⟩
  · left
    rw [List.filter_eq_nil_iff]
    intro row hr
    have := h.parents row hr
    simp only [decide_eq_true_eq, not_and]
    intro _ h2
    exact hc (by omega)

theorem CondTree.bornClose_iff [One S] [LT S] [DecidableLT S] {rows : List (CRow L S)}
    (hk : ∀ row ∈ rows, 1 < row.size ↔ n ≤ row.child) (close : L → Bool) {c : ℕ} (hc : n ≤ c) :
    BornClose close (clusterTree rows) c ↔ ∃ row ∈ rows, row.child = c ∧ close row.lam = true := by
  constructor
  · rintro ⟨row, h1, h2⟩; exact ⟨row, (List.mem_filter.1 h1).1, h2⟩
  · rintro ⟨row, h1, h2, h3⟩
    exact ⟨row, List.mem_filter.2 ⟨h1, decide_eq_true ((hk row h1).2 (by omega))⟩, h2, h3⟩

/-- **C25** (partial).  For every condensed tree with the shape shown in C17 and C18, every test `close` for "appeared at a
distance below epsilon" that is monotone in lambda, and every selection of non-nested clusters below the top one: the
search succeeds, and
* the result is again free of nesting and duplicates,
* every resulting cluster contains a cluster selected before,
* every resulting cluster other than the top one appeared at a distance of at least epsilon,
* a resulting cluster not selected before splits at a distance below epsilon,
* every cluster selected before that appeared at a distance of at least epsilon is kept,
* and (the claim proper) every cluster selected before is contained in a resulting one, *provided* that within a
  newly selected cluster no leaf has a smaller id than a cluster that splits outside of it.

Missing: the last point without the proviso, which is false (`C25_epsilon_drops_cluster`). -/
theorem C25_epsilon_merges_partial [One S] [LinearOrder S] [Preorder L] (rows : List (CRow L S)) (h : CondTree n k rows)
    (hk : ∀ row ∈ rows, 1 < row.size ↔ n ≤ row.child) (hb : CBinary n k rows) (hm : CMono rows) (close : L → Bool)
    (hclose : ∀ a b, a ≤ b → close a = true → close b = true) (hs : 1 < k) (sel : List ℕ)
    (hr : ∀ s ∈ sel, n < s ∧ s < n + k) (hnd : sel.Nodup) (hnn : NonNested rows sel) :
    ∃ out, epsilonSearch close (clusterTree rows) sel = some out ∧ NonNested rows out ∧ out.Nodup ∧
      (∀ o ∈ out, n ≤ o ∧ o < n + k ∧ ∃ s ∈ sel, CDesc rows o s) ∧
      (∀ o ∈ out, ∀ row ∈ rows, row.child = o → close row.lam = false) ∧
      (∀ o ∈ out, o ∈ sel ∨ ∀ row ∈ rows, row.parent = o → n ≤ row.child → close row.lam = true) ∧
      (∀ s ∈ sel, (∀ row ∈ rows, row.child = s → close row.lam = false) → s ∈ out) ∧
      ((∀ o ∈ out, o ∉ sel → ∀ l q, n ≤ l → n ≤ q → CDesc rows o l → Childless n rows l → l < q → ¬ Childless n rows q →
          CDesc rows o q) →
        ∀ s ∈ sel, ∃ o ∈ out, CDesc rows o s) := by
  have hc := h.clTree hk
  have hbin := h.clBin hk hb
  have hdesc : ∀ {a b}, n ≤ b → (CDesc (clusterTree rows) a b ↔ CDesc rows a b) := fun hb => h.desc_clusterTree hk hb
  have hroot : ((clusterTree rows).map CRow.parent).foldl min (((clusterTree rows).map CRow.parent).headD 0) = n := by
    obtain ⟨row, rest, he⟩ := hc.head_parent hs
    refine hc.root_eq hs _ ?_
    rw [he]; simp
  obtain ⟨st, h1, hi⟩ := hc.epsInv hbin close sel hr hnd
    (fun a ha b hb' hd => hnn a ha b hb' ((hdesc (by have := hr b hb'; omega)).1 hd))
  have hsearch : epsilonSearch close (clusterTree rows) sel = some st.1 := by
    unfold epsilonSearch
    simp only
    rw [hroot]
    change Option.map Prod.fst (sel.foldlM (epsStep close (clusterTree rows) (byParent (clusterTree rows)) n) ([], [])) = _
    rw [h1]; rfl
  -- facts about results
  have hrange : ∀ o ∈ st.1, n ≤ o ∧ o < n + k ∧ ∃ s ∈ sel, CDesc (clusterTree rows) o s := by
    intro o ho
    rcases hi.out o ho with h2 | ⟨s, h2, h3⟩
    · have := hr o h2.1
      exact ⟨by omega, by omega, o, h2.1, .refl⟩
    · have := hc.climbed_lt h3
      have := hr s h2
      exact ⟨by omega, by omega, s, h2, h3.desc⟩
  have hnb : ∀ o ∈ st.1, o = n ∨ ¬ BornClose close (clusterTree rows) o := by
    intro o ho
    rcases hi.out o ho with h2 | ⟨s, h2, h3⟩
    · exact .inr h2.2
    · exact h3.2
  have hfar : ∀ o ∈ st.1, ∀ row ∈ rows, row.child = o → close row.lam = false := by
    intro o ho row hrow he
    have h2 := hrange o ho
    have h3 : o ≠ n := by
      rintro rfl
      have := (h.children row.child).1 (List.mem_map_of_mem hrow)
      omega
    have h4 := (hnb o ho).resolve_left h3
    rw [CondTree.bornClose_iff hk close h2.1] at h4
    by_contra hcl
    exact h4 ⟨row, hrow, he, by simpa using hcl⟩
  have hsplit : ∀ o ∈ st.1, o ∈ sel ∨ ∀ row ∈ rows, row.parent = o → n ≤ row.child → close row.lam = true := by
    intro o ho
    rcases hi.out o ho with h2 | ⟨s, h2, ⟨x, ⟨xr, hx, hxp, hxc⟩, _, hxb⟩, _⟩
    · exact .inl h2.1
    · right
      intro row hrow hp hcn
      obtain ⟨xr', hx', hxc', hcl⟩ := hxb
      have : xr' = xr := List.inj_on_of_nodup_map hc.nodup hx' hx (hxc'.trans hxc.symm)
      subst this
      have hm1 : xr' ∈ (clusterTree rows).filter fun r => decide (r.parent = o) :=
        List.mem_filter.2 ⟨hx, decide_eq_true hxp⟩
      have hm2 : row ∈ (clusterTree rows).filter fun r => decide (r.parent = o) :=
        List.mem_filter.2 ⟨List.mem_filter.2 ⟨hrow, decide_eq_true ((hk row hrow).2 hcn)⟩, decide_eq_true hp⟩
      rcases hbin o with he | ⟨a, lv, s', t, he⟩
      · rw [he] at hm1; cases hm1
      · rw [he] at hm1 hm2
        have e1 : xr'.lam = lv := by
          rcases List.mem_cons.1 hm1 with h5 | h5
          · rw [h5]
          · rw [List.mem_singleton] at h5; rw [h5]
        have e2 : row.lam = lv := by
          rcases List.mem_cons.1 hm2 with h5 | h5
          · rw [h5]
          · rw [List.mem_singleton] at h5; rw [h5]
        rw [e2, ← e1]; exact hcl
  -- everything strictly below a merged cluster is close
  have hbelow : ∀ o, (∀ row ∈ rows, row.parent = o → n ≤ row.child → close row.lam = true) → ∀ b, n ≤ b →
      CDesc rows o b → b = o ∨ ∃ row ∈ rows, row.child = b ∧ close row.lam = true := by
    intro o ho b hbn hd
    induction hd with
    | refl => exact .inl rfl
    | @tail w b hw hst ih =>
      obtain ⟨row, hrow, rfl, rfl⟩ := hst
      right
      have hpn := (h.parents row hrow).1
      rcases ih hpn with h2 | ⟨row', h2, h3, h4⟩
      · exact ⟨row, hrow, rfl, ho row hrow h2 hbn⟩
      · exact ⟨row, hrow, rfl, hclose _ _ (hm row' h2 row hrow h3.symm) h4⟩
  refine ⟨st.1, hsearch, ?_, hi.nodup, ?_, hfar, hsplit, ?_, ?_⟩
  · intro a ha b hb' hd
    have hbr := hrange b hb'
    rcases hsplit a ha with h2 | h2
    · -- `a` was selected before
      obtain ⟨s, h3, h4⟩ := hbr.2.2
      have hsr := hr s h3
      have h5 : CDesc rows a s := hd.trans ((hdesc (by omega)).1 h4)
      have := hnn a h2 s h3 h5
      subst this
      have e1 := hc.desc_le h4
      have e2 := hc.desc_le ((hdesc hbr.1).2 hd)
      omega
    · rcases hbelow a h2 b hbr.1 hd with h3 | ⟨row, h3, h4, h5⟩
      · exact h3.symm
      · have := hfar b hb' row h3 h4
        rw [this] at h5; cases h5
  · intro o ho
    obtain ⟨h2, h3, s, h4, h5⟩ := hrange o ho
    exact ⟨h2, h3, s, h4, (hdesc (by have := hr s h4; omega)).1 h5⟩
  · intro s hs' hf
    refine hi.far s hs' ?_
    rintro ⟨row, h2, h3, h4⟩
    rw [hf row (List.mem_filter.1 h2).1 h3] at h4; cases h4
  · intro hord s hs'
    have hsr := hr s hs'
    by_cases hbc : BornClose close (clusterTree rows) s
    · obtain ⟨p, hp, ⟨s', hs1, hcl⟩, hmem⟩ := hi.near s hs' hbc
      have hpr := hrange p hp
      have hps : p ∉ sel := by
        intro hps
        have h2 := hnn p hps s' hs1 ((hdesc (by have := hr s' hs1; omega)).1 hcl.desc)
        have := hc.climbed_lt hcl
        omega
      refine ⟨p, hp, (hdesc (by omega)).1 ?_⟩
      refine segments_sub hbin (P := p) ?_ _ _ (fun a ha => by rw [List.mem_singleton] at ha; subst ha; exact .refl) hmem
      intro l q hl hleaf hlt hq
      have hln := hc.desc_range hl hpr.1 hpr.2.1
      obtain ⟨d, rq, hq1, hq2, hq3⟩ := hq
      have hqn := hc.par rq hq1
      refine (hdesc (by omega)).2 (hord p hp hps l q hln.1 (by omega) ((hdesc hln.1).1 hl) ?_ hlt ?_)
      · intro row hrow hpl
        by_contra hcn
        exact hleaf row.child ⟨row, List.mem_filter.2 ⟨hrow, decide_eq_true ((hk row hrow).2 (by omega))⟩, hpl, rfl⟩
      · intro hch
        have := hch rq (List.mem_filter.1 hq1).1 hq2
        omega
    · exact ⟨s, hi.far s hs' hbc, .refl⟩

/-- The test of the code is monotone in lambda. -/
theorem epsClose_mono {K : Type*} [Field K] [LinearOrder K] [IsStrictOrderedRing K] (eps a b : K) (hab : a ≤ b)
    (ha : epsClose eps a = true) : epsClose eps b = true := by
  simp only [epsClose, decide_eq_true_eq] at *
  exact ⟨lt_of_lt_of_le ha.1 hab, lt_of_le_of_lt (one_div_le_one_div_of_le ha.1 hab) ha.2⟩

/-- Cluster tree over the samples 0 … 9 with the clusters 10 … 18: 10 splits into 11, 12 at distance 10; 11 into 13, 14 at
distance 1; 12 into 15, 16 at distance 8; 15 into 17, 18 at distance 1. -/
def exEps : List (CRow ℚ ℚ) :=
  [⟨10, 11, 1 / 10, 4⟩, ⟨10, 12, 1 / 10, 6⟩, ⟨11, 13, 1, 2⟩, ⟨11, 14, 1, 2⟩, ⟨12, 15, 1 / 8, 4⟩, ⟨12, 16, 1 / 8, 2⟩,
    ⟨13, 0, 2, 1⟩, ⟨13, 1, 2, 1⟩, ⟨14, 2, 2, 1⟩, ⟨14, 3, 2, 1⟩, ⟨15, 17, 1, 2⟩, ⟨15, 18, 1, 2⟩, ⟨16, 4, 2, 1⟩,
    ⟨16, 5, 2, 1⟩, ⟨17, 6, 2, 1⟩, ⟨17, 7, 2, 1⟩, ⟨18, 8, 2, 1⟩, ⟨18, 9, 2, 1⟩]

theorem exEps_condTree : CondTree 10 9 exEps :=
  .of_check (by decide) (by decide +kernel) (by decide +kernel) (by decide +kernel) (by decide +kernel)
    (by decide +kernel) (by decide +kernel)

theorem exEps_kind : ∀ row ∈ exEps, 1 < row.size ↔ 10 ≤ row.child := by decide +kernel

theorem exEps_mono : CMono exEps := by unfold CMono; decide +kernel

theorem exEps_binary : CBinary 10 9 exEps := by
  intro c h1 h2
  interval_cases c
  · exact .inr ⟨11, 1 / 10, 4, 6, by decide, by decide +kernel⟩
  · exact .inr ⟨13, 1, 2, 2, by decide, by decide +kernel⟩
  · exact .inr ⟨15, 1 / 8, 4, 2, by decide, by decide +kernel⟩
  · exact .inl (by decide +kernel)
  · exact .inl (by decide +kernel)
  · exact .inr ⟨17, 1, 2, 2, by decide, by decide +kernel⟩
  · exact .inl (by decide +kernel)
  · exact .inl (by decide +kernel)
  · exact .inl (by decide +kernel)

theorem exEps_leaves_nonNested : NonNested exEps [13, 14, 16, 17, 18] := by
  intro a ha b hb hd
  have hc := exEps_condTree.clTree exEps_kind
  have hbn : 10 ≤ b := by
    simp only [List.mem_cons, List.not_mem_nil, or_false] at hb; omega
  rcases desc_cases ((exEps_condTree.desc_clusterTree exEps_kind hbn).2 hd) with h | ⟨c, h, _⟩
  · exact h.symm
  · exfalso
    have : ∀ a ∈ [13, 14, 16, 17, 18], kidsOf (clusterTree exEps) a = [] := by decide +kernel
    rw [this a ha] at h; cases h

/-- **C25 fails**: with leaf selection and `cluster_selection_epsilon = 5` the clusters 17 and 18 should be merged into 15;
they are dropped instead, because the search for the branch of 11 runs on from leaf 14 to the children of the next larger
splitting cluster 15.  The result is `{11, 16}`, and neither contains 17 or 18. -/
theorem C25_epsilon_drops_cluster : CondTree 10 9 exEps ∧ CBinary 10 9 exEps ∧ CMono exEps ∧
    leafSelection (clusterTree exEps) 10 = [13, 14, 16, 17, 18] ∧
    epsilonSearch (epsClose 5) (clusterTree exEps) [13, 14, 16, 17, 18] = some [11, 16] ∧
    ¬ ∃ o ∈ [11, 16], CDesc exEps o 17 := by
  refine ⟨exEps_condTree, exEps_binary, exEps_mono, by decide +kernel, by decide +kernel, ?_⟩
  rintro ⟨o, ho, hd⟩
  rw [← exEps_condTree.desc_clusterTree exEps_kind (by decide)] at hd
  have k11 : kidsOf (clusterTree exEps) 11 = [13, 14] := by decide +kernel
  have kl : ∀ a ∈ [13, 14, 16], kidsOf (clusterTree exEps) a = [] := by decide +kernel
  have hleaf : ∀ a ∈ [13, 14, 16], ¬ CDesc (clusterTree exEps) a 17 := by
    intro a ha h
    rcases desc_cases h with h1 | ⟨c, h1, _⟩
    · subst h1; exact absurd ha (by decide)
    · rw [kl a ha] at h1; cases h1
  simp only [List.mem_cons, List.not_mem_nil, or_false] at ho
  rcases ho with rfl | rfl
  · rcases desc_cases hd with h1 | ⟨c, h1, h2⟩
    · cases h1
    · rw [k11] at h1
      simp only [List.mem_cons, List.not_mem_nil, or_false] at h1
      rcases h1 with rfl | rfl
      · exact hleaf 13 (by decide) h2
      · exact hleaf 14 (by decide) h2
  · exact hleaf 16 (by decide) hd

/-- The hypotheses of the theorem hold for this tree. -/
example : ∃ out, epsilonSearch (epsClose 5) (clusterTree exEps) [13, 14, 16, 17, 18] = some out ∧ NonNested exEps out :=
  (C25_epsilon_merges_partial exEps exEps_condTree exEps_kind exEps_binary exEps_mono (epsClose 5)
    (epsClose_mono 5) (by decide) _ (by decide) (by decide) exEps_leaves_nonNested).imp fun _ h => ⟨h.1, h.2.1⟩

theorem exEps_mixed_nonNested : NonNested exEps [11, 16, 17, 18] := by
  intro a ha b hb hd
  have hbn : 10 ≤ b := by
    simp only [List.mem_cons, List.not_mem_nil, or_false] at hb; omega
  have hd' := (exEps_condTree.desc_clusterTree exEps_kind hbn).2 hd
  have k11 : kidsOf (clusterTree exEps) 11 = [13, 14] := by decide +kernel
  have kl : ∀ a ∈ [13, 14, 16, 17, 18], kidsOf (clusterTree exEps) a = [] := by decide +kernel
  have hleaf : ∀ a ∈ [13, 14, 16, 17, 18], CDesc (clusterTree exEps) a b → b = a := by
    intro a ha h
    rcases desc_cases h with h1 | ⟨c, h1, _⟩
    · exact h1
    · rw [kl a ha] at h1; cases h1
  simp only [List.mem_cons, List.not_mem_nil, or_false] at ha
  rcases ha with rfl | rfl | rfl | rfl
  · rcases desc_cases hd' with h1 | ⟨c, h1, h2⟩
    · exact h1.symm
    · rw [k11] at h1
      simp only [List.mem_cons, List.not_mem_nil, or_false] at h1
      rcases h1 with rfl | rfl
      · have := hleaf 13 (by decide) h2; subst this; exact absurd hb (by decide)
      · have := hleaf 14 (by decide) h2; subst this; exact absurd hb (by decide)
  · exact (hleaf 16 (by decide) hd').symm
  · exact (hleaf 17 (by decide) hd').symm
  · exact (hleaf 18 (by decide) hd').symm

/-- With 11 itself selected, the proviso holds too, and 17 and 18 are merged into 15. -/
example : epsilonSearch (epsClose 5) (clusterTree exEps) [11, 16, 17, 18] = some [11, 16, 15] ∧
    ∀ s ∈ [11, 16, 17, 18], ∃ o ∈ [11, 16, 15], CDesc exEps o s := by
  have he : epsilonSearch (epsClose 5) (clusterTree exEps) [11, 16, 17, 18] = some [11, 16, 15] := by decide +kernel
  refine ⟨he, ?_⟩
  obtain ⟨out, h1, _, _, _, _, _, _, h2⟩ := C25_epsilon_merges_partial exEps exEps_condTree exEps_kind exEps_binary
    exEps_mono (epsClose 5) (epsClose_mono 5) (by decide) _ (by decide) (by decide) exEps_mixed_nonNested
  rw [he, Option.some.injEq] at h1
  subst h1
  apply h2
  intro o ho hos l q hl hq hd hch hlt hnch
  have ho' : o = 15 := by
    simp only [List.mem_cons, List.not_mem_nil, or_false] at ho hos; omega
  subst ho'
  have hge : 15 ≤ l := (exEps_condTree.clTree exEps_kind).desc_le
    ((exEps_condTree.desc_clusterTree exEps_kind hl).2 hd)
  exfalso
  apply hnch
  have hall : ∀ row ∈ exEps, 15 < row.parent → row.child < 10 := by decide +kernel
  intro row hrow hp
  exact hall row hrow (by omega)

end Verif
