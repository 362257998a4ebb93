import Verif.Lemmas.CondFacts
import Verif.Spec.Simplify

/-!
# The rows of each cluster of a condensed tree are in the order of their lambdas
-/

namespace Verif
variable {W S L : Type*}

section
variable [LinearOrder S] [One S] {H : Hier W S} {wt : ℕ → S} {mcs : S} {mx : Option S} {lam : W → L}

/-- Labels that have been decided stay. -/
theorem condOut_relabel (hv : H.Valid) {P : List ℕ} {st : CondState L S} {v : ℕ} (hal : H.Alive wt mcs v) (hvP : v ∉ P) {w : ℕ} (hw : H.Ready P w) :
    (condOut H wt mcs mx lam st v).relabel w = st.relabel w := by
  have hre := H.root_eq
  have hn := hal.1
  have hr := hal.2.1
  have hka : H.IsKid v (H.l (v - H.n)) := ⟨hn, by omega, Or.inl rfl⟩
  have hkb : H.IsKid v (H.r (v - H.n)) := ⟨hn, by omega, Or.inr rfl⟩
  have hnk : ¬ H.IsKid v w := by
    intro hk
    rcases hw with rfl | ⟨u, hu, hk'⟩
    · exact hk.ne_root hv rfl
    · exact hvP (hk.unique hv hk' ▸ hu)
  have ha : w ≠ H.l (v - H.n) := fun he => hnk (he ▸ hka)
  have hb : w ≠ H.r (v - H.n) := fun he => hnk (he ▸ hkb)
  unfold condOut
  by_cases hs : H.Split wt mcs mx v
  · simp only [if_pos hs, Function.update_of_ne ha, Function.update_of_ne hb]
  · simp only [if_neg hs]
    rw [if_neg (by tauto)]

theorem relabel_stable (hh : CondHyp H wt mcs) (R P : List ℕ) (hP : H.bfs H.root = P ++ R) (st : CondState L S) (top : ℕ → ℕ)
    (h : CondInv H wt mcs mx lam P st top) {w : ℕ} (hw : H.Ready P w) :
    (R.foldl (condenseStep H wt mcs mx lam) st).relabel w = st.relabel w := by
  induction R generalizing P st top with
  | nil => rfl
  | cons v R ih =>
    obtain ⟨hvP, _, _, _, h1⟩ := h.visit hh hP
    have hP' : H.bfs H.root = P ++ [v] ++ R := by rw [hP]; simp
    rw [List.foldl_cons]
    rcases h1 with ⟨h1, h2⟩ | ⟨hal, h1, top', h2⟩
    · rw [h1]; exact ih _ hP' _ _ h2 (Ready.mono hw)
    · rw [h1, ih _ hP' _ _ h2 (Ready.mono hw)]
      exact condOut_relabel hh.valid hal hvP hw

/-- New rows carry the label and the lambda of the node visited. -/
theorem condOut_new {st : CondState L S} {v : ℕ} : ∃ new : List (CRow L S), (condOut H wt mcs mx lam st v).rows = st.rows ++ new ∧
    ∀ r ∈ new, r.parent = st.relabel v ∧ r.lam = lam (H.d (v - H.n)) := by
  refine ⟨_, rfl, fun r hr => ?_⟩
  rcases List.mem_append.1 hr with hr | hr
  · obtain ⟨c, _, hr⟩ := List.mem_flatMap.1 hr
    unfold elimRows at hr
    obtain ⟨x, _, rfl⟩ := List.mem_map.1 hr
    exact ⟨rfl, rfl⟩
  · split at hr
    · simp only [List.mem_cons, List.not_mem_nil, or_false] at hr
      rcases hr with rfl | rfl <;> exact ⟨rfl, rfl⟩
    · cases hr

/-- What comes before a node above it is above it. -/
theorem sub_mem_prefix (hv : H.Valid) {P : List ℕ} (hP : ∀ u ∈ P, H.Ready P u) {w : ℕ} (hw : w ∈ P) (hwr : w ≤ H.root) {v : ℕ} (hvr : v ≤ H.root)
    (hs : H.Sub v w) : v ∈ P := by
  induction hs with
  | refl => exact hw
  | @tail a b hab hk ih =>
    have := H.root_eq
    refine ih ?_ (by have := hk.2.1; omega)
    rcases hP b hw with h1 | ⟨u, h1, h2⟩
    · exact absurd h1 (hk.ne_root hv)
    · rw [hk.unique hv h2]; exact h1

theorem condense_lamSorted [Preorder W] [Preorder L] (hh : CondHyp H wt mcs) (hm : 0 < H.m) (hlam : Antitone lam)
    (hd : ∀ i j, i ≤ j → j < H.m → H.d i ≤ H.d j) : LamSorted (condenseTree H wt mcs none lam) := by
  have hv := hh.valid
  have hre := H.root_eq
  obtain ⟨topF, hF⟩ := condense_inv (L := L) (mx := none) hh lam
  have hres := hF.res hh hm
  have key : ∀ R P, H.bfs H.root = P ++ R → ∀ (st : CondState L S) top, CondInv H wt mcs none lam P st top →
      (R.foldl (condenseStep H wt mcs none lam) st) = (H.bfs H.root).foldl (condenseStep H wt mcs none lam) (condenseInit H) →
      LamSorted st.rows → LamSorted (R.foldl (condenseStep H wt mcs none lam) st).rows := by
    intro R
    induction R with
    | nil => exact fun _ _ _ _ _ _ hs => hs
    | cons v R ih =>
      intro P hP st top h hfin hsort
      obtain ⟨hvP, hready, hPr, hvr, h1⟩ := h.visit hh hP
      have hP' : H.bfs H.root = P ++ [v] ++ R := by rw [hP]; simp
      have hst : ∀ w, H.Ready P w → ((H.bfs H.root).foldl (condenseStep H wt mcs none lam) (condenseInit H : CondState L S)).relabel w = st.relabel w := by
        intro w hw
        rw [← hfin]
        exact relabel_stable hh _ _ hP _ _ h hw
      rw [List.foldl_cons] at hfin ⊢
      rcases h1 with ⟨h1, h2⟩ | ⟨hal, h1, top', h2⟩
      · rw [h1] at hfin ⊢
        exact ih _ hP' _ _ h2 hfin hsort
      · rw [h1] at hfin ⊢
        refine ih _ hP' _ _ h2 hfin ?_
        obtain ⟨new, e1, e2⟩ := condOut_new (H := H) (wt := wt) (mcs := mcs) (mx := none) (lam := lam) (st := st) (v := v)
        rw [e1]
        refine List.pairwise_append.2 ⟨hsort, ?_, ?_⟩
        · rw [List.pairwise_iff_forall_sublist]
          intro a b hab _
          have ha : a ∈ new := hab.subset (by simp)
          have hb : b ∈ new := hab.subset (by simp)
          rw [(e2 a ha).2, (e2 b hb).2]
        · intro a ha b hb hp
          have hor : ∃ w ∈ P, H.Alive wt mcs w ∧ a.parent = st.relabel w ∧ a.lam = lam (H.d (w - H.n)) := by
            by_cases hc : a.child < H.n
            · obtain ⟨w, w1, w2, w3, w4, _⟩ := h.rows_pt a ha hc
              exact ⟨w, w1, w2.1, w3, w4⟩
            · obtain ⟨_, _, w, w1, w2, _, w3, w4, _⟩ := h.rows_cl a ha (by omega)
              exact ⟨w, w1, w2, w3, w4⟩
          obtain ⟨w, w1, w2, w3, w4⟩ := hor
          rw [w4, (e2 b hb).2]
          apply hlam
          have hlab : st.relabel w = st.relabel v := by rw [← w3, hp, (e2 b hb).1]
          rw [← hst w (hPr w w1), ← hst v hready] at hlab
          have hsub : H.Sub w v := by
            rcases hres.label_chain hh w2 hal hlab with h3 | h3
            · exact h3
            · exact absurd (sub_mem_prefix hv hPr w1 w2.2.1 hvr h3) hvP
          have := hsub.le hv
          have := w2.2.1
          exact hd _ _ (by omega) (by have := w2.1; omega)
  exact key _ [] rfl _ _ (CondInv.init hv lam) rfl List.Pairwise.nil

end

/-- Every cluster of a condensed tree has rows. -/
theorem CondRes.full [LinearOrder S] [One S] {H : Hier W S} {wt : ℕ → S} {mcs : S} {mx : Option S} {lam : W → L} {rows : List (CRow L S)}
    {k : ℕ} {relabel top : ℕ → ℕ} (hh : CondHyp H wt mcs) (h : CondRes H wt mcs mx lam rows k relabel top) {c : ℕ} (hc : H.n ≤ c)
    (hck : c < H.n + k) : ∃ row ∈ rows, row.parent = c := by
  have hv := hh.valid
  obtain ⟨h1, _⟩ := h.tops c hc hck
  have hleaf : ∀ v, v ≤ H.root → ∃ x, x < H.n ∧ H.Sub v x := by
    intro v
    induction v using Nat.strong_induction_on with
    | _ v ih =>
      intro hvr
      by_cases hvn : v < H.n
      · exact ⟨v, hvn, Hier.Sub.refl v⟩
      · have hre := H.root_eq
        have hk : H.IsKid v (H.l (v - H.n)) := ⟨by omega, by omega, Or.inl rfl⟩
        have hlt := hk.lt hv
        obtain ⟨x, hx, hs⟩ := ih _ hlt (by omega)
        exact ⟨x, hx, (Hier.Sub.kid hk).trans hs⟩
  obtain ⟨x, hx, hs⟩ := hleaf _ h1.2.1
  have hd := (h.below_iff hh hc hck hx).2 hs
  rcases Relation.ReflTransGen.cases_head hd with h2 | ⟨d, ⟨row, hr, h3, _⟩, _⟩
  · omega
  · exact ⟨row, hr, h3⟩

end Verif
