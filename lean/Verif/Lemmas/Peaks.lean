import Verif.Model.Layers
import Verif.Spec.Layers
import Mathlib.Order.Basic
import Mathlib.Data.Finset.Card
import Mathlib.Algebra.Order.Field.Rat

/-!
# Peaks and their selection
-/

namespace Verif
variable {W K : Type*}

theorem lookAhead_spec [DecidableEq W] (x : ℕ → W) (iMax i : ℕ) (fuel j : ℕ) (hf : iMax ≤ fuel + j) (hj : i < j) (hji : j ≤ iMax)
    (hflat : ∀ k, i ≤ k → k < j → x k = x i) :
    j ≤ lookAhead x iMax i fuel j ∧ lookAhead x iMax i fuel j ≤ iMax ∧ (∀ k, i ≤ k → k < lookAhead x iMax i fuel j → x k = x i) ∧
      (lookAhead x iMax i fuel j < iMax → x (lookAhead x iMax i fuel j) ≠ x i) := by
  induction fuel generalizing j with
  | zero =>
    unfold lookAhead
    exact ⟨le_refl _, hji, hflat, fun h => by omega⟩
  | succ fuel ih =>
    unfold lookAhead
    split
    · rename_i h
      obtain ⟨h1, h2, h3, h4⟩ := ih (j + 1) (by omega) (by omega) (by omega) (fun k hk1 hk2 => by
        by_cases hkj : k = j
        · rw [hkj]; exact h.2
        · exact hflat k hk1 (by omega))
      exact ⟨by omega, h2, h3, h4⟩
    · rename_i h
      exact ⟨le_refl _, hji, hflat, fun hlt he => h ⟨hlt, he⟩⟩

/-- What the loop returns from position `i` on. -/
theorem peakLoop_spec [LinearOrder W] (x : ℕ → W) (n fuel i : ℕ) (hi : 0 < i) (hf : n - 1 ≤ fuel + i) :
    ∃ ps : List (ℕ × ℕ), peakLoop x (n - 1) fuel i = ps.map (fun p => (p.1 + p.2) / 2) ∧
      (∀ l r, (l, r) ∈ ps ↔ PlateauMax n x l r ∧ i ≤ l) ∧ ps.Pairwise (fun p q => p.2 + 1 < q.1) := by
  induction fuel generalizing i with
  | zero =>
    refine ⟨[], rfl, fun l r => ?_, List.Pairwise.nil⟩
    simp only [List.not_mem_nil, false_iff, not_and]
    intro h
    have := h.le; have := h.lt
    omega
  | succ fuel ih =>
    unfold peakLoop
    split
    · rename_i hin
      have skip : (∀ r, ¬ PlateauMax n x i r) → ∃ ps : List (ℕ × ℕ), peakLoop x (n - 1) fuel (i + 1) = ps.map (fun p => (p.1 + p.2) / 2) ∧
          (∀ l r, (l, r) ∈ ps ↔ PlateauMax n x l r ∧ i ≤ l) ∧ ps.Pairwise (fun p q => p.2 + 1 < q.1) := by
        intro hno
        obtain ⟨ps, h1, h2, h3⟩ := ih (i + 1) (by omega) (by omega)
        refine ⟨ps, h1, fun l r => ?_, h3⟩
        rw [h2]
        refine and_congr_right fun hp => ⟨fun h => by omega, fun h => ?_⟩
        rcases Nat.eq_or_lt_of_le h with rfl | h
        · exact absurd hp (hno r)
        · exact h
      split
      · rename_i hup
        obtain ⟨h1, h2, h3, h4⟩ := lookAhead_spec x (n - 1) i (n - 1) (i + 1) (by omega) (by omega) (by omega) (fun k hk1 hk2 => by
          have : k = i := by omega
          rw [this])
        simp only
        generalize lookAhead x (n - 1) i (n - 1) (i + 1) = a at h1 h2 h3 h4
        -- a plateau starting at `i` must end at `a - 1`
        have hend : ∀ r, PlateauMax n x i r → r + 1 = a := by
          intro r hp
          by_contra hne
          rcases Nat.lt_or_ge (r + 1) a with h5 | h5
          · have := hp.right
            rw [h3 (r + 1) (by have := hp.le; omega) h5] at this
            exact lt_irrefl _ this
          · have h6 : a ≤ r := by omega
            have h7 := hp.flat a (by omega) h6
            have h8 := hp.lt
            exact h4 (by omega) h7
        split
        · rename_i hdown
          have hp : PlateauMax n x i (a - 1) := ⟨hi, by omega, by omega, fun j hj1 hj2 => h3 j hj1 (by omega), hup, by
            rw [show a - 1 + 1 = a by omega]; exact hdown⟩
          obtain ⟨ps, g1, g2, g3⟩ := ih (a + 1) (by omega) (by omega)
          refine ⟨(i, a - 1) :: ps, by rw [List.map_cons, g1], fun l r => ?_, List.pairwise_cons.2 ⟨fun q hq => ?_, g3⟩⟩
          · rw [List.mem_cons, g2]
            constructor
            · rintro (h | h)
              · cases h; exact ⟨hp, le_refl _⟩
              · exact ⟨h.1, by omega⟩
            · rintro ⟨hq, hl⟩
              rcases Nat.lt_or_ge a l with h5 | h5
              · exact Or.inr ⟨hq, h5⟩
              · left
                rcases Nat.eq_or_lt_of_le hl with rfl | hl
                · have := hend r hq
                  rw [Prod.mk.injEq]; exact ⟨rfl, by omega⟩
                · exfalso
                  have hql := hq.left
                  rcases Nat.eq_or_lt_of_le h5 with rfl | h5
                  · rw [h3 (l - 1) (by omega) (by omega)] at hql
                    exact absurd hql (not_lt.2 (le_of_lt hdown))
                  · rw [h3 (l - 1) (by omega) (by omega), h3 l (by omega) h5] at hql
                    exact lt_irrefl _ hql
          · obtain ⟨l, r⟩ := q
            have := ((g2 l r).1 hq).2
            simp only; omega
        · rename_i hdown
          refine skip fun r hp => hdown ?_
          rw [← hend r hp]; exact hp.right
      · rename_i hup
        exact skip fun r hp => hup hp.left
    · refine ⟨[], rfl, fun l r => ?_, List.Pairwise.nil⟩
      simp only [List.not_mem_nil, false_iff, not_and]
      intro h
      have := h.le; have := h.lt
      omega

/-- Separated stretches inside `i … n-2` number at most `(n - i) / 2`. -/
theorem separated_length {n i : ℕ} (ps : List (ℕ × ℕ)) (hle : ∀ p ∈ ps, i ≤ p.1 ∧ p.1 ≤ p.2 ∧ p.2 + 1 < n) (hp : ps.Pairwise (fun p q => p.2 + 1 < q.1)) :
    2 * ps.length + i ≤ n ∨ ps = [] := by
  induction ps generalizing i with
  | nil => exact Or.inr rfl
  | cons p ps ih =>
    left
    obtain ⟨h1, h2⟩ := List.pairwise_cons.1 hp
    obtain ⟨a1, a2, a3⟩ := hle p (by simp)
    rcases ih (i := p.2 + 2) (fun q hq => ⟨h1 q hq, (hle q (by simp [hq])).2⟩) h2 with h | h
    · simp only [List.length_cons]; omega
    · subst h
      simp only [List.length_cons, List.length_nil]; omega

/-! ## Jaccard similarity -/

theorem jaccardLoop_spec (b : List ℕ) (u : List ℕ) (c : ℕ) (A : Finset ℕ) (hb : b.Nodup) (hu : u.Nodup) (hA : A ⊆ u.toFinset)
    (hd : ∀ y ∈ b, y ∈ u → y ∈ A) :
    (jaccardLoop b (u, c)).1.Nodup ∧ (jaccardLoop b (u, c)).1.toFinset = u.toFinset ∪ b.toFinset ∧
      (jaccardLoop b (u, c)).2 = c + (A ∩ b.toFinset).card := by
  induction b generalizing u c with
  | nil => simp [jaccardLoop, hu]
  | cons y b ih =>
    obtain ⟨hy, hb'⟩ := List.nodup_cons.1 hb
    unfold jaccardLoop
    have hyb : y ∉ A ∩ b.toFinset := by simp [hy]
    simp only
    split
    · rename_i hyu
      have hyA := hd y (by simp) hyu
      obtain ⟨h1, h2, h3⟩ := ih u (c + 1) hb' hu hA (fun z hz => hd z (by simp [hz]))
      refine ⟨h1, ?_, ?_⟩
      · rw [h2]
        ext z
        simp only [List.toFinset_cons, Finset.mem_union, Finset.mem_insert, List.mem_toFinset]
        constructor
        · rintro (h | h)
          · exact Or.inl h
          · exact Or.inr (Or.inr h)
        · rintro (h | rfl | h)
          · exact Or.inl h
          · exact Or.inl hyu
          · exact Or.inr h
      · rw [h3, List.toFinset_cons, Finset.inter_insert_of_mem hyA, Finset.card_insert_of_notMem hyb]
        omega
    · rename_i hyu
      have hyA : y ∉ A := fun h => hyu (List.mem_toFinset.1 (hA h))
      obtain ⟨h1, h2, h3⟩ := ih (y :: u) c hb' (List.nodup_cons.2 ⟨hyu, hu⟩) (fun z hz => by
        have := hA hz
        simp only [List.toFinset_cons, Finset.mem_insert]
        exact Or.inr this) (fun z hz hzu => by
          rcases List.mem_cons.1 hzu with rfl | hzu
          · exact absurd hz hy
          · exact hd z (by simp [hz]) hzu)
      refine ⟨h1, ?_, ?_⟩
      · rw [h2]
        ext z
        simp only [List.toFinset_cons, Finset.mem_union, Finset.mem_insert, List.mem_toFinset]
        tauto
      · rw [h3, List.toFinset_cons, Finset.inter_insert_of_notMem hyA]

theorem jaccardSimilarity_eq {a b : List ℕ} (ha : a.Nodup) (hb : b.Nodup) : jaccardSimilarity a b = jaccard a.toFinset b.toFinset := by
  have hda : a.dedup = a := ha.dedup
  obtain ⟨h1, h2, h3⟩ := jaccardLoop_spec b a 0 a.toFinset hb ha (Finset.Subset.refl _) (fun y _ hy => List.mem_toFinset.2 hy)
  unfold jaccardSimilarity jaccard
  simp only [hda]
  rw [h3, zero_add]
  have hlen : (jaccardLoop b (a, 0)).1.length = (a.toFinset ∪ b.toFinset).card := by
    rw [← h2, List.toFinset_card_of_nodup h1]
  rw [hlen]
  split
  · rfl
  · rename_i h
    have : (a.toFinset ∪ b.toFinset).card = 0 := by omega
    rw [this]; simp

theorem activeAt_toFinset [LinearOrder W] (m : ℕ) (births deaths : ℕ → W) (size : W) :
    (activeAt m births deaths size).toFinset = (Finset.range m).filter fun i => births i ≤ size ∧ size < deaths i := by
  ext i
  simp [activeAt]

theorem clusterSimilarity_eq [LinearOrder W] (m : ℕ) (births deaths : ℕ → W) (a b : W) :
    clusterSimilarity m births deaths a b = jaccard ((Finset.range m).filter fun i => births i ≤ a ∧ a < deaths i)
      ((Finset.range m).filter fun i => births i ≤ b ∧ b < deaths i) := by
  unfold clusterSimilarity
  rw [jaccardSimilarity_eq (show (activeAt m births deaths a).Nodup from List.nodup_range.filter _)
    (show (activeAt m births deaths b).Nodup from List.nodup_range.filter _), activeAt_toFinset, activeAt_toFinset]

theorem jaccard_comm (A B : Finset ℕ) : jaccard A B = jaccard B A := by
  unfold jaccard; rw [Finset.inter_comm, Finset.union_comm]

/-! ## Greedy selection -/

theorem diverseLoop_spec (sim : ℕ → ℕ → ℚ) (thr : ℚ) (ml : ℕ) (before : ℕ → ℕ → Prop) (ps sel done : List ℕ)
    (hsub : sel.Sublist done) (hlen : sel.length ≤ ml) (hpw : sel.Pairwise fun q p => sim p q ≤ thr)
    (hdone : ∀ p ∈ done, p ∉ sel → ∃ q ∈ sel, before q p ∧ thr < sim p q)
    (hord : (done ++ ps).Pairwise before) :
    let out := diverseLoop sim thr ml ps sel
    out.Sublist (done ++ ps) ∧ out.length ≤ ml ∧ (out.Pairwise fun q p => sim p q ≤ thr) ∧
      ∀ p ∈ done ++ ps, p ∉ out → (∃ q ∈ out, before q p ∧ thr < sim p q) ∨ (out.length = ml ∧ ∀ q ∈ out, before q p) := by
  induction ps generalizing sel done with
  | nil =>
    simp only [diverseLoop, List.append_nil]
    exact ⟨hsub, hlen, hpw, fun p hp hn => Or.inl (hdone p hp hn)⟩
  | cons p ps ih =>
    simp only
    unfold diverseLoop
    have hassoc : done ++ p :: ps = (done ++ [p]) ++ ps := by simp
    split
    · rename_i hfull
      refine ⟨hsub.trans (List.sublist_append_left _ _), hlen, hpw, fun q hq hn => ?_⟩
      rcases List.mem_append.1 hq with hq | hq
      · exact Or.inl (hdone q hq hn)
      · exact Or.inr ⟨by omega, fun r hr => (List.pairwise_append.1 hord).2.2 r (hsub.subset hr) q hq⟩
    · rename_i hroom
      have hbp : ∀ q ∈ sel, before q p := fun q hq => (List.pairwise_append.1 hord).2.2 q (hsub.subset hq) p (by simp)
      split
      · rename_i hsim
        rw [List.any_eq_true] at hsim
        obtain ⟨q, hq, hs⟩ := hsim
        have hs := of_decide_eq_true hs
        have := ih sel (done ++ [p]) (hsub.trans (List.sublist_append_left _ _)) hlen hpw (fun r hr hn => by
          rcases List.mem_append.1 hr with hr | hr
          · exact hdone r hr hn
          · rw [List.mem_singleton] at hr
            subst hr
            exact ⟨q, hq, hbp q hq, hs⟩) (by rw [← hassoc]; exact hord)
        rw [hassoc]
        exact this
      · rename_i hsim
        have hsim' : ∀ q ∈ sel, sim p q ≤ thr := by
          intro q hq
          by_contra hc
          exact hsim (List.any_eq_true.2 ⟨q, hq, decide_eq_true (not_le.1 hc)⟩)
        have := ih (sel ++ [p]) (done ++ [p]) (hsub.append (List.Sublist.refl _)) (by simp; omega)
          (List.pairwise_append.2 ⟨hpw, List.pairwise_singleton _ _, fun q hq r hr => by
            rw [List.mem_singleton] at hr; subst hr; exact hsim' q hq⟩)
          (fun r hr hn => by
            rw [List.mem_append, not_or] at hn
            rcases List.mem_append.1 hr with hr | hr
            · obtain ⟨q, hq, h⟩ := hdone r hr hn.1
              exact ⟨q, List.mem_append_left _ hq, h⟩
            · exact absurd hr hn.2) (by rw [← hassoc]; exact hord)
        rw [hassoc]
        exact this

end Verif
