import Verif.Lemmas.ClTree
import Verif.Lemmas.FitTree
import Verif.Model.Bcubed
import Verif.Spec.Bcubed
import Mathlib.Algebra.BigOperators.Group.Finset.Basic
import Mathlib.Algebra.Order.Field.Basic
import Mathlib.Data.Nat.Cast.Order.Field
import Mathlib.Algebra.BigOperators.Field
import Mathlib.Tactic.FieldSimp
import Mathlib.Tactic.Ring

/-!
# Lemmas: labelled samples of every cluster, and the B-cubed score
-/

namespace Verif
variable {L S K : Type*} {n k : ℕ}

theorem mem_labelIdx {m : ℕ} {lab : ℕ → ℤ} {x : ℕ} : x ∈ labelIdx m lab ↔ x < m ∧ 0 ≤ lab x := by
  simp only [labelIdx, List.mem_filter, List.mem_range, decide_eq_true_eq]
  constructor <;> rintro ⟨h1, h2⟩ <;> exact ⟨h1, by omega⟩

theorem labelIdx_nodup {m : ℕ} {lab : ℕ → ℤ} : (labelIdx m lab).Nodup := List.nodup_range.filter _

theorem labelIdx_toFinset {m : ℕ} {lab : ℕ → ℤ} : (labelIdx m lab).toFinset = labelledSamples m lab := by
  ext x
  rw [List.mem_toFinset, mem_labelIdx, labelledSamples, Finset.mem_filter, Finset.mem_range]

/-- Adding a row whose parent is nobody's child. -/
theorem desc_cons {row : CRow L S} {post : List (CRow L S)} (h1 : ∀ r ∈ post, r.child ≠ row.parent)
    (h2 : row.child ≠ row.parent) {q x : ℕ} :
    CDesc (row :: post) q x ↔ CDesc post q x ∨ (q = row.parent ∧ CDesc post row.child x) := by
  have hmono : ∀ {a b}, CDesc post a b → CDesc (row :: post) a b := fun h =>
    Relation.ReflTransGen.mono (p := CStep (row :: post)) (fun a b ⟨r, h1, h2⟩ => ⟨r, by simp [h1], h2⟩) _ _ h
  constructor
  · intro h
    induction h with
    | refl => exact .inl .refl
    | @tail b c hb hc ih =>
      obtain ⟨r, hr, rfl, rfl⟩ := hc
      rcases List.mem_cons.1 hr with h3 | h3
      · subst h3
        have hq : q = r.parent := by
          rcases Relation.ReflTransGen.cases_tail hb with h4 | ⟨e, _, r', h5, h6, h7⟩
          · exact h4.symm
          · rcases List.mem_cons.1 h5 with h8 | h8
            · subst h8; exact absurd h7 h2
            · exact absurd h7 (h1 r' h8)
        exact .inr ⟨hq, .refl⟩
      · rcases ih with h4 | ⟨h4, h5⟩
        · exact .inl (h4.tail ⟨r, h3, rfl, rfl⟩)
        · exact .inr ⟨h4, h5.tail ⟨r, h3, rfl, rfl⟩⟩
  · rintro (h | ⟨rfl, h⟩)
    · exact hmono h
    · exact .head ⟨row, by simp, rfl, rfl⟩ (hmono h)

theorem desc_no_child {post : List (CRow L S)} {p : ℕ} (h1 : ∀ r ∈ post, r.child ≠ p) {q : ℕ} (h : CDesc post q p) : q = p := by
  rcases Relation.ReflTransGen.cases_tail h with h4 | ⟨e, _, r', h5, h6, h7⟩
  · exact h4.symm
  · exact absurd h7 (h1 r' h5)

theorem mem_dict_set {V : Type*} (d : ScoreDict V) (p : ℕ) (v : V) (c : ℕ) : c ∈ (d.set p v).keys ↔ c ∈ d.keys ∨ c = p := by
  unfold ScoreDict.set
  by_cases h : p ∈ d.keys
  · simp only [if_pos h]
    exact ⟨.inl, fun h1 => h1.elim id fun h2 => h2 ▸ h⟩
  · simp only [if_neg h, List.mem_append, List.mem_singleton]

theorem nodup_dict_set {V : Type*} (d : ScoreDict V) (p : ℕ) (v : V) (h : d.keys.Nodup) : (d.set p v).keys.Nodup := by
  unfold ScoreDict.set
  by_cases hp : p ∈ d.keys
  · simp only [if_pos hp]; exact h
  · simp only [if_neg hp]
    exact List.nodup_append.2 ⟨h, by simp, by intro a ha b hb; simp only [List.mem_singleton] at hb; subst hb; rintro rfl; exact hp ha⟩

/-- `clusterElements` never fails, has an entry for each cluster, listing the labelled samples below it once. -/
theorem CondTree.elems {rows : List (CRow L S)} (h : CondTree n k rows)
    (hfull : ∀ c, n ≤ c → c < n + k → ∃ row ∈ rows, row.parent = c) (m : ℕ) (lab : ℕ → ℤ) (hm : m ≤ n) :
    ∃ d, clusterElements rows m lab = some d ∧ d.keys.Nodup ∧ (∀ c, c ∈ d.keys ↔ n ≤ c ∧ c < n + k) ∧
      ∀ c, n ≤ c → c < n + k → (d.val c).Nodup ∧ ∀ x, x ∈ d.val c ↔ x ∈ labelIdx m lab ∧ CDesc rows c x := by
  have hmain : ∀ post, post <:+ rows → ∃ d : ScoreDict (List ℕ),
      post.reverse.foldlM (elemStep (rows.map CRow.parent) (labelIdx m lab)) ⟨[], fun _ => []⟩ = some d ∧ d.keys.Nodup ∧
      (∀ c, c ∈ d.keys ↔ c ∈ post.map CRow.parent) ∧
      ∀ c ∈ d.keys, (d.val c).Nodup ∧ ∀ x, x ∈ d.val c ↔ x ∈ labelIdx m lab ∧ CDesc post c x := by
    intro post
    induction post with
    | nil => intro _; exact ⟨_, rfl, by simp, by simp, by simp⟩
    | cons row post ih =>
      intro hs
      obtain ⟨d, h1, h2, h3, h4⟩ := ih ((List.suffix_cons row post).trans hs)
      obtain ⟨pre, hpre⟩ := hs
      have hrow : row ∈ rows := by rw [← hpre]; simp
      have hpostsub : ∀ r ∈ post, r ∈ rows := fun r hr => by rw [← hpre]; simp [hr]
      have hidx : rows[pre.length]? = some row := by rw [← hpre]; simp
      have hnd := h.nodup
      rw [← hpre, List.map_append, List.map_cons] at hnd
      have hnd2 := (List.nodup_cons.1 (List.nodup_append.1 hnd).2.1).1
      -- the parent is nobody's child further down
      have hnoc : ∀ r ∈ post, r.child ≠ row.parent := by
        intro r hr he
        rcases h.order pre.length row hidx with h5 | ⟨j, r', h5, h6, h7⟩
        · have := (h.children r.child).1 (List.mem_map_of_mem (hpostsub r hr))
          rw [he, h5] at this; omega
        · have h8 : r' ∈ pre := by
            rw [← hpre, List.getElem?_append_left h5] at h6
            exact List.mem_of_getElem? h6
          have h9 := (List.nodup_append.1 hnd).2.2 r'.child (List.mem_map_of_mem h8) r.child
            (by simp only [List.mem_cons]; exact .inr (List.mem_map_of_mem hr))
          exact h9 (h7.trans he.symm)
      have hself : row.child ≠ row.parent := by
        intro he
        have := h.parents row hrow
        have := h.down row hrow (by omega)
        omega
      have hdesc : ∀ {q x}, CDesc (row :: post) q x ↔ CDesc post q x ∨ (q = row.parent ∧ CDesc post row.child x) :=
        desc_cons hnoc hself
      have hnc : ∀ r ∈ post, r.child ≠ row.child := fun r hr he => hnd2 (he ▸ List.mem_map_of_mem hr)
      have hpn : row.parent ∉ labelIdx m lab := by
        rw [mem_labelIdx]
        have := h.parents row hrow
        omega
      -- nothing is below both
      have hdisj : ∀ x, CDesc post row.parent x → CDesc post row.child x → False := by
        intro x hp hc
        have hcomp : CDesc post row.parent row.child ∨ CDesc post row.child row.parent := by
          have hu : ∀ {a b c}, CStep post a c → CStep post b c → a = b := by
            rintro a b c ⟨r, e1, rfl, e2⟩ ⟨r', e1', rfl, e2'⟩
            rw [List.inj_on_of_nodup_map h.nodup (hpostsub r e1) (hpostsub r' e1') (e2.trans e2'.symm)]
          clear hdesc
          induction hp with
          | refl => exact .inr hc
          | tail e1 e2 ih =>
            rcases Relation.ReflTransGen.cases_tail hc with e3 | ⟨c, e3, e4⟩
            · subst e3; exact .inl (e1.tail e2)
            · rw [← hu e2 e4] at e3; exact ih e3
        rcases hcomp with h5 | h5
        · exact hself (desc_no_child hnc h5).symm
        · exact hself (desc_no_child hnoc h5)
      have hleaf : row.child ∉ rows.map CRow.parent → ∀ x, CDesc post row.child x ↔ x = row.child := by
        intro hc x
        constructor
        · intro h5
          rcases Relation.ReflTransGen.cases_head h5 with h6 | ⟨e, ⟨r, h6, h7, _⟩, _⟩
          · exact h6.symm
          · exact absurd (List.mem_map.2 ⟨r, hpostsub r h6, h7⟩) hc
        · rintro rfl; exact .refl
      have hnew : row.parent ∉ d.keys → ∀ x, x ∈ labelIdx m lab → ¬ CDesc post row.parent x := by
        intro hk x hx h5
        rcases Relation.ReflTransGen.cases_head h5 with h6 | ⟨e, ⟨r, h6, h7, _⟩, _⟩
        · subst h6; exact hpn hx
        · exact hk ((h3 _).2 (List.mem_map.2 ⟨r, h6, h7⟩))
      rw [List.reverse_cons, List.foldlM_append, h1]
      simp only [Option.bind_eq_bind, Option.bind_some, List.foldlM_cons, List.foldlM_nil, Option.bind_eq_some_iff]
      -- it suffices to describe the new entry
      have hgoal : ∀ l : List ℕ, l.Nodup →
          (∀ x, x ∈ l ↔ x ∈ labelIdx m lab ∧ (CDesc post row.parent x ∨ CDesc post row.child x)) →
          (d.set row.parent l).keys.Nodup ∧ (∀ c, c ∈ (d.set row.parent l).keys ↔ c ∈ (row :: post).map CRow.parent) ∧
          ∀ c ∈ (d.set row.parent l).keys, ((d.set row.parent l).val c).Nodup ∧
            ∀ x, x ∈ (d.set row.parent l).val c ↔ x ∈ labelIdx m lab ∧ CDesc (row :: post) c x := by
        intro l hl hx
        refine ⟨nodup_dict_set _ _ _ h2, fun c => ?_, fun c hc => ?_⟩
        · rw [mem_dict_set, h3, List.map_cons, List.mem_cons, or_comm]
        · by_cases hcp : c = row.parent
          · subst hcp
            simp only [ScoreDict.set, Function.update_self]
            refine ⟨hl, fun x => ?_⟩
            rw [hx, hdesc]; simp
          · have hc' : c ∈ d.keys := ((mem_dict_set _ _ _ _).1 hc).resolve_right hcp
            simp only [ScoreDict.set, Function.update_of_ne hcp]
            refine ⟨(h4 c hc').1, fun x => ?_⟩
            rw [(h4 c hc').2, hdesc]; simp [hcp]
      by_cases hcp : row.child ∈ rows.map CRow.parent
      · have hck : row.child ∈ d.keys := by
          rw [h3]
          obtain ⟨r, h5, h6⟩ := List.mem_map.1 hcp
          obtain ⟨i, h7⟩ := List.mem_iff_getElem?.1 h5
          rcases h.order i r h7 with h8 | ⟨j, r', h8, h9, h10⟩
          · have := (h.children row.child).1 (List.mem_map_of_mem hrow)
            rw [← h6, h8] at this; omega
          · have hr' : r' = row := List.inj_on_of_nodup_map h.nodup (List.mem_of_getElem? h9) hrow (h10.trans h6)
            subst hr'
            have hj : j = pre.length := by
              have hj1 := (List.getElem?_eq_some_iff.1 h9)
              have hj2 := (List.getElem?_eq_some_iff.1 hidx)
              obtain ⟨a1, a2⟩ := hj1
              obtain ⟨b1, b2⟩ := hj2
              have := (List.nodup_iff_injective_get.1 (List.Nodup.of_map _ h.nodup)) (a₁ := ⟨j, a1⟩) (a₂ := ⟨pre.length, b1⟩)
                (by simp [a2, b2])
              simpa using this
            subst hj
            rw [← hpre, List.getElem?_append_right (by omega), List.getElem?_cons,
              if_neg (by omega)] at h7
            exact List.mem_map.2 ⟨r, List.mem_of_getElem? h7, h6⟩
        by_cases hpk : row.parent ∈ d.keys
        · refine ⟨_, ⟨_, by rw [elemStep, if_pos hcp, if_pos hck, if_pos hpk], rfl⟩, hgoal _ ?_ ?_⟩
          · refine List.nodup_append.2 ⟨(h4 _ hpk).1, (h4 _ hck).1, fun x hx y hy he => ?_⟩
            subst he
            exact hdisj x (((h4 _ hpk).2 x).1 hx).2 (((h4 _ hck).2 x).1 hy).2
          · intro x
            rw [List.mem_append, (h4 _ hpk).2, (h4 _ hck).2, ← and_or_left]
        · refine ⟨_, ⟨_, by rw [elemStep, if_pos hcp, if_pos hck, if_neg hpk], rfl⟩, hgoal _ ?_ ?_⟩
          · exact (List.nodup_dedup _).filter _
          · intro x
            rw [List.mem_filter, List.mem_dedup, (h4 _ hck).2, decide_eq_true_eq]
            constructor
            · rintro ⟨h5, _⟩; exact ⟨h5.1, .inr h5.2⟩
            · rintro ⟨h5, h6⟩; exact ⟨⟨h5, h6.resolve_left (hnew hpk x h5)⟩, h5⟩
      · have hl := hleaf hcp
        by_cases hpk : row.parent ∈ d.keys
        · by_cases hcl : row.child ∈ labelIdx m lab
          · refine ⟨_, ⟨_, by rw [elemStep, if_neg hcp, if_pos hpk, if_pos hcl], rfl⟩, hgoal _ ?_ ?_⟩
            · refine List.nodup_append.2 ⟨(h4 _ hpk).1, by simp, fun x hx y hy he => ?_⟩
              subst he
              rw [List.mem_singleton] at hy
              exact hdisj x (((h4 _ hpk).2 x).1 hx).2 ((hl x).2 hy)
            · intro x
              rw [List.mem_append, (h4 _ hpk).2, List.mem_singleton, hl]
              constructor
              · rintro (h5 | rfl)
                · exact ⟨h5.1, .inl h5.2⟩
                · exact ⟨hcl, .inr rfl⟩
              · rintro ⟨h5, h6 | h6⟩
                · exact .inl ⟨h5, h6⟩
                · exact .inr h6
          · refine ⟨d, ⟨_, by rw [elemStep, if_neg hcp, if_pos hpk, if_neg hcl], rfl⟩, h2, fun c => ?_, fun c hc => ?_⟩
            · rw [h3, List.map_cons, List.mem_cons]
              constructor
              · exact .inr
              · rintro (rfl | h5)
                · exact (h3 _).1 hpk
                · exact h5
            · refine ⟨(h4 c hc).1, fun x => ?_⟩
              rw [(h4 c hc).2, hdesc]
              constructor
              · rintro ⟨h5, h6⟩; exact ⟨h5, .inl h6⟩
              · rintro ⟨h5, h6 | ⟨_, h6⟩⟩
                · exact ⟨h5, h6⟩
                · rw [hl] at h6; subst h6; exact absurd h5 hcl
        · refine ⟨_, ⟨_, by rw [elemStep, if_neg hcp, if_neg hpk], rfl⟩, hgoal _ ?_ ?_⟩
          · split <;> simp
          · intro x
            rw [hl]
            split
            · rename_i hcl
              rw [List.mem_singleton]
              constructor
              · rintro rfl; exact ⟨hcl, .inr rfl⟩
              · rintro ⟨h5, h6⟩; exact h6.resolve_left (hnew hpk x h5)
            · rename_i hcl
              simp only [List.not_mem_nil, false_iff]
              rintro ⟨h5, h6⟩
              have := h6.resolve_left (hnew hpk x h5)
              subst this
              exact hcl h5
  obtain ⟨d, h1, h2, h3, h4⟩ := hmain rows List.suffix_rfl
  have hkeys : ∀ c, c ∈ d.keys ↔ n ≤ c ∧ c < n + k := by
    intro c
    rw [h3]
    constructor
    · intro hc
      obtain ⟨r, h5, rfl⟩ := List.mem_map.1 hc
      exact h.parents r h5
    · rintro ⟨h5, h6⟩
      obtain ⟨r, h7, rfl⟩ := hfull c h5 h6
      exact List.mem_map_of_mem h7
  exact ⟨d, h1, h2, hkeys, fun c h5 h6 => h4 c ((hkeys c).2 ⟨h5, h6⟩)⟩

/-! ## Scores -/

/-- The code's formula is the B-cubed quality. -/
theorem bcubedScore_eq [Field K] [LinearOrder K] [IsStrictOrderedRing K] (m : ℕ) (lab : ℕ → ℤ) (els : List ℕ) (hnd : els.Nodup)
    (hsub : ∀ x ∈ els, x ∈ labelIdx m lab) :
    (bcubedScore m lab els : K) = bcubedF lab (labelledSamples m lab) els.toFinset := by
  classical
  set g : ℤ → K := fun l =>
    2 / (1 / (((els.map lab).count l : K) / (els.length : K) / ((labelIdx m lab).length : K)) +
      1 / (((els.map lab).count l : K) / (((labelIdx m lab).map lab).count l : K) / ((labelIdx m lab).length : K))) with hg
  have h1 : (bcubedScore m lab els : K) = ((els.map lab).map g).sum := by
    rw [Finset.sum_list_map_count, bcubedScore, ← List.sum_toFinset _ (List.nodup_dedup _),
      show (els.map lab).dedup.toFinset = (els.map lab).toFinset by ext; simp]
    refine Finset.sum_congr rfl fun l _ => ?_
    rw [nsmul_eq_mul]
  have hcnt : ∀ (l : List ℕ), l.Nodup → ∀ p, (l.map lab).count (lab p) = sameClass lab l.toFinset p := by
    intro l hl p
    rw [sameClass, List.count, List.countP_map, List.countP_eq_length_filter]
    have : (l.toFinset.filter fun q => lab q = lab p) = (l.filter ((fun x => x == lab p) ∘ lab)).toFinset := by
      ext q; simp
    rw [this, List.toFinset_card_of_nodup (hl.filter _)]
  rw [h1, List.map_map, ← List.sum_toFinset _ hnd, bcubedF, Finset.sum_div]
  refine Finset.sum_congr rfl fun p hp => ?_
  have hp := List.mem_toFinset.1 hp
  have hcard : els.toFinset.card = els.length := List.toFinset_card_of_nodup hnd
  have hcard2 : (labelledSamples m lab).card = (labelIdx m lab).length := by
    rw [← labelIdx_toFinset, List.toFinset_card_of_nodup labelIdx_nodup]
  simp only [Function.comp, hg]
  rw [hcnt els hnd p, hcnt _ labelIdx_nodup p, labelIdx_toFinset, hcard, hcard2]
  have e1 : (sameClass lab els.toFinset p : K) ≠ 0 := by
    rw [Nat.cast_ne_zero]
    exact (Finset.card_pos.2 ⟨p, by simp [hp]⟩).ne'
  have e2 : (sameClass lab (labelledSamples m lab) p : K) ≠ 0 := by
    rw [Nat.cast_ne_zero]
    refine (Finset.card_pos.2 ⟨p, ?_⟩).ne'
    rw [Finset.mem_filter, ← labelIdx_toFinset, List.mem_toFinset]
    exact ⟨hsub p hp, rfl⟩
  have e3 : (els.length : K) ≠ 0 := by
    rw [Nat.cast_ne_zero]; exact (List.length_pos_of_mem hp).ne'
  have e4 : ((labelIdx m lab).length : K) ≠ 0 := by
    rw [Nat.cast_ne_zero]; exact (List.length_pos_of_mem (hsub p hp)).ne'
  have e5 : (els.length : K) + (sameClass lab (labelledSamples m lab) p : K) ≠ 0 := by
    rw [← Nat.cast_add, Nat.cast_ne_zero]
    have := List.length_pos_of_mem hp
    omega
  have e6 : (sameClass lab (labelledSamples m lab) p : K) + (els.length : K) ≠ 0 := by rw [add_comm]; exact e5
  field_simp
  ring

end Verif
