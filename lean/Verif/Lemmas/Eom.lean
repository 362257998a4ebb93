import Verif.Lemmas.ClTree

/-!
# Lemmas: the excess-of-mass recursion
-/

namespace Verif
variable {L S V : Type*} {n k : ℕ} {ct : List (CRow L S)}

/-- Value returned by `eomRec`, which does not depend on the selection array. -/
def eomVal (ct : List (CRow L S)) (o : ScoreOps V) (score : ℕ → V) (tooLarge : ℕ → Bool) : ℕ → ℕ → V
  | 0, _ => o.zero
  | f + 1, node =>
    let t := (kidsOf ct node).foldl (fun acc c => o.add acc (eomVal ct o score tooLarge f c)) o.zero
    if o.gt t (o.pos (score node)) || tooLarge node then t else o.pos (score node)

section
variable (o : ScoreOps V) (score : ℕ → V) (tooLarge : ℕ → Bool)

theorem eomRec_fst (f node : ℕ) (sel : ℕ → Bool) :
    (eomRec ct o score tooLarge f node sel).1 = eomVal ct o score tooLarge f node := by
  induction f generalizing node sel with
  | zero => rfl
  | succ f ih =>
    have hf : ∀ (cs : List ℕ) (acc : V × (ℕ → Bool)),
        (cs.foldl (fun acc c =>
          ((o.add acc.1 (eomRec ct o score tooLarge f c acc.2).1), (eomRec ct o score tooLarge f c acc.2).2)) acc).1 =
        cs.foldl (fun acc c => o.add acc (eomVal ct o score tooLarge f c)) acc.1 := by
      intro cs
      induction cs with
      | nil => intro acc; rfl
      | cons c cs ihc => intro acc; rw [List.foldl_cons, List.foldl_cons, ihc, ih]
    simp only [eomRec, eomVal]
    rw [← hf (kidsOf ct node) (o.zero, sel)]
    split <;> rfl

theorem ClTree.eomVal_fuel (h : ClTree n k ct) (f f' node : ℕ) (hf : n + k ≤ f + node) (hf' : n + k ≤ f' + node)
    (hn : node < n + k) : eomVal ct o score tooLarge f node = eomVal ct o score tooLarge f' node := by
  induction f generalizing f' node with
  | zero => omega
  | succ f ih =>
    match f' with
    | 0 => omega
    | f' + 1 =>
      have : (kidsOf ct node).foldl (fun acc c => o.add acc (eomVal ct o score tooLarge f c)) o.zero =
          (kidsOf ct node).foldl (fun acc c => o.add acc (eomVal ct o score tooLarge f' c)) o.zero := by
        apply List.foldl_ext
        intro acc c hc
        have := h.kid_lt hc
        rw [ih f' c (by omega) (by omega) (by omega)]
      simp only [eomVal]
      rw [this]

/-- Value of a cluster. -/
def ClTree.val (_ : ClTree n k ct) (c : ℕ) : V := eomVal ct o score tooLarge (n + k) c

/-- Sum of the values of the child clusters, in the order of the code. -/
def ClTree.total (h : ClTree n k ct) (c : ℕ) : V :=
  (kidsOf ct c).foldl (fun acc d => o.add acc (h.val o score tooLarge d)) o.zero

/-- Whether the recursion prefers the cluster to what its child clusters give. -/
def ClTree.take (h : ClTree n k ct) (c : ℕ) : Bool :=
  !(o.gt (h.total o score tooLarge c) (o.pos (score c)) || tooLarge c)

theorem ClTree.total_fuel (h : ClTree n k ct) {f node : ℕ} (hf : n + k ≤ f + 1 + node) :
    (kidsOf ct node).foldl (fun acc c => o.add acc (eomVal ct o score tooLarge f c)) o.zero =
      h.total o score tooLarge node := by
  unfold ClTree.total
  apply List.foldl_ext
  intro acc c hc
  have := h.kid_lt hc
  rw [ClTree.val, h.eomVal_fuel o score tooLarge f (n + k) c (by omega) (by omega) (by omega)]

theorem ClTree.val_eq (h : ClTree n k ct) {c : ℕ} : h.val o score tooLarge c =
    if h.take o score tooLarge c then o.pos (score c) else h.total o score tooLarge c := by
  have hpos := h.pos
  rw [ClTree.val, ← Nat.sub_add_cancel (show 1 ≤ n + k by omega), eomVal,
    h.total_fuel o score tooLarge (by omega)]
  unfold ClTree.take
  cases (o.gt (h.total o score tooLarge c) (o.pos (score c)) || tooLarge c) <;> simp

/-- `x` is taken and no cluster between `node` and `x` is. -/
def ClTree.Top (h : ClTree n k ct) (node x : ℕ) : Prop :=
  CDesc ct node x ∧ h.take o score tooLarge x = true ∧
    ∀ d, CDesc ct node d → CDesc ct d x → d ≠ x → h.take o score tooLarge d = false

open Classical in
theorem ClTree.unselect (h : ClTree n k ct) (f node : ℕ) (hf : n + k ≤ f + node) (sel : ℕ → Bool) (x : ℕ) :
    unselectBelow ct f node sel x = if CDesc ct node x ∧ x ≠ node then false else sel x := by
  induction f generalizing node sel x with
  | zero =>
    rw [if_neg]
    · rfl
    rintro ⟨h1, h2⟩
    rcases desc_cases h1 with h3 | ⟨c, h3, _⟩
    · exact h2 h3
    · have := h.kid_lt h3; omega
  | succ f ih =>
    have hfold : ∀ (cs : List ℕ), (∀ c ∈ cs, c ∈ kidsOf ct node) → ∀ (s : ℕ → Bool),
        cs.foldl (fun s c => Function.update (unselectBelow ct f c s) c false) s x =
          if ∃ c ∈ cs, CDesc ct c x then false else s x := by
      intro cs
      induction cs with
      | nil => intro _ s; simp
      | cons c cs ihc =>
        intro hcs s
        have hc := h.kid_lt (hcs c (by simp))
        rw [List.foldl_cons, ihc fun c hc => hcs c (by simp [hc])]
        have h1 : Function.update (unselectBelow ct f c s) c false x = if CDesc ct c x then false else s x := by
          by_cases hxc : x = c
          · subst hxc; simp [show CDesc ct x x from .refl]
          · rw [Function.update_of_ne hxc, ih c (by omega) s x]
            simp [hxc]
        rw [h1]
        by_cases h2 : CDesc ct c x <;> simp [h2]
    rw [unselectBelow, hfold _ fun c hc => hc]
    have : (∃ c ∈ kidsOf ct node, CDesc ct c x) ↔ CDesc ct node x ∧ x ≠ node := by
      constructor
      · rintro ⟨c, h1, h2⟩
        refine ⟨desc_of_kid h1 h2, ?_⟩
        have := h.kid_lt h1
        have := h.desc_le h2
        omega
      · rintro ⟨h1, h2⟩
        exact (desc_cases h1).resolve_left h2
    simp only [this]

open Classical in
theorem ClTree.eomRec_sel (h : ClTree n k ct) (f node : ℕ) (hf : n + k ≤ f + node) (hn : node < n + k)
    (sel : ℕ → Bool) (h0 : ∀ x, CDesc ct node x → sel x = false) (x : ℕ) :
    (eomRec ct o score tooLarge f node sel).2 x =
      if CDesc ct node x then decide (h.Top o score tooLarge node x) else sel x := by
  induction f generalizing node sel x with
  | zero => omega
  | succ f ih =>
    have hfold : ∀ (cs : List ℕ), (∀ c ∈ cs, c ∈ kidsOf ct node) → cs.Nodup → ∀ (acc : V × (ℕ → Bool)),
        (∀ c ∈ cs, ∀ x, CDesc ct c x → acc.2 x = false) → ∀ x,
        (cs.foldl (fun acc c =>
          ((o.add acc.1 (eomRec ct o score tooLarge f c acc.2).1), (eomRec ct o score tooLarge f c acc.2).2)) acc).2 x =
          if ∃ c ∈ cs, CDesc ct c x then decide (∃ c ∈ cs, h.Top o score tooLarge c x) else acc.2 x := by
      intro cs
      induction cs with
      | nil => intro _ _ acc _ x; simp
      | cons c cs ihc =>
        intro hcs hnd acc hacc x
        have hc := h.kid_lt (hcs c (by simp))
        have hstep := ih c (by omega) hc.2.2 acc.2 (hacc c (by simp))
        have hdis : ∀ d ∈ cs, ∀ y, CDesc ct d y → ¬ CDesc ct c y := by
          intro d hd y hdy hcy
          have := h.kids_disjoint (hcs c (by simp)) (hcs d (by simp [hd])) hcy hdy
          subst this
          exact (List.nodup_cons.1 hnd).1 hd
        rw [List.foldl_cons, ihc (fun c hc => hcs c (by simp [hc])) (List.nodup_cons.1 hnd).2]
        · rw [hstep x]
          by_cases h1 : ∃ d ∈ cs, CDesc ct d x
          · obtain ⟨d, hd, hdx⟩ := h1
            rw [if_pos ⟨d, hd, hdx⟩, if_pos ⟨d, by simp [hd], hdx⟩]
            apply decide_eq_decide.2
            constructor
            · rintro ⟨e, h1, h2⟩; exact ⟨e, by simp [h1], h2⟩
            · rintro ⟨e, h1, h2⟩
              rcases List.mem_cons.1 h1 with h3 | h3
              · subst h3; exact absurd h2.1 (hdis d hd x hdx)
              · exact ⟨e, h3, h2⟩
          · rw [if_neg h1]
            by_cases h2 : CDesc ct c x
            · rw [if_pos h2, if_pos ⟨c, by simp, h2⟩]
              apply decide_eq_decide.2
              constructor
              · intro h3; exact ⟨c, by simp, h3⟩
              · rintro ⟨e, h3, h4⟩
                rcases List.mem_cons.1 h3 with h5 | h5
                · subst h5; exact h4
                · exact absurd ⟨e, h5, h4.1⟩ h1
            · rw [if_neg h2, if_neg]
              rintro ⟨e, h3, h4⟩
              rcases List.mem_cons.1 h3 with h5 | h5
              · subst h5; exact h2 h4
              · exact h1 ⟨e, h5, h4⟩
        · intro d hd y hdy
          simp only
          rw [hstep y, if_neg (hdis d hd y hdy)]
          exact hacc d (by simp [hd]) y hdy
    have hfold' := hfold (kidsOf ct node) (fun c hc => hc) (h.kids_nodup node) (o.zero, sel)
      fun c hc x hx => h0 x (desc_of_kid hc hx)
    have hval : ((kidsOf ct node).foldl (fun acc c =>
          ((o.add acc.1 (eomRec ct o score tooLarge f c acc.2).1), (eomRec ct o score tooLarge f c acc.2).2))
          (o.zero, sel)).1 = h.total o score tooLarge node := by
      rw [← h.total_fuel o score tooLarge (f := f) (by omega)]
      have hf : ∀ (cs : List ℕ) (acc : V × (ℕ → Bool)),
          (cs.foldl (fun acc c =>
            ((o.add acc.1 (eomRec ct o score tooLarge f c acc.2).1), (eomRec ct o score tooLarge f c acc.2).2)) acc).1 =
          cs.foldl (fun acc c => o.add acc (eomVal ct o score tooLarge f c)) acc.1 := by
        intro cs
        induction cs with
        | nil => intro acc; rfl
        | cons c cs ihc => intro acc; rw [List.foldl_cons, List.foldl_cons, ihc, eomRec_fst]
      exact hf _ _
    have hkid : (∃ c ∈ kidsOf ct node, CDesc ct c x) ↔ CDesc ct node x ∧ x ≠ node := by
      constructor
      · rintro ⟨c, h1, h2⟩
        refine ⟨desc_of_kid h1 h2, ?_⟩
        have := h.kid_lt h1
        have := h.desc_le h2
        omega
      · rintro ⟨h1, h2⟩
        exact (desc_cases h1).resolve_left h2
    simp only [eomRec]
    rw [hval]
    by_cases ht : h.take o score tooLarge node = true
    · have ht' : (o.gt (h.total o score tooLarge node) (o.pos (score node)) || tooLarge node) = false := by
        simpa [ClTree.take] using ht
      rw [ht']
      simp only [Bool.false_eq_true, if_false]
      rw [h.unselect _ _ hf]
      by_cases hx : x = node
      · subst hx
        rw [if_neg (by simp), Function.update_self, if_pos .refl]
        symm
        rw [decide_eq_true_eq]
        refine ⟨.refl, ht, fun d h1 h2 h3 => absurd (h.desc_antisymm h2 h1) h3⟩
      · rw [Function.update_of_ne hx, hfold']
        simp only [hkid]
        by_cases hd : CDesc ct node x
        · rw [if_pos ⟨hd, hx⟩, if_pos hd]
          symm
          rw [decide_eq_false_iff_not]
          intro hT
          have := hT.2.2 node .refl hd (Ne.symm hx)
          rw [this] at ht; cases ht
        · simp [hd]
    · have ht' : (o.gt (h.total o score tooLarge node) (o.pos (score node)) || tooLarge node) = true := by
        rw [ClTree.take, Bool.not_eq_true, Bool.not_eq_false'] at ht; exact ht
      have htf : h.take o score tooLarge node = false := by simpa using ht
      rw [ht']
      simp only [if_true]
      rw [hfold']
      simp only [hkid]
      by_cases hx : x = node
      · subst hx
        rw [if_neg (by simp), if_pos .refl, h0 x .refl]
        symm
        rw [decide_eq_false_iff_not]
        intro hT
        exact ht hT.2.1
      · by_cases hd : CDesc ct node x
        · rw [if_pos ⟨hd, hx⟩, if_pos hd]
          apply decide_eq_decide.2
          constructor
          · rintro ⟨c, h1, h2⟩
            refine ⟨hd, h2.2.1, fun d h3 h4 h5 => ?_⟩
            rcases desc_cases h3 with h6 | ⟨e, h6, h7⟩
            · subst h6; exact htf
            · have := h.kids_disjoint h1 h6 h2.1 (h7.trans h4)
              subst this
              exact h2.2.2 d h7 h4 h5
          · intro hT
            obtain ⟨c, h1, h2⟩ := (desc_cases hd).resolve_left hx
            exact ⟨c, h1, h2, hT.2.1, fun d h3 h4 h5 => hT.2.2 d (desc_of_kid h1 h3) h4 h5⟩
        · simp [hd]

end
end Verif
