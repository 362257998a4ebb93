import Verif.Lemmas.ClTree
import Verif.Model.Bcubed

/-!
# Lemmas: the recursion of the semi-supervised selection on a tree whose leaves may be samples
-/

namespace Verif
variable {L S V : Type*} {ct : List (CRow L S)} {rk : ℕ → ℕ}

/-- Every node has one parent, and `rk` decreases towards the leaves. -/
structure RTree (rk : ℕ → ℕ) (ct : List (CRow L S)) : Prop where
  nodup : (ct.map CRow.child).Nodup
  down : ∀ row ∈ ct, rk row.child < rk row.parent

theorem RTree.step_unique (h : RTree rk ct) {a b c : ℕ} (ha : CStep ct a c) (hb : CStep ct b c) : a = b := by
  obtain ⟨row, h1, rfl, h2⟩ := ha
  obtain ⟨row', h1', rfl, h2'⟩ := hb
  rw [List.inj_on_of_nodup_map h.nodup h1 h1' (h2.trans h2'.symm)]

theorem RTree.kid_lt (h : RTree rk ct) {a c : ℕ} (hc : c ∈ kidsOf ct a) : rk c < rk a := by
  obtain ⟨row, h1, rfl, rfl⟩ := mem_kidsOf.1 hc
  exact h.down row h1

theorem RTree.desc_le (h : RTree rk ct) {a b : ℕ} (hs : CDesc ct a b) : b = a ∨ rk b < rk a := by
  induction hs with
  | refl => exact .inl rfl
  | tail h1 h2 ih =>
    have := h.kid_lt (mem_kidsOf.2 h2)
    rcases ih with rfl | ih
    · exact .inr this
    · right; omega

theorem RTree.desc_antisymm (h : RTree rk ct) {a b : ℕ} (hs : CDesc ct a b) (hs' : CDesc ct b a) : a = b := by
  rcases h.desc_le hs with h1 | h1
  · exact h1.symm
  · rcases h.desc_le hs' with h2 | h2
    · exact h2
    · omega

theorem RTree.comparable (h : RTree rk ct) {a b x : ℕ} (ha : CDesc ct a x) (hb : CDesc ct b x) :
    CDesc ct a b ∨ CDesc ct b a := by
  induction ha generalizing b with
  | refl => exact .inr hb
  | tail h1 h2 ih =>
    rcases Relation.ReflTransGen.cases_tail hb with h3 | ⟨c, h3, h4⟩
    · subst h3; exact .inl (h1.tail h2)
    · rw [← h.step_unique h2 h4] at h3; exact ih h3

theorem RTree.kids_nodup (h : RTree rk ct) (a : ℕ) : (kidsOf ct a).Nodup := by
  unfold kidsOf
  exact h.nodup.sublist (List.filter_sublist.map _)

theorem RTree.kid_not_above (h : RTree rk ct) {a c : ℕ} (hc : c ∈ kidsOf ct a) : ¬ CDesc ct c a := by
  intro h1
  have := h.kid_lt hc
  rcases h.desc_le h1 with h2 | h2
  · subst h2; omega
  · omega

theorem RTree.kids_disjoint (h : RTree rk ct) {a c d x : ℕ} (hc : c ∈ kidsOf ct a) (hd : d ∈ kidsOf ct a)
    (hcx : CDesc ct c x) (hdx : CDesc ct d x) : c = d := by
  wlog hcd : CDesc ct c d generalizing c d with H
  · exact (H hd hc hdx hcx ((h.comparable hcx hdx).resolve_left hcd)).symm
  · rcases Relation.ReflTransGen.cases_tail hcd with h1 | ⟨e, h1, h2⟩
    · exact h1.symm
    · have := h.step_unique h2 (mem_kidsOf.1 hd)
      subst this
      exact absurd h1 (h.kid_not_above hc)

theorem RTree.kid_iff (h : RTree rk ct) {node x : ℕ} :
    (∃ c ∈ kidsOf ct node, CDesc ct c x) ↔ CDesc ct node x ∧ x ≠ node := by
  constructor
  · rintro ⟨c, h1, h2⟩
    refine ⟨desc_of_kid h1 h2, ?_⟩
    rintro rfl
    exact h.kid_not_above h1 h2
  · rintro ⟨h1, h2⟩
    exact (desc_cases h1).resolve_left h2

/-! ## The value of the recursion -/

/-- Value returned by `eomRecB`, which does not depend on the state. -/
def bVal (ct : List (CRow L S)) (o : ScoreOps V) (score : ℕ → V) : ℕ → ℕ → V
  | 0, _ => o.zero
  | f + 1, node =>
    let t := (kidsOf ct node).foldl (fun acc c => o.add acc (bVal ct o score f c)) o.zero
    if o.gt t (score node) then t else score node

section
variable (o : ScoreOps V) (score : ℕ → V)

theorem eomRecB_fst (f node : ℕ) (s : SelState) : (eomRecB ct o score f node s).1 = bVal ct o score f node := by
  induction f generalizing node s with
  | zero => rfl
  | succ f ih =>
    have hf : ∀ (cs : List ℕ) (acc : V × SelState),
        (cs.foldl (fun acc c =>
          ((o.add acc.1 (eomRecB ct o score f c acc.2).1), (eomRecB ct o score f c acc.2).2)) acc).1 =
        cs.foldl (fun acc c => o.add acc (bVal ct o score f c)) acc.1 := by
      intro cs
      induction cs with
      | nil => intro acc; rfl
      | cons c cs ihc => intro acc; rw [List.foldl_cons, List.foldl_cons, ihc, ih]
    simp only [eomRecB, bVal]
    rw [← hf (kidsOf ct node) (o.zero, s)]
    split <;> rfl

theorem RTree.bVal_fuel (h : RTree rk ct) (f f' node : ℕ) (hf : rk node < f) (hf' : rk node < f') :
    bVal ct o score f node = bVal ct o score f' node := by
  induction f generalizing f' node with
  | zero => omega
  | succ f ih =>
    match f' with
    | 0 => omega
    | f' + 1 =>
      have : (kidsOf ct node).foldl (fun acc c => o.add acc (bVal ct o score f c)) o.zero =
          (kidsOf ct node).foldl (fun acc c => o.add acc (bVal ct o score f' c)) o.zero := by
        apply List.foldl_ext
        intro acc c hc
        have := h.kid_lt hc
        rw [ih f' c (by omega) (by omega)]
      simp only [bVal, this]

/-- Value of the subtree of `c`. -/
def RTree.val (_ : RTree rk ct) (c : ℕ) : V := bVal ct o score (rk c + 1) c

/-- Total of the children of `c`. -/
def RTree.total (h : RTree rk ct) (c : ℕ) : V :=
  (kidsOf ct c).foldl (fun acc d => o.add acc (h.val o score d)) o.zero

/-- Whether `c` beats its children. -/
def RTree.take (h : RTree rk ct) (c : ℕ) : Bool := !o.gt (h.total o score c) (score c)

theorem RTree.total_fuel (h : RTree rk ct) {f node : ℕ} (hf : rk node ≤ f) :
    (kidsOf ct node).foldl (fun acc c => o.add acc (bVal ct o score f c)) o.zero = h.total o score node := by
  unfold RTree.total
  apply List.foldl_ext
  intro acc c hc
  have := h.kid_lt hc
  rw [RTree.val, h.bVal_fuel o score f (rk c + 1) c (by omega) (by omega)]

theorem RTree.val_eq (h : RTree rk ct) {c : ℕ} :
    h.val o score c = if h.take o score c then score c else h.total o score c := by
  rw [RTree.val, bVal]
  simp only [h.total_fuel o score (le_refl (rk c)), RTree.take]
  by_cases hg : o.gt (h.total o score c) (score c) = true <;> simp [hg]

/-- `x` is taken and no node between `node` and `x` is. -/
def RTree.Top (h : RTree rk ct) (node x : ℕ) : Prop :=
  CDesc ct node x ∧ h.take o score x = true ∧
    ∀ d, CDesc ct node d → CDesc ct d x → d ≠ x → h.take o score d = false

/-- Some node between `node` and `x`, other than `x`, is taken. -/
def RTree.Under (h : RTree rk ct) (node x : ℕ) : Prop :=
  ∃ d, CDesc ct node d ∧ CDesc ct d x ∧ d ≠ x ∧ h.take o score d = true

theorem RTree.Top.not_under {o : ScoreOps V} {score : ℕ → V} {h : RTree rk ct} {node x : ℕ} (hT : h.Top o score node x) :
    ¬ h.Under o score node x := by
  rintro ⟨d, h1, h2, h3, h4⟩
  have := hT.2.2 d h1 h2 h3
  rw [this] at h4; cases h4

theorem RTree.Top.of_take {o : ScoreOps V} {score : ℕ → V} {h : RTree rk ct}
    {node x : ℕ} (ht : h.take o score node = true) : h.Top o score node x ↔ x = node := by
  constructor
  · intro hT
    by_contra hne
    have := hT.2.2 node .refl hT.1 (Ne.symm hne)
    rw [ht] at this; cases this
  · rintro rfl
    exact ⟨.refl, ht, fun d h1 h2 h3 => absurd (h.desc_antisymm h2 h1) h3⟩

theorem RTree.Top.of_not_take {o : ScoreOps V} {score : ℕ → V} {h : RTree rk ct}
    {node x : ℕ} (ht : h.take o score node = false) :
    h.Top o score node x ↔ ∃ c ∈ kidsOf ct node, h.Top o score c x := by
  constructor
  · intro hT
    rcases desc_cases hT.1 with h1 | ⟨c, h1, h2⟩
    · subst h1; rw [hT.2.1] at ht; cases ht
    · exact ⟨c, h1, h2, hT.2.1, fun d h3 h4 h5 => hT.2.2 d (desc_of_kid h1 h3) h4 h5⟩
  · rintro ⟨c, h1, h2⟩
    refine ⟨desc_of_kid h1 h2.1, h2.2.1, fun d h3 h4 h5 => ?_⟩
    rcases desc_cases h3 with h6 | ⟨e, h6, h7⟩
    · subst h6; exact ht
    · have := h.kids_disjoint h1 h6 h2.1 (h7.trans h4)
      subst this
      exact h2.2.2 d h7 h4 h5

theorem RTree.Under.of_not_take {o : ScoreOps V} {score : ℕ → V} {h : RTree rk ct}
    {node x : ℕ} (ht : h.take o score node = false) :
    h.Under o score node x ↔ ∃ c ∈ kidsOf ct node, h.Under o score c x := by
  constructor
  · rintro ⟨d, h1, h2, h3, h4⟩
    rcases desc_cases h1 with h5 | ⟨c, h5, h6⟩
    · subst h5; rw [h4] at ht; cases ht
    · exact ⟨c, h5, d, h6, h2, h3, h4⟩
  · rintro ⟨c, h1, d, h2, h3, h4, h5⟩
    exact ⟨d, desc_of_kid h1 h2, h3, h4, h5⟩

theorem RTree.Under.of_take {o : ScoreOps V} {score : ℕ → V} {h : RTree rk ct}
    {node x : ℕ} (ht : h.take o score node = true) (hd : CDesc ct node x) : h.Under o score node x ↔ x ≠ node := by
  constructor
  · rintro ⟨d, h1, h2, h3, _⟩ rfl
    exact h3 (h.desc_antisymm h2 h1)
  · intro h1
    exact ⟨node, .refl, hd, Ne.symm h1, ht⟩

/-! ## The state -/

open Classical in
/-- Unselecting everything below `node`, provided the memo `un` is right so far. -/
theorem RTree.unselect (h : RTree rk ct) (f node : ℕ) (hf : rk node < f) (s : SelState)
    (hcl : ∀ x y, CDesc ct node x → x ≠ node → s.un x = true → CDesc ct x y → s.un y = true ∧ s.sel y = false) (x : ℕ) :
    (unselectBelowB ct f node s).sel x = (if CDesc ct node x ∧ x ≠ node then false else s.sel x) ∧
    (unselectBelowB ct f node s).un x = (if CDesc ct node x ∧ x ≠ node then true else s.un x) := by
  induction f generalizing node s x with
  | zero => omega
  | succ f ih =>
    have hfold : ∀ (cs : List ℕ), (∀ c ∈ cs, c ∈ kidsOf ct node) → cs.Nodup → ∀ (s : SelState),
        (∀ c ∈ cs, ∀ x y, CDesc ct c x → s.un x = true → CDesc ct x y → s.un y = true ∧ s.sel y = false) → ∀ x,
        (cs.foldl (fun s c => if s.un c then s
          else ⟨Function.update (unselectBelowB ct f c s).sel c false,
            Function.update (unselectBelowB ct f c s).un c true⟩) s).sel x =
          (if ∃ c ∈ cs, CDesc ct c x then false else s.sel x) ∧
        (cs.foldl (fun s c => if s.un c then s
          else ⟨Function.update (unselectBelowB ct f c s).sel c false,
            Function.update (unselectBelowB ct f c s).un c true⟩) s).un x =
          (if ∃ c ∈ cs, CDesc ct c x then true else s.un x) := by
      intro cs
      induction cs with
      | nil => intro _ _ s _ x; simp
      | cons c cs ihc =>
        intro hcs hnd s hs x
        have hc := h.kid_lt (hcs c (by simp))
        rw [List.foldl_cons]
        set s1 : SelState := if s.un c then s
          else ⟨Function.update (unselectBelowB ct f c s).sel c false,
            Function.update (unselectBelowB ct f c s).un c true⟩ with hs1
        have h1 : ∀ x, s1.sel x = (if CDesc ct c x then false else s.sel x) ∧
            s1.un x = (if CDesc ct c x then true else s.un x) := by
          intro x
          rw [hs1]
          by_cases hu : s.un c = true
          · rw [if_pos hu]
            by_cases hx : CDesc ct c x
            · have := hs c (by simp) c x .refl hu hx
              simp [hx, this.1, this.2]
            · simp [hx]
          · rw [if_neg hu]
            have := ih c (by omega) s (fun x y h1 _ h3 h4 => hs c (by simp) x y h1 h3 h4) x
            by_cases hxc : x = c
            · subst hxc; simp [show CDesc ct x x from .refl]
            · simp only [Function.update_of_ne hxc]
              rw [this.1, this.2]
              simp [hxc]
        have hdis : ∀ d ∈ cs, ∀ y, CDesc ct d y → ¬ CDesc ct c y := by
          intro d hd y hdy hcy
          have := h.kids_disjoint (hcs c (by simp)) (hcs d (by simp [hd])) hcy hdy
          subst this
          exact (List.nodup_cons.1 hnd).1 hd
        have h2 := ihc (fun c hc => hcs c (by simp [hc])) (List.nodup_cons.1 hnd).2 s1 (by
          intro d hd x y h3 h4 h5
          have hx := hdis d hd x h3
          have hy := hdis d hd y (h3.trans h5)
          rw [(h1 x).2, if_neg hx] at h4
          have := hs d (by simp [hd]) x y h3 h4 h5
          rw [(h1 y).1, (h1 y).2, if_neg hy, if_neg hy]
          exact this) x
        rw [h2.1, h2.2, (h1 x).1, (h1 x).2]
        by_cases h3 : CDesc ct c x <;> simp [h3]
    have := hfold (kidsOf ct node) (fun _ h => h) (h.kids_nodup node) s (by
      intro c hc x y h1 h2 h3
      have := (h.kid_iff).1 ⟨c, hc, h1⟩
      exact hcl x y this.1 this.2 h2 h3) x
    simp only [h.kid_iff] at this
    rw [unselectBelowB]
    exact this

open Classical in
/-- The state after the recursion on several disjoint subtrees, given the state after the recursion on one. -/
theorem RTree.fold_state (h : RTree rk ct) (g : ℕ → SelState → SelState) (node : ℕ)
    (hg : ∀ c ∈ kidsOf ct node, ∀ s : SelState, (∀ x, CDesc ct c x → s.sel x = false ∧ s.un x = false) → ∀ x,
      (g c s).sel x = (if CDesc ct c x then decide (h.Top o score c x) else s.sel x) ∧
      (g c s).un x = (if CDesc ct c x then decide (h.Under o score c x) else s.un x))
    (cs : List ℕ) (hcs : ∀ c ∈ cs, c ∈ kidsOf ct node) (hnd : cs.Nodup) (s : SelState)
    (hs : ∀ c ∈ cs, ∀ x, CDesc ct c x → s.sel x = false ∧ s.un x = false) (x : ℕ) :
    (cs.foldl (fun s c => g c s) s).sel x =
      (if ∃ c ∈ cs, CDesc ct c x then decide (∃ c ∈ cs, h.Top o score c x) else s.sel x) ∧
    (cs.foldl (fun s c => g c s) s).un x =
      (if ∃ c ∈ cs, CDesc ct c x then decide (∃ c ∈ cs, h.Under o score c x) else s.un x) := by
  induction cs generalizing s x with
  | nil => simp
  | cons c cs ih =>
    have hstep := hg c (hcs c (by simp)) s (hs c (by simp))
    have hdis : ∀ d ∈ cs, ∀ y, CDesc ct d y → ¬ CDesc ct c y := by
      intro d hd y hdy hcy
      have := h.kids_disjoint (hcs c (by simp)) (hcs d (by simp [hd])) hcy hdy
      subst this
      exact (List.nodup_cons.1 hnd).1 hd
    have hU : ∀ d, h.Under o score d x → CDesc ct d x := fun d ⟨e, h1, h2, _⟩ => h1.trans h2
    have := ih (fun c hc => hcs c (by simp [hc])) (List.nodup_cons.1 hnd).2 (g c s) (by
      intro d hd y hy
      rw [(hstep y).1, (hstep y).2, if_neg (hdis d hd y hy), if_neg (hdis d hd y hy)]
      exact hs d (by simp [hd]) y hy) x
    rw [List.foldl_cons, this.1, this.2, (hstep x).1, (hstep x).2]
    by_cases h1 : ∃ d ∈ cs, CDesc ct d x
    · obtain ⟨d, hd, hdx⟩ := h1
      have hc := hdis d hd x hdx
      have e1 : ¬ h.Top o score c x := fun hT => hc hT.1
      have e2 : ¬ h.Under o score c x := fun hT => hc (hU c hT)
      simp only [if_pos (show ∃ c ∈ cs, CDesc ct c x from ⟨d, hd, hdx⟩), List.mem_cons, exists_eq_or_imp, e1, e2, hc,
        false_or, and_self]
    · have e1 : ¬ ∃ d ∈ cs, h.Top o score d x := fun ⟨d, h2, h3⟩ => h1 ⟨d, h2, h3.1⟩
      have e2 : ¬ ∃ d ∈ cs, h.Under o score d x := fun ⟨d, h2, h3⟩ => h1 ⟨d, h2, hU d h3⟩
      simp only [List.mem_cons, exists_eq_or_imp, e1, e2, h1, or_false]
      constructor <;> by_cases h5 : CDesc ct c x <;> simp [h5]

open Classical in
/-- The state after the recursion on `node`, started with nothing recorded below `node`. -/
theorem RTree.rec_state (h : RTree rk ct) (f node : ℕ) (hf : rk node < f) (s : SelState)
    (hs : ∀ x, CDesc ct node x → s.sel x = false ∧ s.un x = false) (x : ℕ) :
    (eomRecB ct o score f node s).2.sel x = (if CDesc ct node x then decide (h.Top o score node x) else s.sel x) ∧
    (eomRecB ct o score f node s).2.un x = (if CDesc ct node x then decide (h.Under o score node x) else s.un x) := by
  induction f generalizing node s x with
  | zero => omega
  | succ f ih =>
    have hsnd : ∀ (cs : List ℕ) (acc : V × SelState),
        (cs.foldl (fun acc c =>
          ((o.add acc.1 (eomRecB ct o score f c acc.2).1), (eomRecB ct o score f c acc.2).2)) acc).2 =
        cs.foldl (fun s c => (eomRecB ct o score f c s).2) acc.2 := by
      intro cs
      induction cs with
      | nil => intro acc; rfl
      | cons c cs ihc => intro acc; rw [List.foldl_cons, List.foldl_cons, ihc]
    have hfst : ∀ (cs : List ℕ) (acc : V × SelState),
        (cs.foldl (fun acc c =>
          ((o.add acc.1 (eomRecB ct o score f c acc.2).1), (eomRecB ct o score f c acc.2).2)) acc).1 =
        cs.foldl (fun acc c => o.add acc (bVal ct o score f c)) acc.1 := by
      intro cs
      induction cs with
      | nil => intro acc; rfl
      | cons c cs ihc => intro acc; rw [List.foldl_cons, List.foldl_cons, ihc, eomRecB_fst]
    have hfold := h.fold_state o score (fun c s => (eomRecB ct o score f c s).2) node
      (fun c hc s hs x => ih c (by have := h.kid_lt hc; omega) s hs x) (kidsOf ct node) (fun _ h => h)
      (h.kids_nodup node) s fun c hc x hx => hs x (desc_of_kid hc hx)
    simp only [h.kid_iff] at hfold
    simp only [eomRecB]
    rw [hfst, h.total_fuel o score (by omega), hsnd]
    cases ht : h.take o score node
    · have ht' : o.gt (h.total o score node) (score node) = true := by simpa [RTree.take] using ht
      rw [if_pos ht', hsnd, (hfold x).1, (hfold x).2, RTree.Top.of_not_take ht, RTree.Under.of_not_take ht]
      by_cases hx : x = node
      · subst hx
        have e1 : ¬ ∃ c ∈ kidsOf ct x, h.Top o score c x := fun ⟨c, h1, h2⟩ => h.kid_not_above h1 h2.1
        have e2 : ¬ ∃ c ∈ kidsOf ct x, h.Under o score c x :=
          fun ⟨c, h1, d, h2, h3, _⟩ => h.kid_not_above h1 (h2.trans h3)
        simp [e1, e2, hs x .refl, show CDesc ct x x from .refl]
      · by_cases h5 : CDesc ct node x <;> simp [h5, hx]
    · have ht' : ¬ o.gt (h.total o score node) (score node) = true := by simpa [RTree.take] using ht
      rw [if_neg ht']
      have := h.unselect (f + 1) node hf
        ⟨Function.update (List.foldl (fun s c => (eomRecB ct o score f c s).2) s (kidsOf ct node)).sel node true,
          (List.foldl (fun s c => (eomRecB ct o score f c s).2) s (kidsOf ct node)).un⟩ (by
        intro y z h1 h2 h3 h4
        simp only at h3 ⊢
        have hzn : z ≠ node := by
          rintro rfl
          exact h2 (h.desc_antisymm h4 h1)
        rw [(hfold y).2, if_pos ⟨h1, h2⟩, decide_eq_true_eq] at h3
        obtain ⟨c, h5, d, h6, h7, h8, h9⟩ := h3
        have hdz : d ≠ z := by
          rintro rfl
          exact h8 (h.desc_antisymm h7 h4)
        rw [Function.update_of_ne hzn, (hfold z).1, (hfold z).2, if_pos ⟨h1.trans h4, hzn⟩, if_pos ⟨h1.trans h4, hzn⟩]
        constructor
        · exact decide_eq_true ⟨c, h5, d, h6, h7.trans h4, hdz, h9⟩
        · rw [decide_eq_false_iff_not]
          rintro ⟨e, h10, h11⟩
          have := h.kids_disjoint h5 h10 (h6.trans (h7.trans h4)) h11.1
          subst this
          exact h11.not_under ⟨d, h6, h7.trans h4, hdz, h9⟩) x
      rw [this.1, this.2]
      by_cases hd : CDesc ct node x
      · rw [RTree.Top.of_take ht, RTree.Under.of_take ht hd]
        by_cases hx : x = node
        · subst hx
          have e2 : ¬ ∃ c ∈ kidsOf ct x, h.Under o score c x :=
            fun ⟨c, h1, d, h2, h3, _⟩ => h.kid_not_above h1 (h2.trans h3)
          simp [(hfold x).2, hs x .refl, hd]
        · simp [hx, hd]
      · have hx : x ≠ node := by rintro rfl; exact hd .refl
        simp [hd, Function.update_of_ne hx, (hfold x).1, (hfold x).2]

end
end Verif
