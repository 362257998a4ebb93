import Verif.Model.Lambda

namespace Verif

theorem hdbscanLam_antitone {K : Type*} [Field K] [LinearOrder K] [IsStrictOrderedRing K] :
    Antitone (hdbscanLam (K := K)) := by
  intro a b hab
  cases a with
  | top =>
    rw [top_le_iff] at hab
    subst hab; exact le_rfl
  | coe a =>
    by_cases ha : 0 < a
    · cases b with
      | top =>
        change (0 : WithTop K) ≤ if 0 < a then ((1 / a : K) : WithTop K) else ⊤
        rw [if_pos ha]
        exact_mod_cast (one_div_pos.2 ha).le
      | coe b =>
        have hab' : a ≤ b := WithTop.coe_le_coe.1 hab
        change (if 0 < b then ((1 / b : K) : WithTop K) else ⊤) ≤ if 0 < a then ((1 / a : K) : WithTop K) else ⊤
        rw [if_pos ha, if_pos (ha.trans_le hab')]
        exact_mod_cast one_div_le_one_div_of_le ha hab'
    · change _ ≤ if 0 < a then ((1 / a : K) : WithTop K) else ⊤
      rw [if_neg ha]; exact le_top

/-- Lambda is never negative, and zero exactly at infinite distance. -/
theorem hdbscanLam_eq_zero {K : Type*} [Field K] [LinearOrder K] [IsStrictOrderedRing K] (d : WithTop K) :
    hdbscanLam d = 0 ↔ d = ⊤ := by
  cases d with
  | top => exact ⟨fun _ => rfl, fun _ => rfl⟩
  | coe d =>
    change (if 0 < d then ((1 / d : K) : WithTop K) else ⊤) = 0 ↔ _
    by_cases h : 0 < d
    · rw [if_pos h]
      have := (one_div_pos.2 h).ne'
      simp only [WithTop.coe_ne_top, iff_false]
      exact_mod_cast this
    · rw [if_neg h]; simp

theorem plscanLam_antitone : Antitone plscanLam := by
  intro a b hab
  cases a with
  | top =>
    rw [top_le_iff] at hab
    subst hab; exact le_rfl
  | coe a =>
    cases b with
    | top => exact (Real.exp_pos _).le
    | coe b =>
      have hab' : a ≤ b := WithTop.coe_le_coe.1 hab
      exact Real.exp_le_exp.2 (neg_le_neg hab')

end Verif
