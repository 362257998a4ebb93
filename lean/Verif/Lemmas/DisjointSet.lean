import Verif.Model.ConcurrentFind
import Verif.Lemmas.Bridge
import Mathlib.Data.Nat.Log

namespace Verif

/-- The unions among the performed calls, as graph edges. -/
def opEdges (ops : List DSOp) : List (Edge Unit) :=
  ops.filterMap fun op => match op with
    | .union x y => some ⟨x, y, ()⟩
    | .find _ => none

/-- All arguments are elements. -/
def OpsInRange (n : ℕ) (ops : List DSOp) : Prop :=
  ∀ op ∈ ops, match op with
    | .union x y => x < n ∧ y < n
    | .find x => x < n

/-- Size of the class of representative `r`. -/
def classSize (n : ℕ) (p : ℕ → ℕ) (r : ℕ) : ℕ :=
  ((Finset.range n).filter (fun x => root n p x = r)).card

theorem RepConn.union {W : Type*} {n : ℕ} {p : ℕ → ℕ} {es : List (Edge W)} (h : RepConn n p es) {e : Edge W}
    (hu : e.u < n) (hv : e.v < n) {a b : ℕ}
    (hab : (a = root n p e.u ∧ b = root n p e.v) ∨ (a = root n p e.v ∧ b = root n p e.u))
    (hne : a ≠ b) : RepConn n (Function.update p b a) (es ++ [e]) := by
  have hp := h.forest
  have fa : p a = a := by
    rcases hab with ⟨rfl, rfl⟩ | ⟨rfl, rfl⟩ <;> exact hp.root_fixed _
  have fb : p b = b := by
    rcases hab with ⟨rfl, rfl⟩ | ⟨rfl, rfl⟩ <;> exact hp.root_fixed _
  have la : a < n := by
    rcases hab with ⟨rfl, rfl⟩ | ⟨rfl, rfl⟩
    · exact hp.root_lt hu
    · exact hp.root_lt hv
  have lb : b < n := by
    rcases hab with ⟨rfl, rfl⟩ | ⟨rfl, rfl⟩
    · exact hp.root_lt hv
    · exact hp.root_lt hu
  refine ⟨hp.link fa fb hne la lb, fun x y => ?_⟩
  rw [hp.root_link fa fb hne la lb, hp.root_link fa fb hne la lb, Conn.snoc_iff,
    ← h.conn, ← h.conn, ← h.conn, ← h.conn, ← h.conn]
  generalize root n p x = a' at *
  generalize root n p y = b' at *
  generalize root n p e.u = c at *
  generalize root n p e.v = d at *
  rcases hab with ⟨rfl, rfl⟩ | ⟨rfl, rfl⟩ <;> split_ifs <;> omega

theorem RepConn.skip {W : Type*} {n : ℕ} {p : ℕ → ℕ} {es : List (Edge W)} (h : RepConn n p es) {e : Edge W}
    (heq : root n p e.u = root n p e.v) : RepConn n p (es ++ [e]) := by
  refine ⟨h.forest, fun x y => ?_⟩
  rw [Conn.snoc_iff, ← h.conn, ← h.conn, ← h.conn, ← h.conn, ← h.conn]
  omega

theorem classSize_link {n : ℕ} {p : ℕ → ℕ} {a b : ℕ} (hp : PForest n p) (ha : p a = a) (hb : p b = b)
    (hne : a ≠ b) (la : a < n) (lb : b < n) (r : ℕ) :
    classSize n (Function.update p b a) r =
      if r = a then classSize n p a + classSize n p b else if r = b then 0 else classSize n p r := by
  unfold classSize
  simp only [hp.root_link ha hb hne la lb]
  split
  · rename_i hr
    subst hr
    rw [← Finset.card_union_of_disjoint]
    · congr 1
      ext x
      simp only [Finset.mem_filter, Finset.mem_union, Finset.mem_range]
      split_ifs with h
      · simp only [h]; tauto
      · simp only [h]; tauto
    · rw [Finset.disjoint_left]
      intro x hx hx'
      simp only [Finset.mem_filter] at hx hx'
      exact hne (hx.2.symm.trans hx'.2)
  · rename_i hra
    split
    · rename_i hrb
      subst hrb
      rw [Finset.card_eq_zero, Finset.filter_eq_empty_iff]
      intro x _
      split_ifs with h
      · exact hne
      · exact h
    · rename_i hrb
      congr 1
      ext x
      simp only [Finset.mem_filter]
      split_ifs with h
      · rw [h]
        constructor
        · rintro ⟨_, h2⟩; exact absurd h2.symm hra
        · rintro ⟨_, h2⟩; exact absurd h2.symm hrb
      · rfl

/-- Invariant of the rank variant. -/
structure RankInv (n : ℕ) (es : List (Edge Unit)) (d : RankDS) : Prop where
  rep : RepConn n d.parent es
  height : ∀ x, d.parent x ≠ x → d.rank x < d.rank (d.parent x)
  bound : ∀ r, r < n → d.parent r = r → 2 ^ d.rank r ≤ classSize n d.parent r

theorem classSize_id (n r : ℕ) (hr : r < n) : classSize n (fun x => x) r = 1 := by
  unfold classSize
  rw [Finset.card_eq_one]
  refine ⟨r, ?_⟩
  ext x
  simp only [Finset.mem_filter, Finset.mem_range, Finset.mem_singleton]
  rw [(PForest.id n).root_of_fixed rfl]
  constructor
  · exact fun h => h.2
  · rintro rfl; exact ⟨hr, rfl⟩

theorem RepConn.id (W : Type*) (n : ℕ) : RepConn n (fun x => x) ([] : List (Edge W)) :=
  ⟨PForest.id n, fun x y => by
    rw [(PForest.id n).root_of_fixed rfl, (PForest.id n).root_of_fixed rfl]; simp⟩

theorem RankInv.init (n : ℕ) : RankInv n [] dsRankCreate where
  rep := RepConn.id _ n
  height := fun x h => absurd rfl h
  bound := fun r hr _ => by
    have := classSize_id n r hr
    simp only [dsRankCreate, pow_zero]
    omega

theorem dsUnionByRank_inv {n : ℕ} {es : List (Edge Unit)} {d : RankDS} (h : RankInv n es d) {x y : ℕ}
    (hx : x < n) (hy : y < n) : RankInv n (es ++ [⟨x, y, ()⟩]) (dsUnionByRank n d x y) := by
  have hp := h.rep.forest
  unfold dsUnionByRank
  simp only [dsFind_eq]
  split
  · rename_i heq
    exact ⟨h.rep.skip heq, h.height, h.bound⟩
  · rename_i hne
    set a := if d.rank (root n d.parent x) < d.rank (root n d.parent y) then root n d.parent y
      else root n d.parent x with ha
    set b := if d.rank (root n d.parent x) < d.rank (root n d.parent y) then root n d.parent x
      else root n d.parent y with hb
    have hab : (a = root n d.parent x ∧ b = root n d.parent y) ∨
        (a = root n d.parent y ∧ b = root n d.parent x) := by
      rw [ha, hb]; split
      · exact Or.inr ⟨rfl, rfl⟩
      · exact Or.inl ⟨rfl, rfl⟩
    have hrk : d.rank b ≤ d.rank a := by
      rw [ha, hb]; split
      · omega
      · omega
    have hne' : a ≠ b := by
      rcases hab with ⟨h1, h2⟩ | ⟨h1, h2⟩
      · rw [h1, h2]; exact hne
      · rw [h1, h2]; exact Ne.symm hne
    have fa : d.parent a = a := by
      rcases hab with ⟨h1, h2⟩ | ⟨h1, h2⟩ <;> rw [h1] <;> exact hp.root_fixed _
    have fb : d.parent b = b := by
      rcases hab with ⟨h1, h2⟩ | ⟨h1, h2⟩ <;> rw [h2] <;> exact hp.root_fixed _
    have la : a < n := by
      rcases hab with ⟨h1, h2⟩ | ⟨h1, h2⟩ <;> rw [h1]
      · exact hp.root_lt hx
      · exact hp.root_lt hy
    have lb : b < n := by
      rcases hab with ⟨h1, h2⟩ | ⟨h1, h2⟩ <;> rw [h2]
      · exact hp.root_lt hy
      · exact hp.root_lt hx
    clear_value a b
    refine ⟨h.rep.union (e := ⟨x, y, ()⟩) hx hy hab hne', ?_, ?_⟩
    · intro z hz
      simp only at hz ⊢
      by_cases hzb : z = b
      · subst hzb
        rw [Function.update_self]
        split
        · rename_i heq
          rw [Function.update_self, Function.update_of_ne (Ne.symm hne')]; omega
        · omega
      · rw [Function.update_of_ne hzb] at hz ⊢
        have h1 := h.height z hz
        split
        · by_cases hza : z = a
          · subst hza; exact absurd fa hz
          · rw [Function.update_of_ne hza]
            by_cases hpa : d.parent z = a
            · rw [hpa] at h1 ⊢
              rw [Function.update_self]; omega
            · rw [Function.update_of_ne hpa]; exact h1
        · exact h1
    · intro r hr hfix
      simp only at hfix ⊢
      rw [classSize_link hp fa fb hne' la lb]
      have hrb : r ≠ b := by
        rintro rfl
        rw [Function.update_self] at hfix
        exact hne' hfix
      rw [Function.update_of_ne hrb] at hfix
      by_cases hra : r = a
      · subst hra
        rw [if_pos rfl]
        have b1 := h.bound r la fa
        have b2 := h.bound b lb fb
        split
        · rename_i heq
          rw [Function.update_self, pow_succ]
          rw [← heq] at b2
          omega
        · omega
      · rw [if_neg hra, if_neg hrb]
        have b1 := h.bound r hr hfix
        split
        · rw [Function.update_of_ne hra]; exact b1
        · exact b1

theorem dsRankRun_inv {n : ℕ} {ops : List DSOp} (hr : OpsInRange n ops) :
    RankInv n (opEdges ops) (dsRankRun n ops) := by
  induction ops using List.reverseRecOn with
  | nil => exact RankInv.init n
  | append_singleton ops op ih =>
    have h := ih fun o ho => hr o (by simp [ho])
    have ho := hr op (by simp)
    unfold dsRankRun opEdges at *
    rw [List.foldl_append, List.filterMap_append]
    cases op with
    | union x y => exact dsUnionByRank_inv h ho.1 ho.2
    | find x =>
      simp only [List.foldl_cons, List.foldl_nil, dsFind_eq, List.filterMap_cons_none,
        List.filterMap_nil, List.append_nil] at h ⊢
      exact h

/-- Invariant of the size variant. -/
structure SizeInv (n : ℕ) (es : List (Edge Unit)) (d : SizeDS) : Prop where
  rep : RepConn n d.parent es
  size : ∀ r, r < n → d.parent r = r → d.size r = classSize n d.parent r

theorem SizeInv.init (n : ℕ) : SizeInv n [] dsSizeCreate where
  rep := RepConn.id _ n
  size := fun r hr _ => (classSize_id n r hr).symm

theorem dsUnionBySize_inv {n : ℕ} {es : List (Edge Unit)} {d : SizeDS} (h : SizeInv n es d) {x y : ℕ}
    (hx : x < n) (hy : y < n) : SizeInv n (es ++ [⟨x, y, ()⟩]) (dsUnionBySize n d x y) := by
  have hp := h.rep.forest
  unfold dsUnionBySize
  simp only [dsFind_eq]
  split
  · rename_i heq
    exact ⟨h.rep.skip heq, h.size⟩
  · rename_i hne
    set a := if d.size (root n d.parent x) < d.size (root n d.parent y) then root n d.parent y
      else root n d.parent x with ha
    set b := if d.size (root n d.parent x) < d.size (root n d.parent y) then root n d.parent x
      else root n d.parent y with hb
    have hab : (a = root n d.parent x ∧ b = root n d.parent y) ∨
        (a = root n d.parent y ∧ b = root n d.parent x) := by
      rw [ha, hb]; split
      · exact Or.inr ⟨rfl, rfl⟩
      · exact Or.inl ⟨rfl, rfl⟩
    have hne' : a ≠ b := by
      rcases hab with ⟨h1, h2⟩ | ⟨h1, h2⟩
      · rw [h1, h2]; exact hne
      · rw [h1, h2]; exact Ne.symm hne
    have fa : d.parent a = a := by
      rcases hab with ⟨h1, h2⟩ | ⟨h1, h2⟩ <;> rw [h1] <;> exact hp.root_fixed _
    have fb : d.parent b = b := by
      rcases hab with ⟨h1, h2⟩ | ⟨h1, h2⟩ <;> rw [h2] <;> exact hp.root_fixed _
    have la : a < n := by
      rcases hab with ⟨h1, h2⟩ | ⟨h1, h2⟩ <;> rw [h1]
      · exact hp.root_lt hx
      · exact hp.root_lt hy
    have lb : b < n := by
      rcases hab with ⟨h1, h2⟩ | ⟨h1, h2⟩ <;> rw [h2]
      · exact hp.root_lt hy
      · exact hp.root_lt hx
    clear_value a b
    refine ⟨h.rep.union (e := ⟨x, y, ()⟩) hx hy hab hne', ?_⟩
    intro r hr hfix
    simp only at hfix ⊢
    rw [classSize_link hp fa fb hne' la lb]
    have hrb : r ≠ b := by
      rintro rfl
      rw [Function.update_self] at hfix
      exact hne' hfix
    rw [Function.update_of_ne hrb] at hfix
    by_cases hra : r = a
    · subst hra
      rw [if_pos rfl, Function.update_self, h.size r la fa, h.size b lb fb]
    · rw [if_neg hra, if_neg hrb, Function.update_of_ne hra, h.size r hr hfix]

theorem dsSizeRun_inv {n : ℕ} {ops : List DSOp} (hr : OpsInRange n ops) :
    SizeInv n (opEdges ops) (dsSizeRun n ops) := by
  induction ops using List.reverseRecOn with
  | nil => exact SizeInv.init n
  | append_singleton ops op ih =>
    have h := ih fun o ho => hr o (by simp [ho])
    have ho := hr op (by simp)
    unfold dsSizeRun opEdges at *
    rw [List.foldl_append, List.filterMap_append]
    cases op with
    | union x y => exact dsUnionBySize_inv h ho.1 ho.2
    | find x =>
      simp only [List.foldl_cons, List.foldl_nil, dsFind_eq, List.filterMap_cons_none,
        List.filterMap_nil, List.append_nil] at h ⊢
      exact h

/-! ### Depth -/

theorem RankInv.rank_le_log {n : ℕ} {es : List (Edge Unit)} {d : RankDS} (h : RankInv n es d) {r : ℕ}
    (hr : r < n) (hf : d.parent r = r) : d.rank r ≤ Nat.log 2 n := by
  have h1 := h.bound r hr hf
  have h2 : classSize n d.parent r ≤ n := by
    unfold classSize
    exact (Finset.card_filter_le _ _).trans (by simp)
  exact Nat.le_log_of_pow_le (by norm_num) (h1.trans h2)

/-- Before reaching a representative, the rank grows by at least one per step. -/
theorem RankInv.steps_le {n : ℕ} {es : List (Edge Unit)} {d : RankDS} (h : RankInv n es d) {x : ℕ} (hx : x < n)
    {j : ℕ} (hj : ∀ i < j, d.parent (d.parent^[i] x) ≠ d.parent^[i] x) : j ≤ Nat.log 2 n := by
  have hgrow : ∀ i ≤ j, i ≤ d.rank (d.parent^[i] x) := by
    intro i
    induction i with
    | zero => intro _; omega
    | succ i ih =>
      intro hi
      have h1 := ih (by omega)
      have h2 := h.height _ (hj i (by omega))
      rw [Function.iterate_succ_apply']
      omega
  have h1 := hgrow j le_rfl
  obtain ⟨k, _, hk⟩ := chase_iterate d.parent n (d.parent^[j] x)
  have h2 := (h_iterate h.height (d.parent^[j] x) k)
  rw [hk] at h2
  have hlt : ∀ i, d.parent^[i] x < n := by
    intro i
    induction i with
    | zero => exact hx
    | succ i ih => rw [Function.iterate_succ_apply']; exact h.rep.forest.lt _ ih
  have h3 := h.rank_le_log (h.rep.forest.root_lt (hlt j)) (h.rep.forest.root_fixed _)
  change _ ∨ _ at h2
  rcases h2 with h2 | h2
  · rw [← h2] at h1; exact h1.trans h3
  · exact h1.trans (h2.le.trans h3)

end Verif
