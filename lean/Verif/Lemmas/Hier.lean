import Verif.Model.Condense
import Mathlib.Logic.Relation
import Mathlib.Data.List.Nodup
import Mathlib.Data.Finset.Card
import Mathlib.Data.Finset.Range

namespace Verif
variable {W S : Type*}

/-- `a` is one of the two nodes merged into `v`. -/
def Hier.IsKid (H : Hier W S) (v a : ℕ) : Prop :=
  H.n ≤ v ∧ v < H.n + H.m ∧ (a = H.l (v - H.n) ∨ a = H.r (v - H.n))

/-- Every merge refers to two earlier nodes, the larger first, and every node is merged at most once. -/
structure Hier.Valid (H : Hier W S) : Prop where
  lt : ∀ i, i < H.m → H.r i < H.l i ∧ H.l i < H.n + i
  lr : ∀ i j, i < H.m → j < H.m → H.l i ≠ H.r j
  ll : ∀ i j, i < H.m → j < H.m → H.l i = H.l j → i = j
  rr : ∀ i j, i < H.m → j < H.m → H.r i = H.r j → i = j

/-- `x` lies in the subtree of `v`. -/
def Hier.Sub (H : Hier W S) : ℕ → ℕ → Prop := Relation.ReflTransGen H.IsKid

namespace Hier
variable {H : Hier W S}

theorem Sub.refl (v : ℕ) : H.Sub v v := Relation.ReflTransGen.refl
theorem Sub.trans {a b c : ℕ} (h : H.Sub a b) (h' : H.Sub b c) : H.Sub a c := Relation.ReflTransGen.trans h h'
theorem Sub.kid {a b : ℕ} (h : H.IsKid a b) : H.Sub a b := Relation.ReflTransGen.single h

theorem root_eq (H : Hier W S) : H.root + 1 = H.n + H.m := by unfold Hier.root Hier.n; omega

theorem IsKid.lt (hv : H.Valid) {v a : ℕ} (h : H.IsKid v a) : a < v := by
  obtain ⟨h1, h2, h3⟩ := h
  have := hv.lt (v - H.n) (by omega)
  rcases h3 with rfl | rfl <;> omega

theorem IsKid.unique (hv : H.Valid) {v w a : ℕ} (h : H.IsKid v a) (h' : H.IsKid w a) : v = w := by
  obtain ⟨h1, h2, h3⟩ := h
  obtain ⟨h1', h2', h3'⟩ := h'
  have hi : v - H.n < H.m := by omega
  have hj : w - H.n < H.m := by omega
  rcases h3 with rfl | rfl <;> rcases h3' with h3' | h3'
  · have := hv.ll _ _ hi hj h3'; omega
  · exact absurd h3' (hv.lr _ _ hi hj)
  · exact absurd h3'.symm (hv.lr _ _ hj hi)
  · have := hv.rr _ _ hi hj h3'; omega

theorem IsKid.ne_root (hv : H.Valid) {v a : ℕ} (h : H.IsKid v a) : a ≠ H.root := by
  have := h.lt hv
  have := h.2.1
  have := H.root_eq
  omega

theorem Sub.le (hv : H.Valid) {v x : ℕ} (h : H.Sub v x) : x ≤ v := by
  induction h with
  | refl => exact le_rfl
  | tail _ h ih => exact (h.lt hv).le.trans ih

theorem Sub.cases_head {v x : ℕ} (h : H.Sub v x) : v = x ∨ ∃ a, H.IsKid v a ∧ H.Sub a x :=
  Relation.ReflTransGen.cases_head h

theorem Sub.cases_tail {v x : ℕ} (h : H.Sub v x) : x = v ∨ ∃ w, H.Sub v w ∧ H.IsKid w x :=
  Relation.ReflTransGen.cases_tail h

theorem Sub.of_leaf {v x : ℕ} (h : H.Sub v x) (hl : v < H.n) : x = v := by
  rcases h.cases_head with h | ⟨a, ha, _⟩
  · exact h.symm
  · have := ha.1; omega

theorem Sub.comparable (hv : H.Valid) {a b x : ℕ} (h : H.Sub a x) (h' : H.Sub b x) :
    H.Sub a b ∨ H.Sub b a := by
  induction h with
  | refl => exact Or.inr h'
  | @tail w x haw hwx ih =>
    rcases h'.cases_tail with rfl | ⟨w', hbw, hwx'⟩
    · exact Or.inl (haw.tail hwx)
    · have := hwx.unique hv hwx'
      subst this
      exact ih hbw

/-- Different kids of a node have disjoint subtrees. -/
theorem kids_disjoint (hv : H.Valid) {v a b x : ℕ} (ha : H.IsKid v a) (hb : H.IsKid v b)
    (hax : H.Sub a x) (hbx : H.Sub b x) : a = b := by
  have key : ∀ {a b}, H.IsKid v a → H.IsKid v b → H.Sub a b → a = b := by
    intro a b ha hb hab
    rcases hab.cases_tail with h | ⟨w, haw, hwb⟩
    · exact h.symm
    · have := hwb.unique hv hb
      subst this
      have h1 := haw.le hv
      have h2 := ha.lt hv
      omega
  rcases hax.comparable hv hbx with h | h
  · exact key ha hb h
  · exact (key hb ha h).symm

theorem mem_kids {v a : ℕ} (hv' : v ≤ H.root) : a ∈ H.kids v ↔ H.IsKid v a := by
  have := H.root_eq
  unfold kids IsKid
  split
  · simp only [List.mem_cons, List.not_mem_nil, or_false]
    constructor
    · intro h; exact ⟨by omega, by omega, h⟩
    · intro h; exact h.2.2
  · simp only [List.not_mem_nil, false_iff]
    intro h; omega

theorem kids_nodup (hv : H.Valid) {v : ℕ} (hv' : v ≤ H.root) : (H.kids v).Nodup := by
  have := H.root_eq
  unfold kids
  split
  · rw [List.nodup_cons]
    refine ⟨?_, by simp⟩
    simp only [List.mem_singleton]
    exact hv.lr _ _ (by omega) (by omega)
  · exact List.nodup_nil

theorem mem_bfsAux (hv : H.Valid) (f : ℕ) (L : List ℕ) (hL : ∀ v ∈ L, v < f ∧ v ≤ H.root) (x : ℕ) :
    x ∈ H.bfsAux f L ↔ ∃ v ∈ L, H.Sub v x := by
  induction f generalizing L with
  | zero =>
    simp only [bfsAux, List.not_mem_nil, false_iff]
    rintro ⟨v, hv, _⟩
    have := hL v hv; omega
  | succ f ih =>
    cases L with
    | nil => simp [bfsAux]
    | cons a as =>
      simp only [bfsAux]
      rw [List.mem_append, ih]
      · constructor
        · rintro (h | ⟨v, h1, h2⟩)
          · exact ⟨x, h, Sub.refl x⟩
          · rw [List.mem_flatMap] at h1
            obtain ⟨w, hw, hk⟩ := h1
            exact ⟨w, hw, (Sub.kid ((mem_kids (hL w hw).2).1 hk)).trans h2⟩
        · rintro ⟨v, h1, h2⟩
          rcases h2.cases_head with rfl | ⟨b, hb, hbx⟩
          · exact Or.inl h1
          · exact Or.inr ⟨b, List.mem_flatMap.2 ⟨v, h1, (mem_kids (hL v h1).2).2 hb⟩, hbx⟩
      · intro v h
        rw [List.mem_flatMap] at h
        obtain ⟨w, hw, hk⟩ := h
        have := ((mem_kids (hL w hw).2).1 hk).lt hv
        have := hL w hw
        omega

theorem mem_bfs (hv : H.Valid) {v x : ℕ} (hr : v ≤ H.root) : x ∈ H.bfs v ↔ H.Sub v x := by
  unfold bfs
  rw [mem_bfsAux hv _ _ (by simpa using hr)]
  simp

theorem nodup_bfsAux (hv : H.Valid) (f : ℕ) (L : List ℕ) (hL : ∀ v ∈ L, v < f ∧ v ≤ H.root) (hn : L.Nodup)
    (hanti : ∀ a ∈ L, ∀ b ∈ L, H.Sub a b → a = b) : (H.bfsAux f L).Nodup := by
  induction f generalizing L with
  | zero => simp [bfsAux]
  | succ f ih =>
    cases hLL : L with
    | nil => simp [bfsAux]
    | cons a as =>
      simp only [bfsAux]
      rw [← hLL]
      have hkid : ∀ x ∈ L.flatMap H.kids, ∃ w ∈ L, H.IsKid w x := by
        intro x hx
        rw [List.mem_flatMap] at hx
        obtain ⟨w, hw, hk⟩ := hx
        exact ⟨w, hw, (mem_kids (hL w hw).2).1 hk⟩
      have hL' : ∀ v ∈ L.flatMap H.kids, v < f ∧ v ≤ H.root := by
        intro v h
        obtain ⟨w, hw, hk⟩ := hkid v h
        have := hk.lt hv
        have := hL w hw
        omega
      rw [List.nodup_append]
      refine ⟨hn, ih _ hL' ?_ ?_, ?_⟩
      · rw [List.nodup_flatMap]
        refine ⟨fun x hx => kids_nodup hv (hL x hx).2, ?_⟩
        refine List.Pairwise.imp_of_mem ?_ hn
        intro u w hu hw hne x hx hx'
        exact hne (((mem_kids (hL u hu).2).1 hx).unique hv ((mem_kids (hL w hw).2).1 hx'))
      · intro x hx y hy hxy
        obtain ⟨u, hu, hux⟩ := hkid x hx
        obtain ⟨w, hw, hwy⟩ := hkid y hy
        have huw : u = w := by
          rcases ((Sub.kid hux).trans hxy).comparable hv (Sub.kid hwy) with h | h
          · exact hanti u hu w hw h
          · exact (hanti w hw u hu h).symm
        subst huw
        exact kids_disjoint hv hux hwy hxy (Sub.refl y)
      · intro x hx y hy hxy
        subst hxy
        rw [mem_bfsAux hv f _ hL'] at hy
        obtain ⟨v, h1, h2⟩ := hy
        obtain ⟨w, hw, hk⟩ := hkid v h1
        have := hanti w hw x hx ((Sub.kid hk).trans h2)
        subst this
        have := h2.le hv
        have := hk.lt hv
        omega

theorem nodup_bfs (hv : H.Valid) {v : ℕ} (hr : v ≤ H.root) : (H.bfs v).Nodup := by
  unfold bfs
  refine nodup_bfsAux hv _ _ (by simpa using hr) (by simp) ?_
  intro a ha b hb _
  simp only [List.mem_singleton] at ha hb
  omega

theorem bfs_leaf {v : ℕ} (hl : v < H.n) : H.bfs v = [v] := by
  unfold bfs
  simp only [bfsAux]
  have : H.kids v = [] := by unfold kids; rw [if_neg (by omega)]
  simp only [List.flatMap_cons, List.flatMap_nil, this, List.append_nil]
  cases v <;> simp [bfsAux]

/-- Parents come first. -/
theorem bfsAux_order (f : ℕ) (L : List ℕ) (hL : ∀ v ∈ L, v ≤ H.root) (hv : H.Valid) (P : List ℕ) (w : ℕ)
    (R : List ℕ) (h : H.bfsAux f L = P ++ w :: R) : w ∈ L ∨ ∃ v ∈ P, H.IsKid v w := by
  induction f generalizing L P with
  | zero => simp [bfsAux] at h
  | succ f ih =>
    cases hLL : L with
    | nil => subst hLL; simp [bfsAux] at h
    | cons a as =>
      rw [← hLL]
      have h' : L ++ H.bfsAux f (L.flatMap H.kids) = P ++ w :: R := by
        rw [hLL] at h ⊢; exact h
      have hkid : ∀ x ∈ L.flatMap H.kids, ∃ w ∈ L, H.IsKid w x := by
        intro x hx
        rw [List.mem_flatMap] at hx
        obtain ⟨w, hw, hk⟩ := hx
        exact ⟨w, hw, (mem_kids (hL w hw)).1 hk⟩
      rw [List.append_eq_append_iff] at h'
      rcases h' with ⟨Q, hP, hQ⟩ | ⟨Q, hL', hQ⟩
      · -- w in the second part
        have := ih _ (by
          intro v hvm
          obtain ⟨u, hu, hk⟩ := hkid v hvm
          have := hk.lt hv
          have := hL u hu; omega) Q hQ
        rcases this with h1 | ⟨v, h1, h2⟩
        · obtain ⟨u, hu, hk⟩ := hkid w h1
          exact Or.inr ⟨u, by rw [hP]; simp [hu], hk⟩
        · exact Or.inr ⟨v, by rw [hP]; simp [h1], h2⟩
      · cases Q with
        | nil =>
          simp only [List.append_nil, List.nil_append] at hL' hQ
          have := ih _ (by
            intro v hvm
            obtain ⟨u, hu, hk⟩ := hkid v hvm
            have := hk.lt hv
            have := hL u hu; omega) [] (by rw [← hQ]; simp)
          rcases this with h1 | ⟨v, h1, h2⟩
          · obtain ⟨u, hu, hk⟩ := hkid w h1
            exact Or.inr ⟨u, by rw [← hL']; exact hu, hk⟩
          · simp at h1
        | cons q Q =>
          simp only [List.cons_append, List.cons.injEq] at hQ
          left
          rw [hL', hQ.1]; simp

theorem bfs_order (hv : H.Valid) {v : ℕ} (hr : v ≤ H.root) {P : List ℕ} {w : ℕ} {R : List ℕ}
    (h : H.bfs v = P ++ w :: R) : w = v ∨ ∃ u ∈ P, H.IsKid u w := by
  have := bfsAux_order (v + 1) [v] (by simpa using hr) hv P w R h
  simpa using this

/-- Every node but the root has been merged. -/
theorem exists_parent (hv : H.Valid) {a : ℕ} (ha : a < H.root) : ∃ v, H.IsKid v a := by
  classical
  have hre := H.root_eq
  have hn : H.n = H.m + 1 := rfl
  have hroot : H.root = 2 * H.m := rfl
  let A := (Finset.range H.m).image H.l
  let B := (Finset.range H.m).image H.r
  have hA : A.card = H.m := by
    rw [Finset.card_image_of_injOn, Finset.card_range]
    intro i hi j hj h
    simp only [Finset.coe_range, Set.mem_Iio] at hi hj
    exact hv.ll i j hi hj h
  have hB : B.card = H.m := by
    rw [Finset.card_image_of_injOn, Finset.card_range]
    intro i hi j hj h
    simp only [Finset.coe_range, Set.mem_Iio] at hi hj
    exact hv.rr i j hi hj h
  have hAB : Disjoint A B := by
    rw [Finset.disjoint_left]
    intro x hx hx'
    simp only [A, B, Finset.mem_image, Finset.mem_range] at hx hx'
    obtain ⟨i, hi, rfl⟩ := hx
    obtain ⟨j, hj, h⟩ := hx'
    exact hv.lr i j hi hj h.symm
  have hsub : A ∪ B ⊆ Finset.range (2 * H.m) := by
    intro x hx
    simp only [A, B, Finset.mem_union, Finset.mem_image, Finset.mem_range] at hx ⊢
    rcases hx with ⟨i, hi, rfl⟩ | ⟨i, hi, rfl⟩
    · have := hv.lt i hi; omega
    · have := hv.lt i hi; omega
  have heq : A ∪ B = Finset.range (2 * H.m) := by
    apply Finset.eq_of_subset_of_card_le hsub
    rw [Finset.card_union_of_disjoint hAB, hA, hB, Finset.card_range]; omega
  have hmem : a ∈ A ∪ B := by rw [heq, Finset.mem_range]; omega
  simp only [A, B, Finset.mem_union, Finset.mem_image, Finset.mem_range] at hmem
  rcases hmem with ⟨i, hi, h⟩ | ⟨i, hi, h⟩
  · refine ⟨H.n + i, by omega, by omega, Or.inl ?_⟩
    rw [show H.n + i - H.n = i by omega]; exact h.symm
  · refine ⟨H.n + i, by omega, by omega, Or.inr ?_⟩
    rw [show H.n + i - H.n = i by omega]; exact h.symm

theorem sub_root (hv : H.Valid) {v : ℕ} (h : v ≤ H.root) : H.Sub H.root v := by
  obtain ⟨k, hk⟩ : ∃ k, v + k = H.root := ⟨H.root - v, by omega⟩
  induction k using Nat.strong_induction_on generalizing v with
  | _ k ih =>
    by_cases h0 : v = H.root
    · rw [h0]; exact Sub.refl _
    · obtain ⟨w, hw⟩ := exists_parent hv (show v < H.root by omega)
      have h1 := hw.lt hv
      have h2 := hw.2.1
      have h3 := H.root_eq
      exact (ih (H.root - w) (by omega) (by omega) (by omega)).tail hw

end Hier
end Verif
