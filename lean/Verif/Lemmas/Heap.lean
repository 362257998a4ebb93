import Verif.Lemmas.ArrPerm
import Mathlib.Order.Basic

namespace Verif
variable {W J α K : Type*} [LinearOrder K]

/-- Below `lo` nothing is claimed; from `lo` on children do not exceed their parents. -/
def HeapFrom (f : α → K) (off lo size : ℕ) (h : ℕ → α) : Prop :=
  ∀ c, 0 < c → c < size → lo ≤ (c - 1) / 2 → f (h (off + c)) ≤ f (h (off + (c - 1) / 2))

/-- As `HeapFrom`, but the entry at `i` may be too small; its children do not exceed its parent. -/
structure HeapBut (f : α → K) (off lo size i : ℕ) (h : ℕ → α) : Prop where
  other : ∀ c, 0 < c → c < size → lo ≤ (c - 1) / 2 → (c - 1) / 2 ≠ i → f (h (off + c)) ≤ f (h (off + (c - 1) / 2))
  skip : 0 < i → lo ≤ (i - 1) / 2 → ∀ c, 0 < c → c < size → (c - 1) / 2 = i → f (h (off + c)) ≤ f (h (off + (i - 1) / 2))

theorem HeapFrom.but {f : α → K} {off lo size : ℕ} {h : ℕ → α} (hh : HeapFrom f off (lo + 1) size h) :
    HeapBut f off lo size lo h :=
  ⟨fun c h1 h2 h3 h4 => hh c h1 h2 (by omega), fun h1 h2 => by omega⟩

theorem HeapBut.done {f : α → K} {off lo size i : ℕ} {h : ℕ → α} (hb : HeapBut f off lo size i h)
    (hc : ∀ c, 0 < c → c < size → (c - 1) / 2 = i → f (h (off + c)) ≤ f (h (off + i))) : HeapFrom f off lo size h := by
  intro c h1 h2 h3
  by_cases h4 : (c - 1) / 2 = i
  · rw [h4]; exact hc c h1 h2 h4
  · exact hb.other c h1 h2 h3 h4

/-- Exchanging the entry with its largest child moves the defect down. -/
theorem HeapBut.step {f : α → K} {off lo size i s : ℕ} {h : ℕ → α} (hb : HeapBut f off lo size i h) (hi : lo ≤ i) (hs0 : 0 < s)
    (hsp : (s - 1) / 2 = i) (hsz : s < size) (hlt : f (h (off + i)) ≤ f (h (off + s)))
    (hmax : ∀ c, 0 < c → c < size → (c - 1) / 2 = i → f (h (off + c)) ≤ f (h (off + s))) :
    HeapBut f off lo size s (swapAt h (off + i) (off + s)) := by
  have his : i < s := by omega
  have gi : swapAt h (off + i) (off + s) (off + i) = h (off + s) := by rw [swapAt_apply, if_neg (by omega), if_pos rfl]
  have gs : swapAt h (off + i) (off + s) (off + s) = h (off + i) := by rw [swapAt_apply, if_pos rfl]
  have go : ∀ x, x ≠ i → x ≠ s → swapAt h (off + i) (off + s) (off + x) = h (off + x) := by
    intro x h1 h2
    rw [swapAt_apply, if_neg (by omega), if_neg (by omega)]
  constructor
  · intro c h1 h2 h3 h4
    by_cases hcs : c = s
    · subst hcs; rw [gs, hsp, gi]; exact hlt
    by_cases hci : c = i
    · subst hci
      have h5 : (c - 1) / 2 ≠ c := by omega
      have h6 : (c - 1) / 2 ≠ s := h4
      rw [gi, go _ h5 h6]
      exact hb.skip h1 h3 s hs0 hsz hsp
    · rw [go c hci hcs]
      by_cases h5 : (c - 1) / 2 = i
      · rw [h5, gi]; exact hmax c h1 h2 h5
      · rw [go _ h5 h4]; exact hb.other c h1 h2 h3 h5
  · intro _ _ c h1 h2 h3
    have hcs : c ≠ s := by omega
    have hci : c ≠ i := by omega
    rw [go c hci hcs, hsp, gi, ← h3]
    have h5 : (c - 1) / 2 ≠ i := by omega
    exact hb.other c h1 h2 (by omega) h5

theorem siftChild_spec (f : α → K) (off size : ℕ) (h : ℕ → α) (elt : ℕ) (hl : elt * 2 + 1 < size) :
    let s := siftChild f off size h elt
    (s = elt ∧ ∀ c, 0 < c → c < size → (c - 1) / 2 = elt → f (h (off + c)) ≤ f (h (off + elt))) ∨
      (0 < s ∧ (s - 1) / 2 = elt ∧ s < size ∧ f (h (off + elt)) ≤ f (h (off + s)) ∧
        ∀ c, 0 < c → c < size → (c - 1) / 2 = elt → f (h (off + c)) ≤ f (h (off + s))) := by
  have hc : ∀ c, 0 < c → (c - 1) / 2 = elt → c = elt * 2 + 1 ∨ c = elt * 2 + 1 + 1 := by intro c h1 h2; omega
  unfold siftChild
  simp only
  by_cases h1 : f (h (off + elt)) < f (h (off + (elt * 2 + 1)))
  · rw [if_pos h1]
    right
    by_cases h2 : elt * 2 + 1 + 1 < size ∧ f (h (off + (elt * 2 + 1))) < f (h (off + (elt * 2 + 1 + 1)))
    · rw [if_pos h2]
      refine ⟨by omega, by omega, h2.1, (h1.trans h2.2).le, fun c h3 h4 h5 => ?_⟩
      rcases hc c h3 h5 with rfl | rfl
      · exact h2.2.le
      · exact le_refl _
    · rw [if_neg h2]
      refine ⟨by omega, by omega, hl, h1.le, fun c h3 h4 h5 => ?_⟩
      rcases hc c h3 h5 with rfl | rfl
      · exact le_refl _
      · by_contra h6
        exact h2 ⟨h4, not_le.1 h6⟩
  · rw [if_neg h1]
    by_cases h2 : elt * 2 + 1 + 1 < size ∧ f (h (off + elt)) < f (h (off + (elt * 2 + 1 + 1)))
    · rw [if_pos h2]
      right
      refine ⟨by omega, by omega, h2.1, h2.2.le, fun c h3 h4 h5 => ?_⟩
      rcases hc c h3 h5 with rfl | rfl
      · exact (not_lt.1 h1).trans h2.2.le
      · exact le_refl _
    · rw [if_neg h2]
      left
      refine ⟨rfl, fun c h3 h4 h5 => ?_⟩
      rcases hc c h3 h5 with rfl | rfl
      · exact not_lt.1 h1
      · by_contra h6
        exact h2 ⟨h4, not_le.1 h6⟩

theorem siftDown_spec (f : α → K) (off lo size : ℕ) (g : ℕ) (h : ℕ → α) (i : ℕ) (hg : size ≤ g + i) (hi : lo ≤ i)
    (hiz : i < size) (hb : HeapBut f off lo size i h) :
    HeapFrom f off lo size (siftDown f off size g h i) ∧ PermOn (off + i) (off + size) h (siftDown f off size g h i) := by
  induction g generalizing h i with
  | zero => omega
  | succ g ih =>
    unfold siftDown
    by_cases hl : i * 2 + 1 < size
    · rw [if_pos hl]
      simp only
      rcases siftChild_spec f off size h i hl with ⟨h1, h2⟩ | ⟨h0, h1, h2, h3, h4⟩
      · rw [if_pos h1]
        exact ⟨hb.done h2, PermOn.refl _ _ _⟩
      · generalize siftChild f off size h i = s at *
        rw [if_neg (by omega)]
        obtain ⟨h5, h6⟩ := ih (swapAt h (off + i) (off + s)) s (by omega) (by omega) h2 (hb.step hi h0 h1 h2 h3 h4)
        refine ⟨h5, ?_⟩
        refine (PermOn.swapAt h (by omega) (by omega)).trans (h6.mono (by omega) le_rfl (by omega))
    · rw [if_neg hl]
      exact ⟨hb.done fun c h1 h2 h3 => by omega, PermOn.refl _ _ _⟩

/-- The root of a heap is its largest entry. -/
theorem HeapFrom.root_max {f : α → K} {off size : ℕ} {h : ℕ → α} (hh : HeapFrom f off 0 size h) (c : ℕ) (hc : c < size) :
    f (h (off + c)) ≤ f (h (off + 0)) := by
  induction c using Nat.strong_induction_on with
  | _ c ih =>
    rcases Nat.eq_zero_or_pos c with rfl | h0
    · exact le_refl _
    · exact (hh c h0 hc (by omega)).trans (ih ((c - 1) / 2) (by omega) (by omega))

theorem HeapFrom.congr {f : α → K} {off lo size : ℕ} {h h' : ℕ → α} (hh : HeapFrom f off lo size h)
    (he : ∀ c < size, h' (off + c) = h (off + c)) : HeapFrom f off lo size h' := by
  intro c h1 h2 h3
  rw [he c h2, he _ (by omega)]
  exact hh c h1 h2 h3

theorem buildHeap_spec (f : α → K) (off size : ℕ) (h : ℕ → α) :
    HeapFrom f off 0 size (buildHeap f off size h) ∧ PermOn off (off + size) h (buildHeap f off size h) := by
  unfold buildHeap
  have key : ∀ m, m ≤ size / 2 → ∀ h : ℕ → α, HeapFrom f off m size h →
      HeapFrom f off 0 size ((List.range m).reverse.foldl (fun h i => siftDown f off size size h i) h) ∧
        PermOn off (off + size) h ((List.range m).reverse.foldl (fun h i => siftDown f off size size h i) h) := by
    intro m
    induction m with
    | zero => intro _ h hh; exact ⟨hh, PermOn.refl _ _ _⟩
    | succ m ih =>
      intro hm h hh
      rw [List.range_succ, List.reverse_append, List.foldl_append]
      simp only [List.reverse_cons, List.reverse_nil, List.nil_append, List.foldl_cons, List.foldl_nil]
      obtain ⟨h1, h2⟩ := siftDown_spec f off m size size h m (by omega) le_rfl (by omega) hh.but
      obtain ⟨h3, h4⟩ := ih (by omega) _ h1
      exact ⟨h3, (h2.mono (by omega) le_rfl (by omega)).trans h4⟩
  exact key (size / 2) le_rfl h fun c h1 h2 h3 => by omega

/-- The positions `j ≤ x < size` are in ascending order and not below what comes before. -/
structure TailSorted (f : α → K) (off j size : ℕ) (h : ℕ → α) : Prop where
  sorted : ∀ x y, j ≤ x → x ≤ y → y < size → f (h (off + x)) ≤ f (h (off + y))
  above : ∀ x y, x < j → j ≤ y → y < size → f (h (off + x)) ≤ f (h (off + y))

theorem drainStep_spec (f : α → K) (off j size : ℕ) (h : ℕ → α) (hj : 0 < j) (hjs : j < size)
    (hh : HeapFrom f off 0 (j + 1) h) (ht : TailSorted f off (j + 1) size h) :
    let h' := siftDown f off j j (swapAt h (off + 0) (off + j)) 0
    HeapFrom f off 0 j h' ∧ TailSorted f off j size h' ∧ PermOn off (off + (j + 1)) h h' := by
  set h1 := swapAt h (off + 0) (off + j) with hh1
  have e0 : h1 (off + 0) = h (off + j) := by rw [hh1, swapAt_apply, if_neg (by omega), if_pos rfl]
  have ej : h1 (off + j) = h (off + 0) := by rw [hh1, swapAt_apply, if_pos rfl]
  have eo : ∀ x, x ≠ 0 → x ≠ j → h1 (off + x) = h (off + x) := by
    intro x ha hb
    rw [hh1, swapAt_apply, if_neg (by omega), if_neg (by omega)]
  have hbut : HeapBut f off 0 j 0 h1 := by
    refine ⟨fun c h2 h3 h4 h5 => ?_, fun h2 => by omega⟩
    rw [eo c (by omega) (by omega), eo _ h5 (by omega)]
    exact hh c h2 (by omega) h4
  obtain ⟨h2, h3⟩ := siftDown_spec f off 0 j j h1 0 (by omega) le_rfl hj hbut
  have hp1 : PermOn off (off + (j + 1)) h h1 := PermOn.swapAt h (by omega) (by omega)
  set h' := siftDown f off j j h1 0
  have hout : ∀ y, j ≤ y → h' (off + y) = h1 (off + y) := fun y hy => h3.out _ (by omega)
  refine ⟨h2, ?_, hp1.trans (h3.mono (by omega) (by omega) (by omega))⟩
  constructor
  · intro x y hx hxy hy
    rw [hout x hx, hout y (by omega)]
    rcases Nat.eq_or_lt_of_le hx with rfl | hx'
    · rw [ej]
      rcases Nat.eq_or_lt_of_le hxy with rfl | hy'
      · rw [ej]
      · rw [eo y (by omega) (by omega)]
        exact ht.above 0 y (by omega) (by omega) hy
    · rw [eo x (by omega) (by omega), eo y (by omega) (by omega)]
      exact ht.sorted x y hx' hxy hy
  · intro x y hx hy hyz
    obtain ⟨z, hz1, hz2, hz⟩ := h3.exists_old (x := off + x) (by omega)
    obtain ⟨z', rfl⟩ : ∃ z', z = off + z' := ⟨z - off, by omega⟩
    rw [← hz, hout y hy]
    have hold : ∃ w, w < j + 1 ∧ h1 (off + z') = h (off + w) := by
      rcases Nat.eq_zero_or_pos z' with rfl | hz0
      · exact ⟨j, by omega, e0⟩
      · exact ⟨z', by omega, eo z' (by omega) (by omega)⟩
    obtain ⟨w, hw, hwe⟩ := hold
    rw [hwe]
    rcases Nat.eq_or_lt_of_le hy with rfl | hy'
    · rw [ej]; exact hh.root_max w hw
    · rw [eo y (by omega) (by omega)]
      exact ht.above w y hw (by omega) hyz

theorem drainHeap_spec (f : α → K) (off size : ℕ) (h : ℕ → α) (hh : HeapFrom f off 0 size h) :
    (∀ x y, x ≤ y → y < size → f (drainHeap f off size h (off + x)) ≤ f (drainHeap f off size h (off + y))) ∧
      PermOn off (off + size) h (drainHeap f off size h) := by
  unfold drainHeap
  have key : ∀ m, m + 1 ≤ size → ∀ h : ℕ → α, HeapFrom f off 0 (m + 1) h → TailSorted f off (m + 1) size h →
      let h' := (List.range' 1 m).reverse.foldl (fun h j => siftDown f off j j (swapAt h (off + 0) (off + j)) 0) h
      TailSorted f off 1 size h' ∧ PermOn off (off + size) h h' := by
    intro m
    induction m with
    | zero => intro _ h _ ht; exact ⟨ht, PermOn.refl _ _ _⟩
    | succ m ih =>
      intro hm h hh ht
      rw [List.range'_1_concat, List.reverse_append, List.foldl_append]
      simp only [List.reverse_cons, List.reverse_nil, List.nil_append, List.foldl_cons, List.foldl_nil]
      rw [Nat.add_comm 1 m]
      obtain ⟨h1, h2, h3⟩ := drainStep_spec f off (m + 1) size h (by omega) (by omega) hh ht
      obtain ⟨h4, h5⟩ := ih (by omega) _ h1 h2
      exact ⟨h4, (h3.mono le_rfl (by omega) (by omega)).trans h5⟩
  rcases Nat.eq_zero_or_pos size with rfl | hs
  · exact ⟨fun x y _ hy => by omega, PermOn.refl _ _ _⟩
  · obtain ⟨h1, h2⟩ := key (size - 1) (by omega) h (by rw [show size - 1 + 1 = size by omega]; exact hh)
      (by constructor <;> · intros; omega)
    refine ⟨fun x y hxy hy => ?_, h2⟩
    rcases Nat.eq_zero_or_pos x with rfl | hx
    · rcases Nat.eq_zero_or_pos y with rfl | hy0
      · exact le_refl _
      · exact h1.above 0 y (by omega) hy0 hy
    · exact h1.sorted x y hx hxy hy

theorem heapSort_spec (f : α → K) (left right : ℕ) (hlr : left ≤ right) (h : ℕ → α) :
    (∀ x y, left ≤ x → x ≤ y → y < right → f (heapSort f left right h x) ≤ f (heapSort f left right h y)) ∧
      PermOn left right h (heapSort f left right h) := by
  obtain ⟨h1, h2⟩ := buildHeap_spec f left (right - left) h
  obtain ⟨h3, h4⟩ := drainHeap_spec f left (right - left) _ h1
  have e : left + (right - left) = right := by omega
  rw [e] at h2 h4
  refine ⟨fun x y hx hxy hy => ?_, h2.trans h4⟩
  have := h3 (x - left) (y - left) (by omega) (by omega)
  rw [show left + (x - left) = x by omega, show left + (y - left) = y by omega] at this
  exact this

/-! ### Pushing -/

variable [LinearOrder W]

theorem pushChild_spec {size : ℕ} (hsz : size ≤ 32768) (p : W) (n : J) (h : ℕ → W × J) (i : ℕ) (hi : i < size) :
    let h' := Function.update h i (p, n)
    match pushChild size p h i with
    | none => ∀ c, 0 < c → c < size → (c - 1) / 2 = i → (h' c).1 ≤ (h' i).1
    | some s => 0 < s ∧ (s - 1) / 2 = i ∧ s < size ∧ (h' i).1 ≤ (h' s).1 ∧
        ∀ c, 0 < c → c < size → (c - 1) / 2 = i → (h' c).1 ≤ (h' s).1 := by
  have e1 : u16 (2 * i + 1) = 2 * i + 1 := by unfold u16; omega
  have hc : ∀ c, 0 < c → (c - 1) / 2 = i → c = 2 * i + 1 ∨ c = 2 * i + 1 + 1 := by intro c h1 h2; omega
  intro h'
  have hi' : (h' i).1 = p := by simp [h']
  have ho : ∀ c, c ≠ i → h' c = h c := fun c hc => Function.update_of_ne hc _ _
  unfold pushChild
  simp only
  rw [e1]
  by_cases h1 : 2 * i + 1 ≥ size
  · rw [if_pos h1]
    intro c a b d; omega
  rw [if_neg h1]
  have e2 : u16 (2 * i + 1 + 1) = 2 * i + 1 + 1 := by unfold u16; omega
  rw [e2]
  by_cases h2 : 2 * i + 1 + 1 ≥ size
  · rw [if_pos h2]
    by_cases h3 : (h (2 * i + 1)).1 > p
    · rw [if_pos h3]
      refine ⟨by omega, by omega, by omega, ?_, fun c a b d => ?_⟩
      · rw [hi', ho _ (by omega)]; exact le_of_lt h3
      · rcases hc c a d with rfl | rfl
        · exact le_refl _
        · omega
    · rw [if_neg h3]
      intro c a b d
      rcases hc c a d with rfl | rfl
      · rw [hi', ho _ (by omega)]; exact not_lt.1 h3
      · omega
  rw [if_neg h2]
  by_cases h3 : (h (2 * i + 1)).1 ≥ (h (2 * i + 1 + 1)).1
  · rw [if_pos h3]
    by_cases h4 : p < (h (2 * i + 1)).1
    · rw [if_pos h4]
      refine ⟨by omega, by omega, by omega, ?_, fun c a b d => ?_⟩
      · rw [hi', ho _ (by omega)]; exact h4.le
      · rcases hc c a d with rfl | rfl
        · exact le_refl _
        · rw [ho _ (by omega), ho _ (by omega)]; exact h3
    · rw [if_neg h4]
      intro c a b d
      rcases hc c a d with rfl | rfl
      · rw [hi', ho _ (by omega)]; exact not_lt.1 h4
      · rw [hi', ho _ (by omega)]; exact h3.trans (not_lt.1 h4)
  · rw [if_neg h3]
    have h3' := (not_le.1 h3).le
    by_cases h4 : p < (h (2 * i + 1 + 1)).1
    · rw [if_pos h4]
      refine ⟨by omega, by omega, by omega, ?_, fun c a b d => ?_⟩
      · rw [hi', ho _ (by omega)]; exact h4.le
      · rcases hc c a d with rfl | rfl
        · rw [ho _ (by omega), ho _ (by omega)]; exact h3'
        · exact le_refl _
    · rw [if_neg h4]
      intro c a b d
      rcases hc c a d with rfl | rfl
      · rw [hi', ho _ (by omega)]; exact h3'.trans (not_lt.1 h4)
      · rw [hi', ho _ (by omega)]; exact not_lt.1 h4

theorem pushLoop_spec {size : ℕ} (hsz : size ≤ 32768) (p : W) (n : J) (g : ℕ) (h : ℕ → W × J) (i : ℕ) (hg : size < g + i)
    (hi : i < size) (hb : HeapBut Prod.fst 0 0 size i (Function.update h i (p, n))) :
    ∃ h', pushLoop size p n g h i = some h' ∧ HeapFrom Prod.fst 0 0 size h' ∧
      PermOn 0 size (Function.update h i (p, n)) h' := by
  induction g generalizing h i with
  | zero => omega
  | succ g ih =>
    unfold pushLoop
    have hs := pushChild_spec hsz p n h i hi
    simp only at hs
    cases hc : pushChild size p h i with
    | none =>
      rw [hc] at hs
      simp only at hs
      refine ⟨_, rfl, hb.done fun c a b d => ?_, PermOn.refl _ _ _⟩
      simpa using hs c a b d
    | some s =>
      rw [hc] at hs
      simp only at hs
      obtain ⟨h0, h1, h2, h3, h4⟩ := hs
      have hsi : s ≠ i := by omega
      have hsw : swapAt (Function.update h i (p, n)) (0 + i) (0 + s) =
          Function.update (Function.update h i (h s)) s (p, n) := by
        funext x
        rw [swapAt_apply, Nat.zero_add, Nat.zero_add]
        by_cases hx : x = s
        · subst hx; simp
        · rw [if_neg hx, Function.update_of_ne hx]
          by_cases hx' : x = i
          · subst hx'; simp [Function.update_of_ne hsi]
          · rw [if_neg hx', Function.update_of_ne hx', Function.update_of_ne hx']
      have hb' := hb.step (s := s) (Nat.zero_le i) h0 h1 h2 (by simpa using h3) (fun c a b d => by simpa using h4 c a b d)
      rw [hsw] at hb'
      obtain ⟨h', e, h5, h6⟩ := ih (Function.update h i (h s)) s (by omega) h2 hb'
      refine ⟨h', e, h5, ?_⟩
      rw [← hsw] at h6
      exact (PermOn.swapAt _ (by omega) (by omega)).trans h6

/-- Pushing keeps the heap order and replaces the largest entry if the new one is smaller. -/
theorem heapPush_spec {size : ℕ} (hsz : size ≤ 32768) (h0 : 0 < size) (h : ℕ → W × J) (hh : HeapFrom Prod.fst 0 0 size h)
    (p : W) (n : J) :
    ∃ h' drop, heapPush size h p n = some h' ∧ HeapFrom Prod.fst 0 0 size h' ∧
      (slice h' 0 size ++ [drop]).Perm (slice h 0 size ++ [(p, n)]) ∧ (∀ x ∈ slice h' 0 size, x.1 ≤ drop.1) ∧
      (h 0).1 ≤ drop.1 := by
  have hroot : ∀ x ∈ slice h 0 size, x.1 ≤ (h 0).1 := by
    intro x hx
    obtain ⟨c, _, hc, rfl⟩ := mem_slice.1 hx
    simpa using hh.root_max c hc
  unfold heapPush
  by_cases hp : p ≥ (h 0).1
  · rw [if_pos hp]
    exact ⟨h, (p, n), rfl, hh, List.Perm.refl _, fun x hx => (hroot x hx).trans hp, hp⟩
  · rw [if_neg hp]
    have hp' := not_le.1 hp
    have hb : HeapBut Prod.fst 0 0 size 0 (Function.update (Function.update h 0 (p, n)) 0 (p, n)) := by
      refine ⟨fun c a b _ d => ?_, fun a => by omega⟩
      rw [Nat.zero_add, Nat.zero_add, Function.update_of_ne (by omega), Function.update_of_ne (by omega),
        Function.update_of_ne d, Function.update_of_ne d]
      simpa using hh c a b (Nat.zero_le _)
    obtain ⟨h', e, h1, h2⟩ := pushLoop_spec hsz p n (size + 1) (Function.update h 0 (p, n)) 0 (by omega) h0 hb
    rw [Function.update_idem] at h2
    have hs : slice (Function.update h 0 (p, n)) 0 size = (p, n) :: slice h 1 size := by
      rw [slice_cons _ h0]
      congr 1
      exact slice_congr fun x hx _ => Function.update_of_ne (by omega) _ _
    have hperm : (slice h' 0 size).Perm ((p, n) :: slice h 1 size) := by rw [← hs]; exact h2.perm
    refine ⟨h', h 0, e, h1, ?_, fun x hx => ?_, le_refl _⟩
    · rw [slice_cons h h0]
      refine (hperm.append_right _).trans ?_
      rw [List.cons_append, List.cons_append]
      refine (List.Perm.cons _ (List.perm_append_singleton _ _)).trans ?_
      refine (List.Perm.swap _ _ _).trans (List.Perm.cons _ ?_)
      exact (List.perm_append_singleton _ _).symm
    · rcases List.mem_cons.1 (hperm.mem_iff.1 hx) with rfl | hx
      · exact hp'.le
      · refine hroot x ?_
        rw [slice_cons h h0]; exact List.mem_cons_of_mem _ hx

end Verif
