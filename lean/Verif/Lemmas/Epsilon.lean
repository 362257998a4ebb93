import Verif.Model.Epsilon
import Verif.Lemmas.ClTree
import Verif.Lemmas.EomSel

/-!
# Lemmas: epsilon search on cluster trees
-/

namespace Verif
variable {L S : Type*} {n k : ℕ} {ct : List (CRow L S)}

/-- Each cluster has no child clusters, or two with consecutive ids and the same lambda. -/
def ClBin (ct : List (CRow L S)) : Prop :=
  ∀ c, (ct.filter fun row => decide (row.parent = c)) = [] ∨
    ∃ a lv s t, (ct.filter fun row => decide (row.parent = c)) = [⟨c, a, lv, s⟩, ⟨c, a + 1, lv, t⟩]

/-- Cluster `c` appears at a lambda that counts as close. -/
def BornClose (close : L → Bool) (ct : List (CRow L S)) (c : ℕ) : Prop :=
  ∃ row ∈ ct, row.child = c ∧ close row.lam = true

theorem ClTree.getElem (h : ClTree n k ct) {c : ℕ} (h1 : n < c) (h2 : c < n + k) :
    ∃ row, ct[c - (n + 1)]? = some row ∧ row.child = c := by
  have hl := h.length
  have hlt : c - (n + 1) < ct.length := by omega
  refine ⟨ct[c - (n + 1)], List.getElem?_eq_getElem hlt, ?_⟩
  have h3 : (ct.map CRow.child)[c - (n + 1)]? = some c := by
    rw [h.child, List.getElem?_range' (by omega)]
    congr 1; omega
  rw [List.getElem?_map, List.getElem?_eq_getElem hlt] at h3
  exact Option.some.inj h3

theorem takeWhile_range'_length (s m c : ℕ) (h1 : s ≤ c) (h2 : c < s + m) :
    ((List.range' s m).takeWhile fun y => decide (y < c)).length = c - s := by
  induction m generalizing s with
  | zero => omega
  | succ m ih =>
    rw [List.range'_succ, List.takeWhile_cons]
    by_cases h : s < c
    · rw [decide_eq_true h]
      simp only [if_true, List.length_cons]
      rw [ih (s + 1) (by omega) (by omega)]; omega
    · rw [decide_eq_false h]
      simp only [Bool.false_eq_true, if_false, List.length_nil]; omega

theorem ClTree.searchLeft_child (h : ClTree n k ct) {c : ℕ} (h1 : n < c) (h2 : c < n + k) :
    ∃ row ∈ ct, ct[searchLeft (ct.map CRow.child) c]? = some row ∧ row.child = c := by
  obtain ⟨row, h3, h4⟩ := h.getElem h1 h2
  refine ⟨row, List.mem_of_getElem? h3, ?_, h4⟩
  unfold searchLeft
  rw [h.child, takeWhile_range'_length _ _ _ (by omega) (by omega)]
  exact h3

theorem ClTree.find_child (h : ClTree n k ct) {row : CRow L S} (hr : row ∈ ct) :
    ct.find? (fun r => decide (r.child = row.child)) = some row := by
  have hex : (ct.find? (fun r => decide (r.child = row.child))).isSome := by
    rw [List.find?_isSome]; exact ⟨row, hr, decide_eq_true rfl⟩
  obtain ⟨r, hr'⟩ := Option.isSome_iff_exists.1 hex
  rw [hr']
  have h1 := List.mem_of_find?_eq_some hr'
  have h2 : r.child = row.child := by simpa using List.find?_some hr'
  rw [List.inj_on_of_nodup_map h.nodup h1 hr h2]

theorem ClTree.row_of (h : ClTree n k ct) {c : ℕ} (h1 : n < c) (h2 : c < n + k) : ∃ row ∈ ct, row.child = c :=
  List.mem_map.1 (h.mem.2 ⟨h1, h2⟩)

theorem ClTree.traverse (h : ClTree n k ct) (close : L → Bool) (f : ℕ) {seg : ℕ} (h1 : n < seg) (h2 : seg < n + k)
    (hf : seg - n < f) (hc : BornClose close ct seg) :
    ∃ p x, traverseUpwards close ct n f seg = some p ∧ CStep ct p x ∧ CDesc ct x seg ∧ BornClose close ct x ∧
      (p = n ∨ ¬ BornClose close ct p) := by
  induction f generalizing seg with
  | zero => omega
  | succ f ih =>
    obtain ⟨row, hr, rfl⟩ := h.row_of h1 h2
    have hpar := h.par row hr
    unfold traverseUpwards
    rw [h.find_child hr]
    simp only
    by_cases hp : row.parent = n
    · rw [if_pos hp]
      exact ⟨n, row.child, rfl, ⟨row, hr, hp, rfl⟩, .refl, hc, .inl rfl⟩
    · rw [if_neg hp]
      obtain ⟨prow, hpr, hpc⟩ := h.row_of (c := row.parent) (by omega) (by omega)
      rw [← hpc, h.find_child hpr]
      simp only
      by_cases hcl : close prow.lam = true
      · rw [if_pos hcl]
        obtain ⟨p, x, h3, h4, h5, h6, h7⟩ := ih (seg := prow.child) (by omega) (by omega) (by omega) ⟨prow, hpr, rfl, hcl⟩
        exact ⟨p, x, h3, h4, h5.tail ⟨row, hr, hpc.symm, rfl⟩, h6, h7⟩
      · rw [if_neg hcl]
        refine ⟨prow.child, row.child, rfl, ⟨row, hr, hpc.symm, rfl⟩, .refl, hc, .inr ?_⟩
        rintro ⟨r, h3, h4, h5⟩
        rw [List.inj_on_of_nodup_map h.nodup h3 hpr h4] at h5
        exact hcl h5

/-- A list sorted by a key splits into smaller, equal and larger elements. -/
theorem sorted_split_le {α : Type*} (f : α → ℕ) (a : ℕ) (l : List α) (hs : l.Pairwise fun x y => f x ≤ f y) :
    (l.map f).takeWhile (fun y => decide (y < a)) = (l.filter fun x => decide (f x < a)).map f ∧
    l = (l.filter fun x => decide (f x < a)) ++ ((l.filter fun x => decide (f x = a)) ++
      (l.filter fun x => decide (a < f x))) := by
  induction l with
  | nil => simp
  | cons x l ih =>
    rw [List.pairwise_cons] at hs
    obtain ⟨h1, h2⟩ := ih hs.2
    rcases Nat.lt_trichotomy (f x) a with h | h | h
    · have e1 : decide (f x < a) = true := decide_eq_true h
      have e2 : decide (f x = a) = false := decide_eq_false (by omega)
      have e3 : decide (a < f x) = false := decide_eq_false (by omega)
      constructor
      · simp [e1, h1]
      · simp only [List.filter_cons, e1, e2, e3, if_true, Bool.false_eq_true, if_false, List.cons_append]
        rw [← h2]
    · have e1 : decide (f x < a) = false := decide_eq_false (by omega)
      have e2 : decide (f x = a) = true := decide_eq_true h
      have e3 : decide (a < f x) = false := decide_eq_false (by omega)
      have e4 : (l.filter fun x => decide (f x < a)) = [] := by
        rw [List.filter_eq_nil_iff]
        intro y hy
        have := hs.1 y hy
        simp; omega
      constructor
      · simp [e1, e4]
      · simp only [List.filter_cons, e1, e2, e3, if_true, Bool.false_eq_true, if_false, List.cons_append, e4,
          List.nil_append]
        rw [e4, List.nil_append] at h2
        rw [← h2]
    · have e1 : decide (f x < a) = false := decide_eq_false (by omega)
      have e2 : decide (f x = a) = false := decide_eq_false (by omega)
      have e3 : decide (a < f x) = true := decide_eq_true h
      have e4 : (l.filter fun x => decide (f x < a)) = [] := by
        rw [List.filter_eq_nil_iff]
        intro y hy
        have := hs.1 y hy
        simp; omega
      have e5 : (l.filter fun x => decide (f x = a)) = [] := by
        rw [List.filter_eq_nil_iff]
        intro y hy
        have := hs.1 y hy
        simp; omega
      constructor
      · simp [e1, e4]
      · simp only [List.filter_cons, e1, e2, e3, if_true, Bool.false_eq_true, if_false, e4, e5,
          List.nil_append]
        rw [e4, e5, List.nil_append, List.nil_append] at h2
        rw [← h2]

/-- The table sorted by parent. -/
def byParent (ct : List (CRow L S)) : List (CRow L S) := ct.insertionSort (fun a b : CRow L S => a.parent ≤ b.parent)

theorem byParent_perm (ct : List (CRow L S)) : (byParent ct).Perm ct := List.perm_insertionSort _ _

theorem byParent_sorted (ct : List (CRow L S)) : (byParent ct).Pairwise fun a b => a.parent ≤ b.parent := by
  haveI : Std.Total (fun a b : CRow L S => a.parent ≤ b.parent) := ⟨fun a b => le_total _ _⟩
  haveI : IsTrans (CRow L S) (fun a b => a.parent ≤ b.parent) := ⟨fun a b c => le_trans⟩
  exact List.pairwise_insertionSort _ _

/-- What one step of the branch walk reads. -/
theorem branchNext_eq (ct : List (CRow L S)) (s : ℕ) :
    branchNext ((byParent ct).map CRow.parent) ((byParent ct).map CRow.child) s =
      ((((byParent ct).filter fun r => decide (r.parent = s)) ++
        ((byParent ct).filter fun r => decide (s < r.parent))).take 2).map CRow.child := by
  obtain ⟨h1, h2⟩ := sorted_split_le CRow.parent s (byParent ct) (byParent_sorted ct)
  set A := (byParent ct).filter fun r => decide (r.parent < s) with hA
  set B := ((byParent ct).filter fun r => decide (r.parent = s)) ++
        ((byParent ct).filter fun r => decide (s < r.parent)) with hB
  unfold branchNext searchLeft
  simp only
  rw [h1, List.length_map, List.length_map]
  have hget : ∀ i, ((byParent ct).map CRow.child)[A.length + i]? = (B.map CRow.child)[i]? := by
    intro i
    conv_lhs => rw [h2]
    rw [List.map_append, List.getElem?_append_right (by rw [List.length_map]; omega), List.length_map]
    congr 1; omega
  have h0 := hget 0
  rw [Nat.add_zero] at h0
  rw [h0, hget 1]
  have hlen : (byParent ct).length = A.length + B.length := by
    conv_lhs => rw [h2]
    rw [List.length_append]
  rw [hlen]
  match B with
  | [] => simp
  | [b] => simp
  | b :: c :: l => simp

theorem branchNext_sup (hb : ClBin ct) {s c : ℕ} (hs : CStep ct s c) :
    c ∈ branchNext ((byParent ct).map CRow.parent) ((byParent ct).map CRow.child) s := by
  rw [branchNext_eq]
  obtain ⟨row, hr, rfl, rfl⟩ := hs
  have hp := (byParent_perm ct).filter fun r => decide (r.parent = row.parent)
  have hmem : row ∈ (byParent ct).filter fun r => decide (r.parent = row.parent) :=
    hp.mem_iff.2 (List.mem_filter.2 ⟨hr, decide_eq_true rfl⟩)
  have hlen : ((byParent ct).filter fun r => decide (r.parent = row.parent)).length ≤ 2 := by
    rw [hp.length_eq]
    rcases hb row.parent with h | ⟨a, lv, s, t, h⟩ <;> simp [h]
  rw [List.take_append]
  refine List.mem_map_of_mem ?_
  rw [List.mem_append, List.take_of_length_le hlen]
  exact .inl hmem

theorem branchNext_sub (hb : ClBin ct) {s c : ℕ}
    (hc : c ∈ branchNext ((byParent ct).map CRow.parent) ((byParent ct).map CRow.child) s) :
    ∃ q, CStep ct q c ∧ s ≤ q ∧ (q = s ∨ ∀ d, ¬ CStep ct s d) := by
  rw [branchNext_eq] at hc
  obtain ⟨row, hr, rfl⟩ := List.mem_map.1 hc
  have hp := (byParent_perm ct).filter fun r => decide (r.parent = s)
  have hmem : row ∈ ct := by
    have := List.mem_of_mem_take hr
    rw [List.mem_append, List.mem_filter, List.mem_filter] at this
    rcases this with h | h <;> exact (byParent_perm ct).mem_iff.1 h.1
  rcases hb s with h | ⟨a, lv, u, t, h⟩
  · have hnil : ((byParent ct).filter fun r => decide (r.parent = s)) = [] := by
      rw [h] at hp; exact hp.eq_nil
    rw [hnil, List.nil_append] at hr
    have h1 := of_decide_eq_true (List.mem_filter.1 (List.mem_of_mem_take hr)).2
    refine ⟨row.parent, ⟨row, hmem, rfl, rfl⟩, by omega, .inr ?_⟩
    rintro d ⟨r, h2, h3, _⟩
    have : r ∈ ct.filter fun r => decide (r.parent = s) := List.mem_filter.2 ⟨h2, decide_eq_true h3⟩
    rw [h] at this
    cases this
  · have hlen : ((byParent ct).filter fun r => decide (r.parent = s)).length = 2 := by
      rw [hp.length_eq, h]; rfl
    rw [List.take_append_of_le_length (by omega)] at hr
    have h1 := of_decide_eq_true (List.mem_filter.1 (List.mem_of_mem_take hr)).2
    exact ⟨row.parent, ⟨row, hmem, rfl, rfl⟩, by omega, .inl h1⟩

/-- The branch walk reaches everything below its start. -/
theorem ClTree.segments_sup (h : ClTree n k ct) (hb : ClBin ct) (f : ℕ) (l : List ℕ) {a b : ℕ} (ha : a ∈ l)
    (hab : CDesc ct a b) (h1 : n ≤ a) (h2 : a < n + k) (hf : n + k - a < f) :
    b ∈ segmentsInBranch ((byParent ct).map CRow.parent) ((byParent ct).map CRow.child) f l := by
  induction f generalizing l a with
  | zero => omega
  | succ f ih =>
    match l, ha with
    | x :: xs, ha =>
      unfold segmentsInBranch
      rw [List.mem_append]
      rcases Relation.ReflTransGen.cases_head hab with h3 | ⟨c, h3, h4⟩
      · subst h3; exact .inl ha
      · right
        have := h.step h3
        exact ih _ (List.mem_flatMap.2 ⟨a, ha, branchNext_sup hb h3⟩) h4 (by omega) (by omega) (by omega)

/-- The branch walk stays below `P` if no split outside follows a leaf inside. -/
theorem segments_sub (hb : ClBin ct) {P : ℕ}
    (hord : ∀ l q, CDesc ct P l → (∀ d, ¬ CStep ct l d) → l < q → (∃ d, CStep ct q d) → CDesc ct P q) (f : ℕ)
    (l : List ℕ) (hl : ∀ a ∈ l, CDesc ct P a) {b : ℕ}
    (hbm : b ∈ segmentsInBranch ((byParent ct).map CRow.parent) ((byParent ct).map CRow.child) f l) :
    CDesc ct P b := by
  induction f generalizing l with
  | zero => cases hbm
  | succ f ih =>
    match l with
    | [] => cases hbm
    | x :: xs =>
      unfold segmentsInBranch at hbm
      rw [List.mem_append] at hbm
      rcases hbm with h1 | h1
      · exact hl b h1
      · refine ih _ ?_ h1
        intro a ha
        obtain ⟨s, hs, has⟩ := List.mem_flatMap.1 ha
        obtain ⟨q, hq, hle, hor⟩ := branchNext_sub hb has
        rcases hor with rfl | hleaf
        · exact (hl q hs).tail hq
        · rcases hle.eq_or_lt with h3 | h3
          · subst h3; exact absurd hq (hleaf a)
          · exact (hord s q (hl s hs) hleaf h3 ⟨a, hq⟩).tail hq

/-- The walk as called by the search. -/
def branchOf (ct : List (CRow L S)) (p : ℕ) : List ℕ :=
  segmentsInBranch ((byParent ct).map CRow.parent) ((byParent ct).map CRow.child) (ct.length + 2) [p]

/-- `p` was reached by climbing from the close cluster `s`. -/
def Climbed (n : ℕ) (close : L → Bool) (ct : List (CRow L S)) (s p : ℕ) : Prop :=
  (∃ x, CStep ct p x ∧ CDesc ct x s ∧ BornClose close ct x) ∧ (p = n ∨ ¬ BornClose close ct p)

/-- State of the search after the clusters `done`. -/
structure EpsInv (n : ℕ) (close : L → Bool) (ct : List (CRow L S)) (done : List ℕ) (st : List ℕ × List ℕ) : Prop where
  far : ∀ s ∈ done, ¬ BornClose close ct s → s ∈ st.1
  near : ∀ s ∈ done, BornClose close ct s → ∃ p ∈ st.1, (∃ s' ∈ done, Climbed n close ct s' p) ∧ s ∈ branchOf ct p
  out : ∀ o ∈ st.1, (o ∈ done ∧ ¬ BornClose close ct o) ∨ ∃ s ∈ done, Climbed n close ct s o
  proc : ∀ x, x ∈ st.2 ↔ ∃ p ∈ st.1, (∃ s ∈ done, Climbed n close ct s p) ∧ x ∈ branchOf ct p
  nodup : st.1.Nodup

theorem Climbed.desc {close : L → Bool} {s p : ℕ} (h : Climbed n close ct s p) : CDesc ct p s := by
  obtain ⟨⟨x, h1, h2, _⟩, _⟩ := h
  exact Relation.ReflTransGen.head h1 h2

theorem ClTree.climbed_lt (h : ClTree n k ct) {close : L → Bool} {s p : ℕ} (hc : Climbed n close ct s p) :
    n ≤ p ∧ p < s := by
  obtain ⟨⟨x, h1, h2, _⟩, _⟩ := hc
  have := h.step h1
  have := h.desc_le h2
  omega

theorem ClTree.epsInv_step (h : ClTree n k ct) (hb : ClBin ct) (close : L → Bool) (done : List ℕ)
    (st : List ℕ × List ℕ) (hi : EpsInv n close ct done st) {c : ℕ} (h1 : n < c) (h2 : c < n + k) (hcd : c ∉ done)
    (hnn : ∀ s ∈ done, (CDesc ct s c → s = c) ∧ (CDesc ct c s → s = c)) :
    ∃ st', epsStep close ct (byParent ct) n st c = some st' ∧ EpsInv n close ct (done ++ [c]) st' := by
  obtain ⟨row, hr, hget, rfl⟩ := h.searchLeft_child h1 h2
  have hborn : BornClose close ct row.child ↔ close row.lam = true := by
    constructor
    · rintro ⟨r, h3, h4, h5⟩
      rwa [List.inj_on_of_nodup_map h.nodup h3 hr h4] at h5
    · intro h3; exact ⟨row, hr, rfl, h3⟩
  have hnot : ∀ s ∈ done, ¬ Climbed n close ct s row.child := by
    intro s hs hc
    have := h.climbed_lt hc
    have := (hnn s hs).2 hc.desc
    omega
  have hlen := h.length
  unfold epsStep
  rw [hget]
  simp only
  by_cases hcl : close row.lam = true
  · rw [if_pos hcl]
    have hbc := hborn.2 hcl
    by_cases hp : row.child ∈ st.2
    · rw [if_pos hp]
      refine ⟨st, rfl, ?_, ?_, ?_, ?_, hi.nodup⟩
      · intro s hs hf
        rcases List.mem_append.1 hs with h3 | h3
        · exact hi.far s h3 hf
        · rw [List.mem_singleton] at h3; subst h3; exact absurd hbc hf
      · intro s hs hn
        have key : ∀ p s, (p ∈ st.1 ∧ (∃ s' ∈ done, Climbed n close ct s' p) ∧ s ∈ branchOf ct p) →
            ∃ p ∈ st.1, (∃ s' ∈ done ++ [row.child], Climbed n close ct s' p) ∧ s ∈ branchOf ct p := by
          rintro p s ⟨h3, ⟨s', h4, h5⟩, h6⟩
          exact ⟨p, h3, ⟨s', by simp [h4], h5⟩, h6⟩
        rcases List.mem_append.1 hs with h3 | h3
        · obtain ⟨p, h4⟩ := hi.near s h3 hn
          exact key p s h4
        · rw [List.mem_singleton] at h3; subst h3
          obtain ⟨p, h4⟩ := (hi.proc _).1 hp
          exact key p _ h4
      · intro o ho
        rcases hi.out o ho with h3 | ⟨s, h3, h4⟩
        · exact .inl ⟨by simp [h3.1], h3.2⟩
        · exact .inr ⟨s, by simp [h3], h4⟩
      · intro x
        rw [hi.proc]
        constructor
        · rintro ⟨p, h3, ⟨s', h4, h5⟩, h6⟩
          exact ⟨p, h3, ⟨s', by simp [h4], h5⟩, h6⟩
        · rintro ⟨p, h3, ⟨s', h4, h5⟩, h6⟩
          rcases hi.out p h3 with h7 | h7
          · -- `p` was selected as such; then it is not climbed from `c`
            rcases List.mem_append.1 h4 with h8 | h8
            · exact ⟨p, h3, ⟨s', h8, h5⟩, h6⟩
            · rw [List.mem_singleton] at h8; subst h8
              have := h.climbed_lt h5
              have := (hnn p h7.1).1 h5.desc
              omega
          · exact ⟨p, h3, h7, h6⟩
    · rw [if_neg hp]
      obtain ⟨p, x, h3, h4, h5, h6, h7⟩ := h.traverse close (ct.length + 1) h1 h2 (by omega) hbc
      rw [h3]
      have hcp : Climbed n close ct row.child p := ⟨⟨x, h4, h5, h6⟩, h7⟩
      have hpl := h.climbed_lt hcp
      have hcb : row.child ∈ branchOf ct p :=
        h.segments_sup hb _ _ (List.mem_singleton_self p) hcp.desc hpl.1 (by omega) (by omega)
      have hpn : p ∉ st.1 := by
        intro hpm
        rcases hi.out p hpm with h8 | h8
        · have := (hnn p h8.1).1 hcp.desc
          omega
        · exact hp ((hi.proc _).2 ⟨p, hpm, h8, hcb⟩)
      refine ⟨_, rfl, ?_, ?_, ?_, ?_, ?_⟩
      · intro s hs hf
        rcases List.mem_append.1 hs with h8 | h8
        · exact List.mem_append.2 (.inl (hi.far s h8 hf))
        · rw [List.mem_singleton] at h8; subst h8; exact absurd hbc hf
      · intro s hs hn
        rcases List.mem_append.1 hs with h8 | h8
        · obtain ⟨q, h9, ⟨s', ha, hb'⟩, hc⟩ := hi.near s h8 hn
          exact ⟨q, by simp [h9], ⟨s', by simp [ha], hb'⟩, hc⟩
        · rw [List.mem_singleton] at h8; subst h8
          exact ⟨p, by simp, ⟨_, by simp, hcp⟩, hcb⟩
      · intro o ho
        rcases List.mem_append.1 ho with h8 | h8
        · rcases hi.out o h8 with h9 | ⟨s, h9, ha⟩
          · exact .inl ⟨by simp [h9.1], h9.2⟩
          · exact .inr ⟨s, by simp [h9], ha⟩
        · rw [List.mem_singleton] at h8; subst h8
          exact .inr ⟨_, by simp, hcp⟩
      · intro y
        constructor
        · intro hy
          rcases List.mem_append.1 hy with h8 | h8
          · obtain ⟨q, h9, ⟨s', ha, hb'⟩, hc⟩ := (hi.proc y).1 h8
            exact ⟨q, by simp [h9], ⟨s', by simp [ha], hb'⟩, hc⟩
          · exact ⟨p, by simp, ⟨_, by simp, hcp⟩, h8⟩
        · rintro ⟨q, h8, ⟨s', h9, ha⟩, hb'⟩
          rcases List.mem_append.1 h8 with h8 | h8
          · refine List.mem_append.2 (.inl ((hi.proc y).2 ⟨q, h8, ?_, hb'⟩))
            rcases hi.out q h8 with hc | hc
            · rcases List.mem_append.1 h9 with hd' | hd'
              · exact ⟨s', hd', ha⟩
              · rw [List.mem_singleton] at hd'; subst hd'
                have := h.climbed_lt ha
                have := (hnn q hc.1).1 ha.desc
                omega
            · exact hc
          · rw [List.mem_singleton] at h8; subst h8
            exact List.mem_append.2 (.inr hb')
      · exact List.nodup_append.2 ⟨hi.nodup, List.nodup_singleton _, fun a ha b hb' hab => by
          rw [List.mem_singleton] at hb'; subst hb' hab; exact hpn ha⟩
  · rw [if_neg hcl]
    have hbc : ¬ BornClose close ct row.child := fun h3 => hcl (hborn.1 h3)
    have hcn : row.child ∉ st.1 := by
      intro hm
      rcases hi.out _ hm with h3 | ⟨s, h3, h4⟩
      · exact hcd h3.1
      · exact hnot s h3 h4
    refine ⟨_, rfl, ?_, ?_, ?_, ?_, ?_⟩
    · intro s hs hf
      rcases List.mem_append.1 hs with h8 | h8
      · exact List.mem_append.2 (.inl (hi.far s h8 hf))
      · exact List.mem_append.2 (.inr h8)
    · intro s hs hn
      rcases List.mem_append.1 hs with h8 | h8
      · obtain ⟨q, h9, ⟨s', ha, hb'⟩, hc⟩ := hi.near s h8 hn
        exact ⟨q, by simp [h9], ⟨s', by simp [ha], hb'⟩, hc⟩
      · rw [List.mem_singleton] at h8; subst h8; exact absurd hn hbc
    · intro o ho
      rcases List.mem_append.1 ho with h8 | h8
      · rcases hi.out o h8 with h9 | ⟨s, h9, ha⟩
        · exact .inl ⟨by simp [h9.1], h9.2⟩
        · exact .inr ⟨s, by simp [h9], ha⟩
      · rw [List.mem_singleton] at h8; subst h8
        exact .inl ⟨by simp, hbc⟩
    · intro y
      rw [hi.proc]
      constructor
      · rintro ⟨q, h9, ⟨s', ha, hb'⟩, hc⟩
        exact ⟨q, by simp [h9], ⟨s', by simp [ha], hb'⟩, hc⟩
      · rintro ⟨q, h9, ⟨s', ha, hb'⟩, hc⟩
        rcases List.mem_append.1 h9 with h9 | h9
        · refine ⟨q, h9, ?_, hc⟩
          rcases hi.out q h9 with h8 | h8
          · rcases List.mem_append.1 ha with hd' | hd'
            · exact ⟨s', hd', hb'⟩
            · rw [List.mem_singleton] at hd'; subst hd'
              have := h.climbed_lt hb'
              have := (hnn q h8.1).1 hb'.desc
              omega
          · exact h8
        · rw [List.mem_singleton] at h9; subst h9
          exfalso
          rcases List.mem_append.1 ha with hd' | hd'
          · exact hnot s' hd' hb'
          · rw [List.mem_singleton] at hd'; subst hd'
            have := h.climbed_lt hb'
            omega
    · exact List.nodup_append.2 ⟨hi.nodup, List.nodup_singleton _, fun a ha b hb' hab => by
        rw [List.mem_singleton] at hb'; subst hb' hab; exact hcn ha⟩

theorem ClTree.epsInv (h : ClTree n k ct) (hb : ClBin ct) (close : L → Bool) (sel : List ℕ)
    (hr : ∀ s ∈ sel, n < s ∧ s < n + k) (hnd : sel.Nodup) (hnn : NonNested ct sel) :
    ∃ st, sel.foldlM (epsStep close ct (byParent ct) n) ([], []) = some st ∧ EpsInv n close ct sel st := by
  have key : ∀ (rest done : List ℕ) (st : List ℕ × List ℕ), done ++ rest = sel → EpsInv n close ct done st →
      ∃ st', rest.foldlM (epsStep close ct (byParent ct) n) st = some st' ∧ EpsInv n close ct sel st' := by
    intro rest
    induction rest with
    | nil => intro done st he hi; rw [List.append_nil] at he; subst he; exact ⟨st, rfl, hi⟩
    | cons c rest ih =>
      intro done st he hi
      have hcs : c ∈ sel := by rw [← he]; simp
      have hds : ∀ s ∈ done, s ∈ sel := fun s hs => by rw [← he]; simp [hs]
      have hcd : c ∉ done := by
        intro hc
        rw [← he, List.nodup_append] at hnd
        exact hnd.2.2 c hc c (by simp) rfl
      obtain ⟨st', h1, h2⟩ := h.epsInv_step hb close done st hi (hr c hcs).1 (hr c hcs).2 hcd
        (fun s hs => ⟨fun hd => hnn s (hds s hs) c hcs hd, fun hd => (hnn c hcs s (hds s hs) hd).symm⟩)
      obtain ⟨st'', h3, h4⟩ := ih (done ++ [c]) st' (by simp [he]) h2
      exact ⟨st'', by rw [List.foldlM_cons, h1]; exact h3, h4⟩
  exact key sel [] _ rfl ⟨by simp, by simp, by simp, by simp, by simp⟩

end Verif
