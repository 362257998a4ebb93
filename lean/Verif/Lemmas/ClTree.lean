import Verif.Model.Select
import Mathlib.Data.List.Nodup
import Mathlib.Data.List.Range

/-!
# Lemmas: the cluster tree (rows of clusters only) of a condensed tree
-/

namespace Verif
variable {L S V : Type*}

/-- What the cluster rows of a condensed tree satisfy. -/
structure ClTree (n k : ℕ) (ct : List (CRow L S)) : Prop where
  pos : 0 < k
  child : ct.map CRow.child = List.range' (n + 1) (k - 1)
  par : ∀ row ∈ ct, n ≤ row.parent ∧ row.parent < row.child

theorem CondTree.clTree [One S] [LT S] [DecidableLT S] {n k : ℕ} {rows : List (CRow L S)} (h : CondTree n k rows)
    (hk : ∀ row ∈ rows, 1 < row.size ↔ n ≤ row.child) : ClTree n k (clusterTree rows) where
  pos := h.pos
  child := by
    rw [← h.asc, List.filter_map, clusterTree]
    congr 1
    apply List.filter_congr
    intro row hrow
    simp only [Function.comp]
    exact decide_eq_decide.2 (hk row hrow)
  par := fun row hrow => by
    obtain ⟨h1, h2⟩ := List.mem_filter.1 hrow
    exact ⟨(h.parents row h1).1, h.down row h1 ((hk row h1).1 (of_decide_eq_true h2))⟩

/-- Decidable conditions for a concrete table to be a condensed tree. -/
theorem CondTree.of_check {n k : ℕ} {rows : List (CRow L S)} (hpos : 0 < k) (hnd : (rows.map CRow.child).Nodup)
    (hasc : (rows.map CRow.child).filter (fun c => decide (n ≤ c)) = List.range' (n + 1) (k - 1))
    (hall : ∀ c < n, c ∈ rows.map CRow.child) (hpar : ∀ row ∈ rows, n ≤ row.parent ∧ row.parent < n + k)
    (hdown : ∀ row ∈ rows, n ≤ row.child → row.parent < row.child)
    (hord : ∀ (i : ℕ) (hi : i < rows.length), rows[i].parent = n ∨ rows[i].parent ∈ (rows.take i).map CRow.child) :
    CondTree n k rows where
  pos := hpos
  nodup := hnd
  asc := hasc
  children := fun c => by
    by_cases hc : c < n
    · simp only [hall c hc, hc, true_or]
    · have h1 : c ∈ rows.map CRow.child ↔ c ∈ (rows.map CRow.child).filter (fun c => decide (n ≤ c)) := by
        rw [List.mem_filter]
        exact ⟨fun h => ⟨h, decide_eq_true (by omega)⟩, fun h => h.1⟩
      rw [h1, hasc, List.mem_range'_1]
      omega
  parents := hpar
  down := hdown
  order := fun i row hi => by
    obtain ⟨h1, rfl⟩ := List.getElem?_eq_some_iff.1 hi
    rcases hord i h1 with h2 | h2
    · exact .inl h2
    · right
      obtain ⟨r, h3, h4⟩ := List.mem_map.1 h2
      obtain ⟨j, hj, rfl⟩ := List.getElem_of_mem h3
      rw [List.length_take] at hj
      refine ⟨j, rows[j], by omega, List.getElem?_eq_getElem _, ?_⟩
      rw [List.getElem_take] at h4
      exact h4

theorem mem_kidsOf {ct : List (CRow L S)} {a b : ℕ} : b ∈ kidsOf ct a ↔ CStep ct a b := by
  simp only [kidsOf, List.mem_map, List.mem_filter, decide_eq_true_eq, CStep]
  constructor
  · rintro ⟨row, ⟨h1, h2⟩, h3⟩; exact ⟨row, h1, h2, h3⟩
  · rintro ⟨row, h1, h2, h3⟩; exact ⟨row, ⟨h1, h2⟩, h3⟩

variable {n k : ℕ} {ct : List (CRow L S)}

theorem ClTree.length (h : ClTree n k ct) : ct.length + 1 = k := by
  have := congrArg List.length h.child
  have := h.pos
  simp at *; omega

theorem ClTree.nodup (h : ClTree n k ct) : (ct.map CRow.child).Nodup := by
  rw [h.child]; exact List.nodup_range'

theorem ClTree.mem (h : ClTree n k ct) {c : ℕ} : c ∈ ct.map CRow.child ↔ n < c ∧ c < n + k := by
  rw [h.child, List.mem_range'_1]
  have := h.pos
  omega

theorem ClTree.step (h : ClTree n k ct) {a b : ℕ} (hs : CStep ct a b) : n ≤ a ∧ a < b ∧ b < n + k := by
  obtain ⟨row, h1, rfl, rfl⟩ := hs
  have := h.par row h1
  exact ⟨this.1, this.2, (h.mem.1 (List.mem_map_of_mem h1)).2⟩

theorem ClTree.step_unique (h : ClTree n k ct) {a b c : ℕ} (ha : CStep ct a c) (hb : CStep ct b c) : a = b := by
  obtain ⟨row, h1, rfl, h2⟩ := ha
  obtain ⟨row', h1', rfl, h2'⟩ := hb
  rw [List.inj_on_of_nodup_map h.nodup h1 h1' (h2.trans h2'.symm)]

theorem ClTree.desc_le (h : ClTree n k ct) {a b : ℕ} (hs : CDesc ct a b) : a ≤ b := by
  induction hs with
  | refl => exact le_rfl
  | tail _ h2 ih => have := h.step h2; omega

theorem ClTree.desc_range (h : ClTree n k ct) {a b : ℕ} (hs : CDesc ct a b) (ha : n ≤ a) (hk : a < n + k) :
    n ≤ b ∧ b < n + k := by
  cases hs with
  | refl => exact ⟨ha, hk⟩
  | tail h1 h2 => have := h.step h2; omega

theorem ClTree.desc_antisymm (h : ClTree n k ct) {a b : ℕ} (hs : CDesc ct a b) (hs' : CDesc ct b a) : a = b :=
  le_antisymm (h.desc_le hs) (h.desc_le hs')

theorem ClTree.comparable (h : ClTree n k ct) {a b x : ℕ} (ha : CDesc ct a x) (hb : CDesc ct b x) :
    CDesc ct a b ∨ CDesc ct b a := by
  induction ha generalizing b with
  | refl => exact .inr hb
  | tail h1 h2 ih =>
    rcases Relation.ReflTransGen.cases_tail hb with h3 | ⟨c, h3, h4⟩
    · subst h3; exact .inl (h1.tail h2)
    · rw [← h.step_unique h2 h4] at h3; exact ih h3

theorem ClTree.desc_root (h : ClTree n k ct) {c : ℕ} (h1 : n ≤ c) (h2 : c < n + k) : CDesc ct n c := by
  induction c using Nat.strong_induction_on with
  | _ c ih =>
    rcases h1.eq_or_lt with h3 | h3
    · subst h3; exact .refl
    · obtain ⟨row, h4, h5⟩ := List.mem_map.1 (h.mem.2 ⟨h3, h2⟩)
      have := h.par row h4
      exact (ih row.parent (by omega) this.1 (by omega)).tail ⟨row, h4, rfl, h5⟩

theorem desc_cases {a x : ℕ} (hs : CDesc ct a x) : x = a ∨ ∃ c ∈ kidsOf ct a, CDesc ct c x := by
  rcases Relation.ReflTransGen.cases_head hs with h | ⟨c, h1, h2⟩
  · exact .inl h.symm
  · exact .inr ⟨c, mem_kidsOf.2 h1, h2⟩

theorem desc_of_kid {a c x : ℕ} (hc : c ∈ kidsOf ct a) (hs : CDesc ct c x) : CDesc ct a x :=
  Relation.ReflTransGen.head (mem_kidsOf.1 hc) hs

theorem ClTree.kid_lt (h : ClTree n k ct) {a c : ℕ} (hc : c ∈ kidsOf ct a) : n ≤ a ∧ a < c ∧ c < n + k :=
  h.step (mem_kidsOf.1 hc)

theorem ClTree.kids_nodup (h : ClTree n k ct) (a : ℕ) : (kidsOf ct a).Nodup := by
  unfold kidsOf
  exact h.nodup.sublist (List.filter_sublist.map _)

/-- Subtrees of different children of a cluster are disjoint. -/
theorem ClTree.kids_disjoint (h : ClTree n k ct) {a c d x : ℕ} (hc : c ∈ kidsOf ct a) (hd : d ∈ kidsOf ct a)
    (hcx : CDesc ct c x) (hdx : CDesc ct d x) : c = d := by
  wlog hcd : CDesc ct c d generalizing c d with H
  · exact (H hd hc hdx hcx ((h.comparable hcx hdx).resolve_left hcd)).symm
  · rcases Relation.ReflTransGen.cases_tail hcd with h1 | ⟨e, h1, h2⟩
    · exact h1.symm
    · have := h.step_unique h2 (mem_kidsOf.1 hd)
      subst this
      have := h.desc_le h1
      have := h.kid_lt hc
      omega

/-- Descendants of a cluster within the cluster tree are those within the condensed tree that are clusters. -/
theorem CondTree.desc_clusterTree [One S] [LT S] [DecidableLT S] {rows : List (CRow L S)} (h : CondTree n k rows)
    (hk : ∀ row ∈ rows, 1 < row.size ↔ n ≤ row.child) {a b : ℕ} (hb : n ≤ b) :
    CDesc (clusterTree rows) a b ↔ CDesc rows a b := by
  constructor
  · intro hs
    clear hb
    induction hs with
    | refl => exact .refl
    | tail _ h2 ih =>
      obtain ⟨row, h1, h2⟩ := h2
      exact ih.tail ⟨row, (List.mem_filter.1 h1).1, h2⟩
  · intro hs
    induction hs with
    | refl => exact .refl
    | tail h1 h2 ih =>
      obtain ⟨row, h3, rfl, rfl⟩ := h2
      exact (ih (h.parents row h3).1).tail
        ⟨row, List.mem_filter.2 ⟨h3, decide_eq_true ((hk row h3).2 hb)⟩, rfl, rfl⟩

end Verif
