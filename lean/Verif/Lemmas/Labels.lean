import Verif.Model.Labels
import Verif.Lemmas.EomSel
import Verif.Lemmas.Cut

/-!
# Lemmas: label assignment
-/

namespace Verif
variable {L S K : Type*} {n k : ℕ}

theorem mapM_of_some {α β : Type*} {l : List α} {f : α → Option β} {g : α → β} (h : ∀ x ∈ l, f x = some (g x)) :
    l.mapM f = some (l.map g) := by
  induction l with
  | nil => rfl
  | cons a l ih =>
    rw [List.mapM_cons, h a (by simp), ih fun x hx => h x (by simp [hx])]
    rfl

theorem mapM_congr' {α β : Type*} {l : List α} {f g : α → Option β} (h : ∀ x ∈ l, f x = g x) :
    l.mapM f = l.mapM g := by
  induction l with
  | nil => rfl
  | cons a l ih => rw [List.mapM_cons, List.mapM_cons, h a (by simp), ih fun x hx => h x (by simp [hx])]

theorem mapM_of_none {α β : Type*} {l : List α} {f : α → Option β} {x : α} (hx : x ∈ l) (h : f x = none) :
    l.mapM f = none := by
  induction l with
  | nil => simp at hx
  | cons a l ih =>
    rw [List.mapM_cons]
    rcases List.mem_cons.1 hx with h1 | h1
    · subst h1; rw [h]; rfl
    · rw [ih h1]; cases f a <;> rfl

theorem le_foldl_max (l : List ℕ) (a x : ℕ) (h : x ≤ a ∨ x ∈ l) : x ≤ l.foldl max a := by
  induction l generalizing a with
  | nil => simpa using h
  | cons b l ih =>
    rw [List.foldl_cons]
    apply ih
    rcases h with h | h
    · left; omega
    · rcases List.mem_cons.1 h with h | h
      · left; omega
      · exact .inr h

theorem labelN_bound {rows : List (CRow L S)} {row : CRow L S} (h : row ∈ rows) :
    row.parent < labelN rows ∧ row.child < labelN rows := by
  have h1 := le_foldl_max (rows.map CRow.parent) 0 row.parent (.inr (List.mem_map_of_mem h))
  have h2 := le_foldl_max (rows.map CRow.child) 0 row.child (.inr (List.mem_map_of_mem h))
  unfold labelN
  omega

/-- The row makes a union in `get_cluster_label_vector`. -/
def United [Zero L] (sel : List ℕ) (ns : ℕ) (row : CRow L S) : Prop :=
  row.child ∉ sel ∧ ¬ (row.child < ns ∧ row.lam = 0)

/-- State of the disjoint set after the rows `l`. -/
structure LabInv [Zero L] (N n : ℕ) (sel : List ℕ) (l : List (CRow L S)) (d : RankDS) : Prop where
  forest : PForest N d.parent
  alone : ∀ v, (∀ row ∈ l, row.child = v → ¬ United sel n row) → root N d.parent v = v
  same : ∀ row ∈ l, United sel n row → root N d.parent row.child = root N d.parent row.parent
  roots : ∀ v, root N d.parent v ≠ v → root N d.parent v = n ∨ root N d.parent v ∈ l.map CRow.child
  rank : ∀ v, d.rank v ≠ 0 → v = n ∨ v ∈ l.map CRow.child

theorem LabInv.root_mem [Zero L] {N : ℕ} {sel : List ℕ} {l : List (CRow L S)} {d : RankDS} (h : LabInv N n sel l d) {v : ℕ}
    (hv : v = n ∨ v ∈ l.map CRow.child) : root N d.parent v = n ∨ root N d.parent v ∈ l.map CRow.child := by
  by_cases hr : root N d.parent v = v
  · rw [hr]; exact hv
  · exact h.roots v hr

theorem LabInv.step [Zero L] {N : ℕ} {sel : List ℕ} {l : List (CRow L S)} {d : RankDS} (h : LabInv N n sel l d)
    {row : CRow L S} (hp : row.parent = n ∨ row.parent ∈ l.map CRow.child) (hc : row.child ∉ l.map CRow.child)
    (hcn : row.child ≠ n) (hnp : ∀ r ∈ l, r.parent ≠ row.child) (hpN : row.parent < N) (hcN : row.child < N)
    (hne : row.parent ≠ row.child) (hu : United sel n row) :
    LabInv N n sel (l ++ [row]) (dsUnionByRank N d row.parent row.child) := by
  have hf := h.forest
  have hcr : root N d.parent row.child = row.child := h.alone _ fun r hr he => absurd (he ▸ List.mem_map_of_mem hr) hc
  have ha := h.root_mem hp
  set a := root N d.parent row.parent with hadef
  have hac : a ≠ row.child := by
    rintro hac
    rw [hac] at ha
    exact ha.elim hcn hc
  have hr0 : d.rank row.child = 0 := by
    by_contra h0
    exact (h.rank _ h0).elim hcn hc
  have hfa : d.parent a = a := hf.root_fixed _
  have hfc : d.parent row.child = row.child := by
    have := hf.root_fixed row.child; rwa [hcr] at this
  have haN : a < N := hf.root_lt hpN
  have hunf : dsUnionByRank N d row.parent row.child =
      { parent := Function.update d.parent row.child a
        rank := if d.rank a = d.rank row.child then Function.update d.rank a (d.rank a + 1) else d.rank } := by
    unfold dsUnionByRank
    simp only [dsFind_eq]
    rw [hcr, ← hadef, if_neg hac]
    simp only [hr0, Nat.not_lt_zero, if_false]
  rw [hunf]
  have hroot := hf.root_link hfa hfc hac haN hcN
  constructor
  · exact hf.link hfa hfc hac haN hcN
  · intro v hv
    simp only [hroot]
    have hvc : v ≠ row.child := fun he => hv row (by simp) he.symm hu
    have hrv := h.alone v fun r hr he => hv r (by simp [hr]) he
    rw [hrv, if_neg hvc]
  · intro r hr hur
    simp only [hroot]
    rcases List.mem_append.1 hr with h1 | h1
    · rw [h.same r h1 hur]
    · rw [List.mem_singleton] at h1
      subst h1
      rw [hcr, if_pos rfl, ← hadef, if_neg hac]
  · intro v hv
    simp only [hroot] at hv ⊢
    rw [List.map_append, List.mem_append]
    split at hv
    · rename_i h1
      rw [if_pos h1]
      exact ha.imp id .inl
    · rename_i h1
      rw [if_neg h1]
      exact (h.roots v hv).imp id .inl
  · intro v hv
    rw [List.map_append, List.mem_append]
    simp only at hv
    split at hv
    · by_cases hva : v = a
      · rw [hva]; exact ha.imp id .inl
      · rw [Function.update_of_ne hva] at hv
        exact (h.rank v hv).imp id .inl
    · exact (h.rank v hv).imp id .inl

theorem LabInv.skip [Zero L] {N : ℕ} {sel : List ℕ} {l : List (CRow L S)} {d : RankDS} (h : LabInv N n sel l d)
    {row : CRow L S} (hu : ¬ United sel n row) : LabInv N n sel (l ++ [row]) d where
  forest := h.forest
  alone := fun v hv => h.alone v fun r hr he => hv r (by simp [hr]) he
  same := fun r hr hur => by
    rcases List.mem_append.1 hr with h1 | h1
    · exact h.same r h1 hur
    · rw [List.mem_singleton] at h1
      subst h1
      exact absurd hur hu
  roots := fun v hv => by
    rw [List.map_append, List.mem_append]
    exact (h.roots v hv).imp id .inl
  rank := fun v hv => by
    rw [List.map_append, List.mem_append]
    exact (h.rank v hv).imp id .inl

theorem CondTree.labInv [Zero L] [DecidableEq L] {rows : List (CRow L S)} (h : CondTree n k rows) (sel : List ℕ) :
    LabInv (labelN rows) n sel rows (labelDS rows sel n) := by
  have hmain : ∀ l, l <+: rows → LabInv (labelN rows) n sel l (l.foldl (fun d row =>
      if row.child ∉ sel then
        if row.child < n ∧ row.lam = 0 then d else dsUnionByRank (labelN rows) d row.parent row.child
      else d) dsRankCreate) := by
    intro l
    induction l using List.reverseRecOn with
    | nil =>
      intro _
      exact ⟨PForest.id _, fun v _ => (PForest.id _).root_of_fixed rfl, fun r hr => absurd hr (by simp),
        fun v hv => absurd ((PForest.id _).root_of_fixed rfl) hv, fun v hv => absurd rfl hv⟩
    | append_singleton l row ih =>
      intro hpre
      have hi := ih ((List.prefix_append l [row]).trans hpre)
      have hget : rows[l.length]? = some row := by
        obtain ⟨t, ht⟩ := hpre
        rw [← ht]; simp
      have hrow := List.mem_of_getElem? hget
      have hlsub : ∀ j, j < l.length → rows[j]? = l[j]? := by
        intro j hj
        obtain ⟨t, ht⟩ := hpre
        rw [← ht, List.append_assoc, List.getElem?_append_left hj]
      rw [List.foldl_append, List.foldl_cons, List.foldl_nil]
      by_cases hu : United sel n row
      · rw [if_pos hu.1, if_neg hu.2]
        have hnd : row.child ∉ l.map CRow.child := by
          have hsub := h.nodup.sublist (hpre.sublist.map CRow.child)
          rw [List.map_append, List.nodup_append] at hsub
          intro hmem
          exact hsub.2.2 _ hmem row.child (by simp) rfl
        have hord : ∀ i r, rows[i]? = some r → i ≤ l.length → r.parent = n ∨ r.parent ∈ l.map CRow.child := by
          intro i r hi' hil
          rcases h.order i r hi' with h4 | ⟨j, row', hj, h5, h6⟩
          · exact .inl h4
          · rw [hlsub j (by omega)] at h5
            exact .inr (h6 ▸ List.mem_map_of_mem (List.mem_of_getElem? h5))
        have hcn : row.child ≠ n := by
          have := (h.children row.child).1 (List.mem_map_of_mem hrow); omega
        refine hi.step (hord _ row hget le_rfl) hnd hcn ?_ (labelN_bound hrow).1 (labelN_bound hrow).2 ?_ hu
        · intro r hr hrc
          obtain ⟨i, hi'⟩ := List.mem_iff_getElem?.1 hr
          have hil : i < l.length := (List.getElem?_eq_some_iff.1 hi').1
          have := hord i r (by rw [hlsub i hil]; exact hi') hil.le
          rw [hrc] at this
          exact this.elim hcn hnd
        · have h1 := h.parents row hrow
          have h2 := h.down row hrow
          intro he
          have := h2 (by omega)
          omega
      · have : (if row.child ∉ sel then
            if row.child < n ∧ row.lam = 0 then
              (l.foldl (fun d row => if row.child ∉ sel then
                if row.child < n ∧ row.lam = 0 then d else dsUnionByRank (labelN rows) d row.parent row.child
                else d) dsRankCreate)
            else dsUnionByRank (labelN rows) (l.foldl (fun d row => if row.child ∉ sel then
                if row.child < n ∧ row.lam = 0 then d else dsUnionByRank (labelN rows) d row.parent row.child
                else d) dsRankCreate) row.parent row.child
            else (l.foldl (fun d row => if row.child ∉ sel then
                if row.child < n ∧ row.lam = 0 then d else dsUnionByRank (labelN rows) d row.parent row.child
                else d) dsRankCreate)) = (l.foldl (fun d row => if row.child ∉ sel then
                if row.child < n ∧ row.lam = 0 then d else dsUnionByRank (labelN rows) d row.parent row.child
                else d) dsRankCreate) := by
          unfold United at hu
          by_cases h1 : row.child ∉ sel
          · rw [if_pos h1, if_pos (by by_contra h2; exact hu ⟨h1, h2⟩)]
          · rw [if_neg h1]
        rw [this]
        exact hi.skip hu
  exact hmain rows (List.prefix_refl _)

/-- Representative of `v`. -/
def labRep [Zero L] [DecidableEq L] (rows : List (CRow L S)) (sel : List ℕ) (n v : ℕ) : ℕ :=
  root (labelN rows) (labelDS rows sel n).parent v

section
variable [Zero L] [DecidableEq L] {rows : List (CRow L S)} {sel : List ℕ}

theorem CondTree.rep_sel (h : CondTree n k rows) {c : ℕ} (hc : c = n ∨ c ∈ sel) : labRep rows sel n c = c := by
  apply (h.labInv sel).alone
  intro row hrow hrc hu
  rcases hc with rfl | hc
  · have := (h.children row.child).1 (List.mem_map_of_mem hrow); omega
  · exact hu.1 (hrc ▸ hc)

theorem CondTree.rep_zero (h : CondTree n k rows) {row : CRow L S} (hrow : row ∈ rows) (hc : row.child < n)
    (hl : row.lam = 0) : labRep rows sel n row.child = row.child := by
  apply (h.labInv sel).alone
  intro r hr hrc hu
  have := List.inj_on_of_nodup_map h.nodup hr hrow hrc
  subst this
  exact hu.2 ⟨hc, hl⟩

/-- The representative of a cluster is its nearest selected ancestor, or the top cluster. -/
theorem CondTree.rep_cluster (h : CondTree n k rows) {c : ℕ} (h1 : n ≤ c) (h2 : c < n + k) :
    CDesc rows (labRep rows sel n c) c ∧ (labRep rows sel n c = n ∨ labRep rows sel n c ∈ sel) ∧
      ∀ s ∈ sel, CDesc rows s c → CDesc rows s (labRep rows sel n c) := by
  induction c using Nat.strong_induction_on with
  | _ c ih =>
    by_cases hc : c = n ∨ c ∈ sel
    · rw [h.rep_sel hc]
      exact ⟨.refl, hc, fun s _ hs => hs⟩
    · push Not at hc
      obtain ⟨row, hrow, rfl⟩ := List.mem_map.1 ((h.children c).2 (.inr ⟨by omega, h2⟩))
      have hp := h.parents row hrow
      have hd := h.down row hrow h1
      have hrep : labRep rows sel n row.child = labRep rows sel n row.parent :=
        (h.labInv sel).same row hrow ⟨hc.2, fun h3 => by omega⟩
      obtain ⟨h3, h4, h5⟩ := ih row.parent hd hp.1 hp.2
      rw [hrep]
      refine ⟨h3.tail ⟨row, hrow, rfl, rfl⟩, h4, fun s hs hsc => h5 s hs ?_⟩
      rcases Relation.ReflTransGen.cases_tail hsc with h6 | ⟨e, h6, row', h7, h8, h9⟩
      · exact absurd (h6 ▸ hs) hc.2
      · have := List.inj_on_of_nodup_map h.nodup h7 hrow h9
        subst this
        rw [h8]; exact h6

/-- The representative of a sample that leaves at a positive lambda. -/
theorem CondTree.rep_sample (h : CondTree n k rows) (hsel : ∀ c ∈ sel, n ≤ c) {row : CRow L S} (hrow : row ∈ rows)
    (hc : row.child < n) (hl : row.lam ≠ 0) :
    CDesc rows (labRep rows sel n row.child) row.child ∧ n ≤ labRep rows sel n row.child ∧
      (labRep rows sel n row.child = n ∨ labRep rows sel n row.child ∈ sel) ∧
      ∀ s ∈ sel, CDesc rows s row.child → CDesc rows s (labRep rows sel n row.child) := by
  have hrep : labRep rows sel n row.child = labRep rows sel n row.parent :=
    (h.labInv sel).same row hrow ⟨fun h1 => by have := hsel _ h1; omega, fun h3 => hl h3.2⟩
  have hp := h.parents row hrow
  obtain ⟨h3, h4, h5⟩ := h.rep_cluster (sel := sel) hp.1 hp.2
  rw [hrep]
  refine ⟨h3.tail ⟨row, hrow, rfl, rfl⟩, h4.elim (fun h => h.ge) (hsel _), h4, fun s hs hsc => h5 s hs ?_⟩
  rcases Relation.ReflTransGen.cases_tail hsc with h6 | ⟨e, h6, row', h7, h8, h9⟩
  · have := hsel s hs; omega
  · have := List.inj_on_of_nodup_map h.nodup h7 hrow h9
    subst this
    rw [h8]; exact h6

end

theorem CondTree.min_parent {rows : List (CRow L S)} (h : CondTree n k rows) (hne : rows ≠ []) :
    (rows.map CRow.parent).foldl min ((rows.map CRow.parent).headD 0) = n := by
  obtain ⟨row, rest, hrows⟩ := List.exists_cons_of_ne_nil hne
  have hfirst : row.parent = n := by
    rcases h.order 0 row (by rw [hrows]; rfl) with h1 | ⟨j, _, hj, _⟩
    · exact h1
    · omega
  apply foldl_min_eq
  · rw [hrows]; simp [hfirst]
  · intro x hx
    obtain ⟨r, h1, rfl⟩ := List.mem_map.1 hx
    exact (h.parents r h1).1
  · right; rw [hrows]; simp [hfirst]

theorem labelMap_of_getElem {sel : List ℕ} (hnd : sel.Nodup) {i c : ℕ} (h : (sortIds sel)[i]? = some c) :
    labelMap sel c = some (i : ℤ) := by
  have hperm : (sortIds sel).Perm sel := List.perm_insertionSort _ sel
  have hnd' : (sortIds sel).reverse.Nodup := List.nodup_reverse.2 (hperm.nodup_iff.2 hnd)
  have hmem : c ∈ sel := hperm.mem_iff.1 (List.mem_of_getElem? h)
  obtain ⟨hi, rfl⟩ := List.getElem?_eq_some_iff.1 h
  rw [labelMap, if_pos hmem]
  congr 2
  have hj : (sortIds sel).length - 1 - i < (sortIds sel).reverse.length := by
    rw [List.length_reverse]; omega
  have : (sortIds sel)[i] = (sortIds sel).reverse[(sortIds sel).length - 1 - i] := by
    rw [List.getElem_reverse]
    congr 1; omega
  rw [this, List.Nodup.idxOf_getElem hnd']
  omega

/-- `get_cluster_label_vector` on a condensed tree, one entry per sample. -/
theorem CondTree.labelVector_eq [LinearOrder L] [Zero L] {rows : List (CRow L S)} (h : CondTree n k rows)
    (hne : rows ≠ []) {sel : List ℕ} (hs : sel ≠ []) (epsLam : Option L) :
    labelVector rows sel epsLam n =
      (List.range n).mapM fun x => labelOne rows sel epsLam n (labRep rows sel n x) x := by
  unfold labelVector
  rw [if_neg (by simp [hne, hs])]
  simp only [h.min_parent hne, cutRoots_eq]
  have : ∀ x ∈ List.range n, (match ((List.range n).map (root (labelN rows) (labelDS rows sel n).parent))[x]? with
      | none => some (-1)
      | some rep => labelOne rows sel epsLam n rep x) = labelOne rows sel epsLam n (labRep rows sel n x) x := by
    intro x hx
    have hx := List.mem_range.1 hx
    rw [List.getElem?_map, List.getElem?_range hx]
    rfl
  exact mapM_congr' this

end Verif
