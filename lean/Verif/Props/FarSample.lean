import Verif.Lemmas.AddSel
import Verif.Props.Rename
import Verif.Props.ClusterConnected
import Verif.Props.GroupsCases
import Verif.Props.Scale

/-!
# Property C110: a far sample changes no cluster
-/

namespace Verif

section
variable {L S : Type*} {n k : ℕ} {T : List (CRow L S)} {sel : List ℕ}

/-- The condensed tree with one more sample, `n`, leaving the top cluster first, at `l`. -/
def addRow [One S] (n : ℕ) (l : L) (T : List (CRow L S)) : List (CRow L S) := ⟨n + 1, n, l, 1⟩ :: T.map (upCRow n)

theorem addRow_children [One S] (n : ℕ) (l : L) (T : List (CRow L S)) : (addRow n l T).map CRow.child = n :: (T.map CRow.child).map (up n) := by
  unfold addRow
  rw [List.map_cons, List.map_map, List.map_map]; rfl

theorem CondTree.add [One S] (h : CondTree n k T) (l : L) : CondTree (n + 1) k (addRow n l T) where
  pos := h.pos
  nodup := by
    rw [addRow_children, List.nodup_cons]
    refine ⟨fun hm => ?_, h.nodup.map fun a b hab => up_inj.1 hab⟩
    obtain ⟨c, _, hc⟩ := List.mem_map.1 hm
    exact up_ne hc
  children := by
    intro c
    rw [addRow_children, List.mem_cons, List.mem_map]
    constructor
    · rintro (rfl | ⟨d, hd, rfl⟩)
      · exact .inl (by omega)
      · rcases (h.children d).1 hd with h1 | h1
        · rw [up_lt h1]; exact .inl (by omega)
        · rw [up_ge h1.1.le]; exact .inr (by omega)
    · rintro (h1 | h1)
      · by_cases he : c = n
        · exact .inl he
        · exact .inr ⟨c, (h.children c).2 (.inl (by omega)), up_lt (by omega)⟩
      · refine .inr ⟨c - 1, (h.children _).2 (.inr (by omega)), ?_⟩
        rw [up_ge (by omega)]; omega
  asc := by
    rw [addRow_children, List.filter_cons_of_neg (by simp), List.filter_map]
    have : ((fun c => decide (n + 1 ≤ c)) ∘ up n) = fun c => decide (n ≤ c) := by
      funext c
      refine decide_eq_decide.2 ?_
      unfold up
      split_ifs <;> omega
    rw [this, h.asc, List.range'_succ_left (s := n + 1)]
    refine List.map_congr_left fun c hc => up_ge ?_
    have := (List.mem_range'_1.1 hc).1
    omega
  parents := by
    intro row hr
    rcases List.mem_cons.1 hr with rfl | hr
    · have := h.pos
      simp only; omega
    · obtain ⟨r, hr1, rfl⟩ := List.mem_map.1 hr
      have := h.parents r hr1
      simp only [upCRow, up_ge this.1]; omega
  down := by
    intro row hr hc
    rcases List.mem_cons.1 hr with rfl | hr
    · simp only at hc; omega
    · obtain ⟨r, hr1, rfl⟩ := List.mem_map.1 hr
      have hp := (h.parents r hr1).1
      have hcn : n ≤ r.child := by
        by_contra hlt
        simp only [upCRow, up_lt (show r.child < n by omega)] at hc
        omega
      have := h.down r hr1 hcn
      simp only [upCRow, up_ge hp, up_ge hcn]; omega
  order := by
    intro i row hi
    cases i with
    | zero =>
      rw [addRow, List.getElem?_cons_zero, Option.some.injEq] at hi
      subst hi
      exact .inl rfl
    | succ i =>
      rw [addRow, List.getElem?_cons_succ, List.getElem?_map] at hi
      obtain ⟨r, hr, rfl⟩ := Option.map_eq_some_iff.1 hi
      have hp := (h.parents r (List.mem_of_getElem? hr)).1
      rcases h.order i r hr with h1 | ⟨j, r', hj, hjr, hrc⟩
      · exact .inl (by simp only [upCRow]; rw [up_ge hp, h1])
      · refine .inr ⟨j + 1, upCRow n r', by omega, ?_, ?_⟩
        · rw [addRow, List.getElem?_cons_succ, List.getElem?_map, hjr]; rfl
        · simp only [upCRow, hrc]

theorem mem_addRow [One S] {l : L} {row : CRow L S} (hr : row ∈ T) : upCRow n row ∈ addRow n l T := List.mem_cons_of_mem _ (List.mem_map_of_mem hr)

theorem mem_next {c : ℕ} : c + 1 ∈ sel.map (· + 1) ↔ c ∈ sel := by simp

theorem CondTree.rep_next [One S] [Zero L] [DecidableEq L] (h : CondTree n k T) (l : L) {c : ℕ} (h1 : n ≤ c) (h2 : c < n + k) :
    labRep (addRow n l T) (sel.map (· + 1)) (n + 1) (c + 1) = labRep T sel n c + 1 := by
  have h' := h.add l
  induction c using Nat.strong_induction_on with
  | _ c ih =>
    by_cases hs : c = n ∨ c ∈ sel
    · rw [h.rep_sel hs, h'.rep_sel (hs.imp (by omega) mem_next.2)]
    · push Not at hs
      obtain ⟨row, hrow, rfl⟩ := List.mem_map.1 ((h.children c).2 (.inr ⟨by omega, h2⟩))
      have hp := h.parents row hrow
      have e1 : labRep T sel n row.child = labRep T sel n row.parent := (h.labInv sel).same row hrow ⟨hs.2, fun h3 => by omega⟩
      have e2 := (h'.labInv (sel.map (· + 1))).same (upCRow n row) (mem_addRow hrow)
        ⟨by simp only [upCRow, up_ge h1, mem_next]; exact hs.2, fun h3 => by simp only [upCRow, up_ge h1] at h3; omega⟩
      simp only [upCRow, up_ge h1, up_ge hp.1] at e2
      exact e2.trans ((ih row.parent (h.down row hrow h1) hp.1 hp.2).trans (by rw [e1]))

theorem sortIds_next (sel : List ℕ) : sortIds (sel.map (· + 1)) = (sortIds sel).map (· + 1) :=
  (List.map_insertionSort _ _ _ _ fun a _ b _ => by simp).symm

theorem labelMap_next (sel : List ℕ) (c : ℕ) : labelMap (sel.map (· + 1)) (c + 1) = labelMap sel c := by
  unfold labelMap
  rw [sortIds_next]
  simp only [mem_next, List.length_map, ← List.map_reverse]
  have : ∀ l : List ℕ, (l.map (· + 1)).idxOf (c + 1) = l.idxOf c := by
    intro l
    induction l with
    | nil => rfl
    | cons a l ih => simp only [List.map_cons, List.idxOf_cons, ih]; simp
  rw [this]

theorem dedup_next (sel : List ℕ) : (sel.map (· + 1)).dedup.length = sel.dedup.length := by
  rw [List.dedup_map_of_injective (fun a b h => by simpa using h), List.length_map]

theorem find_child {rows : List (CRow L S)} (hnd : (rows.map CRow.child).Nodup) {row : CRow L S} (hrow : row ∈ rows) :
    rows.find? (fun r => decide (r.child = row.child)) = some row := by
  cases hf : rows.find? (fun r => decide (r.child = row.child)) with
  | none =>
    rw [List.find?_eq_none] at hf
    exact absurd (decide_eq_true rfl) (hf row hrow)
  | some r =>
    have h1 := List.mem_of_find?_eq_some hf
    have h2 := List.find?_some hf
    rw [List.inj_on_of_nodup_map hnd h1 hrow (of_decide_eq_true h2)]

theorem lams_next (hp : ∀ row ∈ T, n ≤ row.parent) (c : ℕ) :
    ((T.map (upCRow n)).filter fun r => decide (r.parent = c + 1)).map CRow.lam = (T.filter fun r => decide (r.parent = c)).map CRow.lam := by
  rw [List.filter_map, List.map_map]
  congr 1
  refine List.filter_congr fun r hr => decide_eq_decide.2 ?_
  simp only [upCRow, up_ge (hp r hr)]; omega

theorem max?_cons_of_le [LinearOrder L] {a : L} {l : List L} (h : ∃ b ∈ l, a ≤ b) : (a :: l).max? = l.max? := by
  obtain ⟨b, hb, hab⟩ := h
  cases hm : l.max? with
  | none =>
    rw [List.max?_eq_none_iff] at hm
    subst hm; simp at hb
  | some m =>
    rw [List.max?_eq_some_iff] at hm ⊢
    refine ⟨by simp [hm.1], fun c hc => ?_⟩
    rcases List.mem_cons.1 hc with rfl | hc
    · exact hab.trans (hm.2 b hb)
    · exact hm.2 c hc

theorem CondTree.root_row (h : CondTree n k T) (hne : T ≠ []) : ∃ row ∈ T, row.parent = n := by
  obtain ⟨row, rest, rfl⟩ := List.exists_cons_of_ne_nil hne
  exact ⟨row, by simp, h.head_parent⟩

/-- The other samples keep their labels. -/
theorem CondTree.labelOne_next [One S] [LinearOrder L] [Zero L] (h : CondTree n k T) (hne : T ≠ []) {l : L} (hlow : ∀ row ∈ T, l < row.lam)
    (hsel : ∀ c ∈ sel, n ≤ c) (e : Option L) {x : ℕ} (hx : x < n) :
    labelOne (addRow n l T) (sel.map (· + 1)) e (n + 1) (labRep (addRow n l T) (sel.map (· + 1)) (n + 1) x) x = labelOne T sel e n (labRep T sel n x) x := by
  have h' := h.add l
  have hns : ∀ c, c < n → c ∉ sel.map (· + 1) := by
    intro c hc hm
    obtain ⟨d, hd, rfl⟩ := List.mem_map.1 hm
    have := hsel d hd
    omega
  obtain ⟨row, hrow, rfl⟩ := List.mem_map.1 ((h.children x).2 (.inl hx))
  have hp := h.parents row hrow
  have hrow' : upCRow n row ∈ addRow n l T := mem_addRow hrow
  have hch : (upCRow n row).child = row.child := up_lt hx
  by_cases hl : row.lam = 0
  · have e1 := h'.rep_zero (sel := sel.map (· + 1)) hrow' (by rw [hch]; omega) hl
    rw [hch] at e1
    rw [h.rep_zero hrow hx hl, e1]
    unfold Verif.labelOne
    rw [if_pos hx, if_pos (by omega)]
  · have e1 : labRep T sel n row.child = labRep T sel n row.parent :=
      (h.labInv sel).same row hrow ⟨fun h1 => by have := hsel _ h1; omega, fun h3 => hl h3.2⟩
    have e2 : labRep (addRow n l T) (sel.map (· + 1)) (n + 1) row.child = labRep T sel n row.parent + 1 := by
      have e3 := (h'.labInv (sel.map (· + 1))).same _ hrow' ⟨by rw [hch]; exact hns _ hx, fun h3 => hl h3.2⟩
      rw [hch] at e3
      refine Eq.trans e3 ?_
      simp only [upCRow, up_ge hp.1]
      exact h.rep_next l hp.1 hp.2
    rw [e1, e2]
    generalize labRep T sel n row.parent = rep
    have f1 := find_child h.nodup hrow
    have f2 := find_child h'.nodup hrow'
    rw [hch] at f2
    have f3 : ((addRow n l T).filter fun r => decide (r.parent = rep + 1)).map CRow.lam =
        if rep = n then l :: (T.filter fun r => decide (r.parent = rep)).map CRow.lam else (T.filter fun r => decide (r.parent = rep)).map CRow.lam := by
      unfold addRow
      split_ifs with hr
      · rw [List.filter_cons_of_pos (by simp [hr]), List.map_cons, lams_next fun r hr => (h.parents r hr).1]
      · rw [List.filter_cons_of_neg (by simpa using fun h => hr h.symm), lams_next fun r hr => (h.parents r hr).1]
    have f4 : (((addRow n l T).filter fun r => decide (r.parent = rep + 1)).map CRow.lam).max? = ((T.filter fun r => decide (r.parent = rep)).map CRow.lam).max? := by
      rw [f3]
      split_ifs with hr
      · obtain ⟨r, hr1, hr2⟩ := h.root_row hne
        exact max?_cons_of_le ⟨r.lam, List.mem_map_of_mem (List.mem_filter.2 ⟨hr1, decide_eq_true (hr2.trans hr.symm)⟩), (hlow r hr1).le⟩
      · rfl
    unfold Verif.labelOne
    rw [f1, f2, f4, dedup_next, labelMap_next]
    simp only [Nat.add_lt_add_iff_right, Nat.add_right_cancel_iff]
    generalize ((T.filter fun r => decide (r.parent = rep)).map CRow.lam).max? = m
    cases m <;> cases e <;> rfl

/-- The new sample is noise. -/
theorem CondTree.labelOne_new [One S] [LinearOrder L] [Zero L] (h : CondTree n k T) (hne : T ≠ []) {l : L} (hlow : ∀ row ∈ T, l < row.lam)
    (hsel : ∀ c ∈ sel, n ≤ c) (e : Option L) (he : ∀ a ∈ e, l < a) :
    labelOne (addRow n l T) (sel.map (· + 1)) e (n + 1) (labRep (addRow n l T) (sel.map (· + 1)) (n + 1) n) n = some (-1) := by
  have h' := h.add l
  have hns : n ∉ sel.map (· + 1) := by
    intro hm
    obtain ⟨d, hd, hdn⟩ := List.mem_map.1 hm
    have := hsel d hd
    omega
  have hrow : (⟨n + 1, n, l, 1⟩ : CRow L S) ∈ addRow n l T := List.mem_cons_self
  by_cases hl : l = 0
  · rw [h'.rep_zero hrow (by simp) hl]
    unfold Verif.labelOne
    rw [if_pos (by simp)]
  · have e1 : labRep (addRow n l T) (sel.map (· + 1)) (n + 1) n = n + 1 :=
      ((h'.labInv (sel.map (· + 1))).same _ hrow ⟨hns, fun h3 => hl h3.2⟩).trans (h'.rep_sel (.inl rfl))
    rw [e1]
    have f2 := find_child h'.nodup hrow
    simp only at f2
    obtain ⟨r, hr1, hr2⟩ := h.root_row hne
    obtain ⟨m, hm, hml⟩ : ∃ m, (((addRow n l T).filter fun r => decide (r.parent = n + 1)).map CRow.lam).max? = some m ∧ l < m := by
      have hmem : r.lam ∈ ((addRow n l T).filter fun r => decide (r.parent = n + 1)).map CRow.lam :=
        List.mem_map.2 ⟨upCRow n r, List.mem_filter.2 ⟨mem_addRow hr1, decide_eq_true (by simp only [upCRow, hr2, up_ge le_rfl])⟩, rfl⟩
      cases hm : (((addRow n l T).filter fun r => decide (r.parent = n + 1)).map CRow.lam).max? with
      | none =>
        rw [List.max?_eq_none_iff] at hm
        rw [hm] at hmem; simp at hmem
      | some m =>
        rw [List.max?_eq_some_iff] at hm
        exact ⟨m, rfl, (hlow r hr1).trans_le (hm.2 _ hmem)⟩
    unfold Verif.labelOne
    rw [f2, hm, if_neg (by omega), if_pos rfl]
    split_ifs
    · cases e with
      | none => simp only; rw [if_neg (not_le.2 hml)]
      | some a => simp only; rw [if_neg (not_le.2 (he a rfl))]
    · rfl

theorem CondTree.labelVector_add [One S] [LinearOrder L] [Zero L] (h : CondTree n k T) (hne : T ≠ []) {l : L} (hlow : ∀ row ∈ T, l < row.lam)
    (hsel : ∀ c ∈ sel, n ≤ c) (e : Option L) (he : ∀ a ∈ e, l < a) :
    labelVector (addRow n l T) (sel.map (· + 1)) e (n + 1) = (labelVector T sel e n).map (· ++ [-1]) := by
  by_cases hs : sel = []
  · subst hs
    unfold labelVector
    rw [if_pos (by simp), if_pos (by simp), List.replicate_succ']; rfl
  · rw [h.labelVector_eq hne hs, (h.add l).labelVector_eq (by simp [addRow]) (by simpa using hs), List.range_succ, List.mapM_append]
    have : (List.range n).mapM (fun x => labelOne (addRow n l T) (sel.map (· + 1)) e (n + 1) (labRep (addRow n l T) (sel.map (· + 1)) (n + 1) x) x) =
        (List.range n).mapM fun x => labelOne T sel e n (labRep T sel n x) x :=
      mapM_congr' fun x hx => h.labelOne_next hne hlow hsel e (List.mem_range.1 hx)
    rw [this]
    have hnew : [n].mapM (fun x => labelOne (addRow n l T) (sel.map (· + 1)) e (n + 1) (labRep (addRow n l T) (sel.map (· + 1)) (n + 1) x) x) = some [-1] := by
      rw [List.mapM_cons, h.labelOne_new hne hlow hsel e he]; rfl
    rw [hnew]
    cases (List.range n).mapM fun x => labelOne T sel e n (labRep T sel n x) x <;> rfl

end

section
variable {K : Type*} [Field K] [LinearOrder K] [IsStrictOrderedRing K] {n k : ℕ} {T : List (CRow K K)} {sel : List ℕ}

omit [IsStrictOrderedRing K] in
theorem labelVector_bound (hc : CondTree n k T) (hne : T ≠ []) (hsel : ∀ c ∈ sel, n ≤ c) (e : Option K) {labels : List ℤ}
    (hl : labelVector T sel e n = some labels) : labels.length = n ∧ ∀ l ∈ labels, l < sel.length := by
  have hren : RowsRen n (Equiv.refl ℕ) T T := by
    refine ⟨rfl, ?_⟩
    have : T.map (renCRow n (Equiv.refl ℕ)) = T := by
      conv_rhs => rw [← List.map_id T]
      refine List.map_congr_left fun r _ => ?_
      unfold renCRow onNodes
      simp
    rw [this]
  obtain ⟨_, _, h1, _, _, h2, _⟩ := hren.labelVector (fun _ => Iff.rfl) hc hne hsel e hl
  exact ⟨h1, h2⟩

omit [IsStrictOrderedRing K] in
/-- The fold of `max` is the larger of where it starts and of the same fold from 0. -/
theorem maxFold (p : CRow (WithTop K) K → Prop) [DecidablePred p] (l : List (CRow (WithTop K) K)) (a : WithTop K) (ha : 0 ≤ a) :
    l.foldl (fun m row => if p row then max m row.lam else m) a = max a (l.foldl (fun m row => if p row then max m row.lam else m) 0) := by
  have key : ∀ (l : List (CRow (WithTop K) K)) (a b : WithTop K), l.foldl (fun m row => if p row then max m row.lam else m) (max a b) =
      max a (l.foldl (fun m row => if p row then max m row.lam else m) b) := by
    intro l
    induction l with
    | nil => exact fun _ _ => rfl
    | cons r l ih =>
      intro a b
      rw [List.foldl_cons, List.foldl_cons]
      split_ifs
      · rw [max_assoc, ih]
      · exact ih a b
  have := key l a 0
  rwa [max_eq_left ha] at this

omit [IsStrictOrderedRing K] in
theorem maxLambda_next (hp : ∀ row ∈ T, n ≤ row.parent) (l : K) {c : ℕ} :
    maxLambda ((addRow n l T).map topRow) (c + 1) = if c = n then max (l : WithTop K) (maxLambda (T.map topRow) c) else maxLambda (T.map topRow) c := by
  have hrest : ∀ a : WithTop K, ((T.map (upCRow n)).map topRow).foldl (fun m row => if row.parent = c + 1 ∧ row.size = 1 then max m row.lam else m) a =
      (T.map topRow).foldl (fun m row => if row.parent = c ∧ row.size = 1 then max m row.lam else m) a := by
    intro a
    induction T generalizing a with
    | nil => rfl
    | cons r T ih =>
      simp only [List.map_cons, List.foldl_cons]
      rw [ih fun row hr => hp row (by simp [hr])]
      congr 1
      simp only [topRow, upCRow, up_ge (hp r (by simp)), Nat.add_right_cancel_iff]
      congr
  unfold maxLambda
  rw [addRow, List.map_cons, List.foldl_cons, hrest]
  have e1 : (topRow (⟨n + 1, n, l, 1⟩ : CRow K K)).parent = n + 1 := rfl
  have e2 : (topRow (⟨n + 1, n, l, 1⟩ : CRow K K)).size = 1 := rfl
  have e3 : (topRow (⟨n + 1, n, l, 1⟩ : CRow K K)).lam = (l : WithTop K) := rfl
  simp only [e1, e2, e3, and_true, Nat.add_right_cancel_iff]
  by_cases hc : c = n
  · rw [if_pos hc.symm, if_pos hc, maxFold _ _ _ (le_max_left _ _)]
    have h0 : (0 : WithTop K) ≤ (T.map topRow).foldl (fun m row => if row.parent = c ∧ row.size = 1 then max m row.lam else m) 0 := by
      have := maxFold (fun row : CRow (WithTop K) K => row.parent = c ∧ row.size = 1) (T.map topRow) 0 le_rfl
      rw [this]; exact le_max_left _ _
    rw [max_comm (0 : WithTop K), max_assoc, max_eq_right h0]
  · rw [if_neg (Ne.symm hc), if_neg hc]

omit [IsStrictOrderedRing K] in
theorem strengthOf_add (hp : ∀ row ∈ T, n ≤ row.parent) {l : K} (hlow : ∀ row ∈ T, l < row.lam) {x : K} (hx : l < x) (c : ℕ) :
    strengthOf (x : WithTop K) (maxLambda ((addRow n l T).map topRow) (c + 1)) = strengthOf (x : WithTop K) (maxLambda (T.map topRow) c) := by
  rw [maxLambda_next hp]
  split_ifs with hc
  · by_cases hle : (l : WithTop K) ≤ maxLambda (T.map topRow) c
    · rw [max_eq_right hle]
    · have hnone : ∀ row ∈ T.map topRow, ¬ (row.parent = c ∧ row.size = 1) := by
        intro row hr hcs
        obtain ⟨r, hr1, rfl⟩ := List.mem_map.1 hr
        refine hle (le_trans ?_ ((foldl_maxLambda (T.map topRow) c 0).2.1 _ hr hcs.1 hcs.2))
        exact WithTop.coe_le_coe.2 (hlow r hr1).le
      have h0 : maxLambda (T.map topRow) c = 0 := by
        unfold maxLambda
        generalize (T.map topRow) = R at hnone
        have : ∀ a : WithTop K, R.foldl (fun m row => if row.parent = c ∧ row.size = 1 then max m row.lam else m) a = a := by
          induction R with
          | nil => exact fun _ => rfl
          | cons r R ih =>
            intro a
            rw [List.foldl_cons, if_neg (hnone r (by simp)), ih fun r hr => hnone r (by simp [hr])]
        exact this 0
      rw [h0] at hle ⊢
      have hl : 0 < l := by
        have := not_le.1 hle
        exact_mod_cast this
      rw [max_eq_left (by exact_mod_cast hl.le)]
      have e0 : strengthOf (x : WithTop K) 0 = 1 := if_pos (.inl rfl)
      rw [e0]
      unfold strengthOf
      rw [if_neg (by
        rintro (h | h)
        · have : l = 0 := by exact_mod_cast h
          exact hl.ne' this
        · exact WithTop.coe_ne_top h), min_eq_right (WithTop.coe_le_coe.2 hx.le)]
      exact div_self hl.ne'
  · rfl

theorem CondTree.strengthVector_add (h : CondTree n k T) (hne : T ≠ []) {l : K} (hlow : ∀ row ∈ T, l < row.lam) {labels : List ℤ}
    (h1 : labels.length = n) (h4 : ∀ l ∈ labels, l < sel.length) :
    ∃ s s', strengthVector (T.map topRow) sel labels = some s ∧ strengthVector ((addRow n l T).map topRow) (sel.map (· + 1)) (labels ++ [-1]) = some s' ∧
      (∀ x, x < n → s' x = s x) ∧ s' n = 0 := by
  have h' := h.add l
  obtain ⟨s, e1, g1⟩ := strengthVector_eq (K := K) (T.map topRow) h.top (by simpa using hne) sel labels h1 h4
  obtain ⟨s', e2, g2⟩ := strengthVector_eq (K := K) ((addRow n l T).map topRow) h'.top (by simp [addRow]) (sel.map (· + 1)) (labels ++ [-1]) (by simp [h1]) (by
    intro a ha
    rw [List.length_map]
    rcases List.mem_append.1 ha with ha | ha
    · exact h4 a ha
    · rw [List.mem_singleton.1 ha]; omega)
  refine ⟨s, s', e1, e2, fun x hx => ?_, ?_⟩
  · obtain ⟨row, hrow, rfl⟩ := List.mem_map.1 ((h.children x).2 (.inl hx))
    have hch : (topRow (upCRow n row)).child = row.child := up_lt hx
    have q1 := g1 (topRow row) (List.mem_map_of_mem hrow) hx
    have q2 := g2 (topRow (upCRow n row)) (List.mem_map_of_mem (mem_addRow hrow)) (by rw [hch]; omega)
    rw [hch, List.getElem?_append_left (by omega)] at q2
    have hget : labels[row.child]? = some labels[row.child] := List.getElem?_eq_getElem (by omega)
    by_cases hneg : labels[row.child] < 0
    · rw [q2.1 _ hget hneg]
      exact (q1.1 _ hget hneg).symm
    · have hlt := h4 _ (List.getElem_mem (by omega : row.child < labels.length))
      have hle : (sortIds sel).length = sel.length := (List.perm_insertionSort _ sel).length_eq
      have hi : labels[row.child].toNat < (sortIds sel).length := by omega
      have hget' : labels[row.child]? = some ((labels[row.child].toNat : ℕ) : ℤ) := by
        rw [hget, Int.toNat_of_nonneg (by omega)]
      have hs' : (sortIds (sel.map (· + 1)))[labels[row.child].toNat]? = some ((sortIds sel)[labels[row.child].toNat] + 1) := by
        rw [sortIds_next, List.getElem?_map, List.getElem?_eq_getElem hi]; rfl
      rw [q2.2 _ _ hget' hs']
      refine Eq.trans ?_ (q1.2 _ _ hget' (List.getElem?_eq_getElem hi)).symm
      exact strengthOf_add (fun r hr => (h.parents r hr).1) hlow (hlow row hrow) _
  · have q := g2 (topRow ⟨n + 1, n, l, 1⟩) (List.mem_map_of_mem List.mem_cons_self) (by simp [topRow])
    exact q.1 (-1) (by simp [topRow, h1]) (by omega)

end

section
variable {K : Type*} [Field K] [LinearOrder K] [IsStrictOrderedRing K] {n k : ℕ} {T : List (CRow K K)}

omit [IsStrictOrderedRing K] in
theorem CondTree.baseSelection_add (h : CondTree n k T) (hne : T ≠ []) (hk : ∀ row ∈ T, 1 < row.size ↔ n ≤ row.child) (o : ClusterOpts K)
    (ho : o.allowSingle = false ∨ o.method = .leaf) (l : K) : baseSelection o (n + 1) (addRow n l T) = (baseSelection o n T).map (List.map (· + 1)) := by
  have hp : ∀ row ∈ T, n ≤ row.parent := fun row hr => (h.parents row hr).1
  unfold baseSelection
  cases hm : o.method with
  | leaf =>
    simp only [Option.map_some, Option.some.injEq]
    unfold addRow
    rw [clusterTree_add hp fun row hr => (hk row hr).1, leafSelection_next]
  | eom =>
    rw [hm] at ho
    have ho : o.allowSingle = false := ho.resolve_right (by simp)
    simp only [ho]
    refine extractEom_add hp (fun row hr hs => ?_) (fun row hr hs => h.down row hr ((hk row hr).1 hs)) ?_ l _
    · have h1 := (hk row hr).1 hs
      have h2 := h.down row hr h1
      have := hp row hr
      omega
    · obtain ⟨row, rest, rfl⟩ := List.exists_cons_of_ne_nil hne
      simp [h.head_parent]

omit [IsStrictOrderedRing K] in
theorem CondTree.epsilonIf_add (h : CondTree n k T) (hk : ∀ row ∈ T, 1 < row.size ↔ n ≤ row.child) (o : ClusterOpts K) {sel : List ℕ} (hs : baseSelection o n T = some sel)
    (l : K) : epsilonIf o.epsilon (addRow n l T) (sel.map (· + 1)) = (epsilonIf o.epsilon T sel).map (List.map (· + 1)) := by
  unfold epsilonIf
  rw [List.length_map]
  split_ifs with hc
  · unfold addRow
    rw [clusterTree_add (fun row hr => (h.parents row hr).1) fun row hr => (hk row hr).1]
    refine epsilonSearch_next _ _ (fun he => ?_) _
    have : sel = [] := by
      unfold baseSelection at hs
      cases hm : o.method with
      | leaf =>
        rw [hm] at hs
        simp only [he, Option.some.injEq] at hs
        rw [← hs]; rfl
      | eom =>
        rw [hm] at hs
        simp only at hs
        unfold extractEom at hs
        simp only [he] at hs
        split at hs
        · cases hs
        · rw [← Option.some.inj hs]; rfl
    rw [this] at hc
    simp at hc
  · rfl

theorem CondTree.fromCondensed_add (hn : 0 < n) (h : CondTree n k T) (hk : ∀ row ∈ T, 1 < row.size ↔ n ≤ row.child) (o : ClusterOpts K) (hpers : o.persistence ≤ 0)
    (ho : o.allowSingle = false ∨ o.method = .leaf) {l : K} (hlow : ∀ row ∈ T, l < row.lam) (heps : 0 < o.epsilon → l < 1 / o.epsilon)
    {rows : List (CRow K K)} {sel : List ℕ} {labels : List ℤ} {s : ℕ → K} (hq : fromCondensed o n T = some (rows, sel, labels, s)) :
    rows = T ∧ ∃ s', fromCondensed o (n + 1) (addRow n l T) = some (addRow n l T, sel.map (· + 1), labels ++ [-1], s') ∧ (∀ x, x < n → s' x = s x) ∧ s' n = 0 := by
  have hsimp : ∀ R : List (CRow K K), simplifyIf o.persistence R = some R := fun R => if_neg fun hc => absurd hc.1 (not_lt.2 hpers)
  unfold fromCondensed at hq ⊢
  rw [hsimp, Option.bind_some] at hq ⊢
  obtain ⟨sel0, hsel0, hq⟩ := Option.bind_eq_some_iff.1 hq
  obtain ⟨sel', hsel, hq⟩ := Option.bind_eq_some_iff.1 hq
  obtain ⟨labels', hlab, hq⟩ := Option.bind_eq_some_iff.1 hq
  obtain ⟨s0, hs, hq⟩ := Option.map_eq_some_iff.1 hq
  simp only [Prod.mk.injEq] at hq
  obtain ⟨rfl, rfl, rfl, rfl⟩ := hq
  have hne : T ≠ [] := by
    rintro rfl
    have := (h.children 0).2 (.inl hn)
    simp at this
  have hge0 := h.baseSelection_ge hne hk o hsel0
  have hge : ∀ c ∈ sel', n ≤ c := by
    unfold epsilonIf at hsel
    split at hsel
    · exact epsilonSearch_ge _ (fun row hr => (h.parents row (List.mem_filter.1 hr).1).1) hge0 hsel
    · rw [← Option.some.inj hsel]; exact hge0
  obtain ⟨b1, b2⟩ := labelVector_bound h hne hge _ hlab
  obtain ⟨t1, t2, s1, s2, s3, s4⟩ := h.strengthVector_add hne hlow b1 b2
  rw [hs, Option.some.injEq] at s1
  subst s1
  refine ⟨rfl, t2, ?_, s3, s4⟩
  have he : ∀ a ∈ epsLam o.epsilon, l < a := by
    intro a ha
    unfold epsLam at ha
    split_ifs at ha with hc
    · rw [← Option.some.inj ha]; exact heps hc
    · cases ha
  rw [h.baseSelection_add hne hk o ho, hsel0, Option.map_some, Option.bind_some, h.epsilonIf_add hk o hsel0, hsel, Option.map_some, Option.bind_some,
    h.labelVector_add hne hlow hge _ he, hlab, Option.map_some, Option.bind_some, s2]
  rfl

end

section
variable {W K : Type*} [LinearOrder W] [Inhabited W] [Field K] [LinearOrder K] [IsStrictOrderedRing K] [Inhabited K]

theorem lexsortMst_far {t t' : List (Edge W)} {e : Edge W} (hp : t'.Perm (e :: t)) (hfar : ∀ x ∈ t, x.w < e.w) : lexsortMst t' = lexsortMst t ++ [e] := by
  refine List.Perm.eq_of_pairwise (le := lexLe) (fun a b _ _ => lexLe_antisymm) (lexsortMst_lex t') ?_ ?_
  · rw [List.pairwise_append]
    refine ⟨lexsortMst_lex t, by simp, fun a ha b hb => ?_⟩
    rw [List.mem_singleton.1 hb]
    exact .inl (hfar a ((lexsortMst_perm t).mem_iff.1 ha))
  · refine (lexsortMst_perm t').trans (hp.trans ?_)
    exact ((lexsortMst_perm t).symm.cons e).trans (List.perm_append_singleton e (lexsortMst t)).symm

/-- Adding a far sample changes no cluster.  `t` is a spanning tree of the samples `0 … n-1`, of total weight at least `min_cluster_size`; the spanning tree
`t'` has one more edge, joining a new sample `n` at a larger distance than all others (also larger than a positive `cluster_selection_epsilon`).  Then
the other samples keep their labels and strengths, the new one is noise, and the condensed tree is the old one, with the new sample
leaving the top cluster first; clusters get the next number.  Missing: a positive `persistence_threshold`, and
`allow_single_cluster` with the excess of mass. -/
theorem C110_far_sample_partial (n : ℕ) (hn : 2 ≤ n) (lam : W → K) (hlam : Antitone lam) (wt : ℕ → K) (o : ClusterOpts K) (h1 : 1 < o.minClusterSize)
    (h0 : ∀ x, x ≤ n → 0 ≤ wt x) (hl : ∀ x, x ≤ n → wt x < o.minClusterSize) (hbig : o.minClusterSize ≤ ∑ x ∈ Finset.range n, wt x) (hpers : o.persistence ≤ 0)
    (ho : o.allowSingle = false ∨ o.method = .leaf) (t t' : List (Edge W)) (e : Edge W) (ht : SpanningTree n t)
    (he : (e.u < n ∧ e.v = n) ∨ (e.u = n ∧ e.v < n)) (hp : t'.Perm (e :: t)) (hfar : ∀ x ∈ t, lam e.w < lam x.w)
    (heps : 0 < o.epsilon → lam e.w < 1 / o.epsilon) (r : ClusterResult W K) (hr : clustersFromMst lam wt o t = some r) :
    ∃ r', clustersFromMst lam wt o t' = some r' ∧ r'.labels = r.labels ++ [-1] ∧ (∀ x, x < n → r'.strengths x = r.strengths x) ∧ r'.strengths n = 0 ∧
      r'.selected = r.selected.map (· + 1) ∧
      r'.condensed = ⟨n + 1, n, lam e.w, 1⟩ ::
        r.condensed.map fun row => ⟨row.parent + 1, if row.child < n then row.child else row.child + 1, row.lam, row.size⟩ := by
  have hpos : 0 < n := by omega
  have hlen := ht.length hpos
  have hlen' : t'.length = n := by rw [hp.length_eq, List.length_cons, hlen]
  have hlex := lexsortMst_far hp fun x hx => lt_of_not_ge fun hle => absurd (hfar x hx) (not_lt.2 (hlam hle))
  have hts := ht.perm (lexsortMst_perm t)
  obtain ⟨k, hct, _, _, hkind, _, _⟩ := C54_applies n hn wt _ hts (lexsortMst_sorted t) o.minClusterSize h1 (fun x hx => h0 x hx.le) (fun x hx => hl x hx.le) lam hlam
  obtain ⟨hden, _⟩ := C12_linkage_is_dendrogram n hpos wt _ hts (lexsortMst_sorted t)
  have hHn := hden.hier_n
  have hRl : (mstToLinkage wt (lexsortMst t)).length + 1 = n := hHn
  have hlams : ∀ row ∈ condenseTree (Hier.ofRows (mstToLinkage wt (lexsortMst t))) wt o.minClusterSize none lam, lam e.w < row.lam := by
    intro row hrow
    obtain ⟨x, hx, hxl⟩ := condense_lam_edge hn hts (fun x hx => h0 x hx.le) (fun x hx => hl x hx.le) lam row hrow
    rw [hxl]
    exact hfar x ((lexsortMst_perm t).mem_iff.1 hx)
  obtain ⟨s, hs⟩ := mstToLinkage_add hn wt hts he
  have hlt : (lexsortMst t).length = (mstToLinkage wt (lexsortMst t)).length := by rw [(lexsortMst_perm t).length_eq]; omega
  have hcond : condenseTree (Hier.ofRows (mstToLinkage wt (lexsortMst t'))) wt o.minClusterSize none lam =
      addRow n (lam e.w) (condenseTree (Hier.ofRows (mstToLinkage wt (lexsortMst t))) wt o.minClusterSize none lam) := by
    rw [hlex, hs, hlt]
    have := condense_add (HierAdd.ofRows hRl e.w s) hden.valid (by change 0 < (mstToLinkage wt (lexsortMst t)).length; omega) wt o.minClusterSize none lam ?_ ?_
    · rw [this, hHn]; rfl
    · rw [hden.count_eq le_rfl]
      refine hbig.trans (le_of_eq (Finset.sum_congr ?_ fun _ _ => rfl))
      ext x
      simp only [Finset.mem_filter, Finset.mem_range]
      refine ⟨fun hx => ⟨hx, ?_⟩, fun hx => hx.1⟩
      exact Hier.sub_root hden.valid (by have := (Hier.ofRows (mstToLinkage wt (lexsortMst t))).root_eq; omega)
    · rw [hHn]; exact hl n le_rfl
  rw [clustersFromMst_eq, Option.map_eq_some_iff] at hr
  obtain ⟨⟨rows, sel, labels, st⟩, hq, rfl⟩ := hr
  rw [hlen] at hq
  obtain ⟨rfl, s', g1, g2, g3⟩ := hct.fromCondensed_add hpos hkind o hpers ho hlams heps hq
  refine ⟨_, by rw [clustersFromMst_eq, hlen', hcond, g1]; rfl, rfl, g2, g3, rfl, ?_⟩
  simp only [addRow]
  congr 1
  refine List.map_congr_left fun row hrow => ?_
  unfold upCRow
  rw [up_ge (hct.parents row hrow).1]; rfl

end

section
variable {W : Type*} [LinearOrder W]

/-- The minimum spanning trees of the graph with a far sample: `d'` extends `d` by a sample `n`, farther from each sample than the edges of a minimum
spanning tree `g` of `d`.  Then every minimum spanning tree for `d'` is one for `d` with one more edge. -/
theorem C110_min_tree {n : ℕ} (hn : 0 < n) {d d' : ℕ → ℕ → W} (hsame : ∀ i j, i < n → j < n → d' i j = d i j) {g t' : List (Edge W)} (hg : SpanningTree n g)
    (hgm : MinSpanningForest (completeGraph n d) g) (hfar : ∀ x ∈ g, ∀ k, k < n → x.w < d' k n ∧ x.w < d' n k) (ht : SpanningTree (n + 1) t')
    (htm : MinSpanningForest (completeGraph (n + 1) d') t') :
    ∃ e t, t'.Perm (e :: t) ∧ SpanningTree n t ∧ MinSpanningForest (completeGraph n d) t ∧
      ((e.u < n ∧ e.v = n) ∨ (e.u = n ∧ e.v < n)) ∧ e.w = d' e.u e.v := by
  set p : Edge W → Bool := fun e => decide (e.u < n ∧ e.v < n) with hp
  have hmem : ∀ e ∈ t', e.u < n + 1 ∧ e.v < n + 1 ∧ e.u ≠ e.v ∧ e.w = d' e.u e.v := fun e he => mem_completeGraph.1 (htm.forest.sub.subset he)
  have hconn : ∀ a b, a < n → b < n → a ≠ b → Conn (upTo (d a b) (t'.filter p)) a b := by
    intro a b ha hb hab
    have h1 := hgm.threshold ⟨a, b, d a b⟩ (mem_completeGraph.2 ⟨ha, hb, hab, rfl⟩)
    refine Conn.of_forall (fun x hx => ?_) h1
    rw [mem_upTo] at hx
    obtain ⟨x1, x2, x3, x4⟩ := mem_completeGraph.1 (hgm.forest.sub.subset hx.1)
    refine (htm.threshold x (mem_completeGraph.2 ⟨by omega, by omega, x3, by rw [hsame _ _ x1 x2]; exact x4⟩)).mono fun y hy => ?_
    rw [mem_upTo] at hy ⊢
    refine ⟨List.mem_filter.2 ⟨hy.1, ?_⟩, hy.2.trans hx.2⟩
    obtain ⟨y1, y2, y3, y4⟩ := hmem y hy.1
    by_contra hpy
    have hpy : ¬ (y.u < n ∧ y.v < n) := by simpa [hp] using hpy
    by_cases hu : y.u < n
    · have hv : y.v = n := by omega
      have := (hfar x hx.1 y.u hu).1
      rw [← hv, ← y4] at this
      exact absurd hy.2 (not_le.2 this)
    · have hu : y.u = n := by omega
      have := (hfar x hx.1 y.v (by omega)).2
      rw [← hu, ← y4] at this
      exact absurd hy.2 (not_le.2 this)
  have hspan : SpanningTree n (t'.filter p) := by
    refine ⟨fun e he => ?_, ht.acyclic.filter p, fun a b ha hb => ?_⟩
    · exact of_decide_eq_true (List.mem_filter.1 he).2
    · by_cases hab : a = b
      · subst hab; exact Conn.refl _ _
      · exact (hconn a b ha hb hab).mono fun e he => (mem_upTo.1 he).1
  have hl1 := ht.length (by omega)
  have hl2 := hspan.length hn
  have hperm : (t'.filter p ++ t'.filter fun e => !p e).Perm t' := List.filter_append_perm p t'
  have hl3 := hperm.length_eq
  rw [List.length_append] at hl3
  obtain ⟨e, he⟩ := List.length_eq_one_iff.1 (show (t'.filter fun e => !p e).length = 1 by omega)
  have hem : e ∈ t' ∧ ¬ (e.u < n ∧ e.v < n) := by
    have : e ∈ t'.filter fun e => !p e := by rw [he]; simp
    obtain ⟨h1, h2⟩ := List.mem_filter.1 this
    exact ⟨h1, by simp [hp] at h2; omega⟩
  obtain ⟨e1, e2, e3, e4⟩ := hmem e hem.1
  refine ⟨e, t'.filter p, ?_, hspan, ?_, by have := hem.2; omega, e4⟩
  · rw [he] at hperm
    exact hperm.symm.trans (List.perm_append_singleton e _)
  · have hsub : ∀ x ∈ t'.filter p, x ∈ completeGraph n d := by
      intro x hx
      obtain ⟨h1, h2⟩ := List.mem_filter.1 hx
      obtain ⟨x1, x2, x3, x4⟩ := hmem x h1
      obtain ⟨x5, x6⟩ := of_decide_eq_true h2
      exact mem_completeGraph.2 ⟨x5, x6, x3, by rw [← hsame _ _ x5 x6]; exact x4⟩
    refine minSpanningForest_of_threshold ⟨List.subperm_of_subset hspan.acyclic.nodup hsub, hspan.acyclic, fun a b => ⟨fun h => h.mono hsub, fun h => ?_⟩⟩ fun x hx => ?_
    · refine Conn.of_forall (fun x hx => ?_) h
      obtain ⟨x1, x2, _⟩ := mem_completeGraph.1 hx
      exact hspan.conn _ _ x1 x2
    · obtain ⟨x1, x2, x3, x4⟩ := mem_completeGraph.1 hx
      rw [x4]
      exact hconn _ _ x1 x2 x3

theorem getD_orderedInsert (a z : W) : ∀ (l : List W) (i : ℕ), i < l.length → l.Pairwise (· ≤ ·) → l.getD i z < a → (l.orderedInsert (· ≤ ·) a).getD i z = l.getD i z
  | [], i, h, _, _ => by simp at h
  | b :: l, i, h, hs, ha => by
    obtain ⟨s1, s2⟩ := List.pairwise_cons.1 hs
    rw [List.orderedInsert_cons]
    have hb : ¬ a ≤ b := by
      intro hab
      cases i with
      | zero => exact absurd hab (not_le.2 ha)
      | succ i =>
        have hi : i < l.length := by simpa using h
        rw [List.getD_cons_succ, List.getD_eq_getElem?_getD, List.getElem?_eq_getElem hi, Option.getD_some] at ha
        exact absurd (hab.trans (s1 _ (List.getElem_mem hi))) (not_le.2 ha)
    rw [if_neg hb]
    cases i with
    | zero => rfl
    | succ i =>
      rw [List.getD_cons_succ, List.getD_cons_succ]
      exact getD_orderedInsert a z l i (by simpa using h) s2 (by simpa using ha)

end

section
variable {W K : Type*} [LinearOrder W] [OrderTop W] [Zero W] [Inhabited W] [Field K] [LinearOrder K] [IsStrictOrderedRing K] [Inhabited K]

/-- C110 for the data, `algorithm='kruskal'`: distances `D` of `n + 1` samples, the last of which is farther from each other sample than the longest edge of the
spanning tree of the others (and than a positive `cluster_selection_epsilon`).  It gets label -1 and strength 0, and the others get the labels and
strengths they get without it.  Edges of the spanning tree of the others have pairwise different lengths; `min_samples < n`. -/
theorem C110_kruskal_partial (n : ℕ) (hn : 2 ≤ n) (ms : ℕ) (hms : ms < n) (D : ℕ → ℕ → W) (hD : ∀ i j, D i j = D j i) (lam : W → K) (hlam : Antitone lam)
    (hd : ((kruskalBrute n ms D CLParams.none).map Edge.w).Nodup) (hfar : ∀ x ∈ kruskalBrute n ms D CLParams.none, ∀ k, k < n → lam (D k n) < lam x.w)
    (wt : ℕ → K) (o : ClusterOpts K) (heps : 0 < o.epsilon → ∀ k, k < n → lam (D k n) < 1 / o.epsilon) (h1 : 1 < o.minClusterSize)
    (h0 : ∀ x, x ≤ n → 0 ≤ wt x) (hl : ∀ x, x ≤ n → wt x < o.minClusterSize) (hbig : o.minClusterSize ≤ ∑ x ∈ Finset.range n, wt x) (hpers : o.persistence ≤ 0)
    (ho : o.allowSingle = false ∨ o.method = .leaf) (r : ClusterResult W K) (hr : clustersFromMst lam wt o (kruskalBrute n ms D CLParams.none) = some r) :
    ∃ r', clustersFromMst lam wt o (kruskalBrute (n + 1) ms D CLParams.none) = some r' ∧ r'.labels = r.labels ++ [-1] ∧
      (∀ x, x < n → r'.strengths x = r.strengths x) ∧ r'.strengths n = 0 ∧ r'.selected = r.selected.map (· + 1) := by
  obtain ⟨g1, g2⟩ := C60_brute_force n ms (by omega) D hD
  obtain ⟨g3, g4⟩ := C60_brute_force (n + 1) ms (by omega) D hD
  set g := kruskalBrute n ms D CLParams.none with hg
  set core : ℕ → W := fun i => if ms ≤ 1 then 0 else (((List.range n).map (D i)).insertionSort (· ≤ ·)).getD ms ⊤ with hcore
  set core' : ℕ → W := fun i => if ms ≤ 1 then 0 else (((List.range (n + 1)).map (D i)).insertionSort (· ≤ ·)).getD ms ⊤ with hcore'
  have hlt : ∀ x ∈ g, ∀ k, k < n → x.w < D k n := fun x hx k hk => lt_of_not_ge fun hle => absurd (hfar x hx k hk) (not_lt.2 (hlam hle))
  have hcc : ∀ i, i < n → core' i = core i := by
    intro i hi
    simp only [hcore, hcore']
    split_ifs with hm
    · rfl
    · have hcore_lt : (((List.range n).map (D i)).insertionSort (· ≤ ·)).getD ms ⊤ < D i n := by
        obtain ⟨j, hj, hij⟩ : ∃ j, j < n ∧ i ≠ j := by
          by_cases h : i = 0
          · exact ⟨1, by omega, by omega⟩
          · exact ⟨0, by omega, h⟩
        obtain ⟨x, hx, hxi⟩ : ∃ x ∈ g, x.u = i ∨ x.v = i := by
          have hc := g1.conn i j hi hj
          rcases Relation.ReflTransGen.cases_head hc with h | ⟨c, ⟨x, hx, h⟩, _⟩
          · exact absurd h hij
          · exact ⟨x, hx, by omega⟩
        refine lt_of_le_of_lt ?_ (hlt x hx i hi)
        have := (mem_completeGraph.1 (g2.forest.sub.subset hx)).2.2.2
        rw [this]
        have hci : core i = (((List.range n).map (D i)).insertionSort (· ≤ ·)).getD ms ⊤ := if_neg hm
        rw [← hci]
        rcases hxi with rfl | rfl
        · exact (le_max_right _ _).trans (le_max_left _ _)
        · exact le_max_right _ _
      rw [List.range_succ, List.map_append, List.map_singleton]
      have hsort : ((List.range n).map (D i) ++ [D i n]).insertionSort (· ≤ ·) = (((List.range n).map (D i)).insertionSort (· ≤ ·)).orderedInsert (· ≤ ·) (D i n) := by
        refine List.Perm.eq_of_pairwise (le := (· ≤ ·)) (fun a b _ _ h1 h2 => le_antisymm h1 h2) (List.pairwise_insertionSort _ _)
          ((List.pairwise_insertionSort _ _).orderedInsert _ _) ?_
        refine (List.perm_insertionSort _ _).trans ((List.perm_append_singleton _ _).trans ?_)
        exact ((List.perm_insertionSort _ _).symm.cons _).trans (List.perm_orderedInsert _ _ _).symm
      rw [hsort]
      exact getD_orderedInsert _ _ _ _ (by rw [List.length_insertionSort]; simpa using hms) (List.pairwise_insertionSort _ _) hcore_lt
  obtain ⟨e, t, p1, p2, p3, p4, p5⟩ := C110_min_tree (d := fun i j => max (max (D i j) (core i)) (core j)) (d' := fun i j => max (max (D i j) (core' i)) (core' j))
    (by omega) (fun i j hi hj => by simp only [hcc i hi, hcc j hj]) g1 g2
    (fun x hx k hk => ⟨(hlt x hx k hk).trans_le ((le_max_left _ _).trans (le_max_left _ _)),
      (hlt x hx k hk).trans_le (by rw [hD k n]; exact (le_max_left _ _).trans (le_max_left _ _))⟩) g3 g4
  have hew : ∃ k, k < n ∧ D k n ≤ e.w := by
    rw [p5]
    rcases p4 with ⟨h2, h3⟩ | ⟨h2, h3⟩
    · refine ⟨e.u, h2, ?_⟩
      rw [h3]
      exact (le_max_left _ _).trans (le_max_left _ _)
    · refine ⟨e.v, h3, ?_⟩
      rw [h2, hD e.v n]
      exact (le_max_left _ _).trans (le_max_left _ _)
  obtain ⟨k, hk, hke⟩ := hew
  have hfar' : ∀ x ∈ t, lam e.w < lam x.w := by
    intro x hx
    have : x.w ∈ weights g := (p3.weights_perm g2).mem_iff.1 (List.mem_map_of_mem hx)
    obtain ⟨y, hy, hyx⟩ := List.mem_map.1 this
    rw [← hyx]
    exact (hlam hke).trans_lt (hfar y hy k hk)
  have hsame := (C91_any_tree_partial (by omega : 0 < n) g1 p2 g2 p3 hd lam wt o).1
  rw [hr, Option.map_some, Option.map_eq_some_iff] at hsame
  obtain ⟨r1, hr1, hr2⟩ := hsame
  obtain ⟨r', q1, q2, q3, q4, q5, _⟩ := C110_far_sample_partial n hn lam hlam wt o h1 h0 hl hbig hpers ho t _ e p2 p4 p1 hfar'
    (fun h => (hlam hke).trans_lt (heps h k hk)) r1 hr1
  simp only [ClusterResult.clustering, Prod.mk.injEq] at hr2
  exact ⟨r', q1, by rw [q2, hr2.1], fun x hx => by rw [q3 x hx, hr2.2.1], q4, by rw [q5, hr2.2.2.2.2]⟩

end

/-- Four samples on a line, two pairs, and a fifth one far away. -/
def exPairs2 : List (Edge (WithTop ℚ)) := [⟨0, 1, 10⟩, ⟨1, 2, 21⟩, ⟨2, 3, 10⟩]
def exPairs2Far : List (Edge (WithTop ℚ)) := [⟨0, 1, 10⟩, ⟨3, 4, 22⟩, ⟨1, 2, 21⟩, ⟨2, 3, 10⟩]

theorem exPairs2_tree : SpanningTree 4 exPairs2 := path_spanning (by decide) (by decide) fun i hi => by
  have h : ∀ i : Fin 3, ∃ e ∈ exPairs2, e.u = (i : ℕ) ∧ e.v = (i : ℕ) + 1 := by decide
  exact h ⟨i, by omega⟩

/-- The hypotheses of `C110_far_sample_partial` hold for these samples and for both methods. -/
example (m : Method) : ∃ r', clustersFromMst lamq (fun _ => 1) ⟨2, m, none, false, 0, 0⟩ exPairs2Far = some r' ∧ r'.labels = [1, 1, 0, 0, -1] ∧ r'.strengths 4 = 0 := by
  have e1 : (clustersFromMst lamq (fun _ => 1) ⟨2, m, none, false, 0, 0⟩ exPairs2).map ClusterResult.labels = some [1, 1, 0, 0] := by cases m <;> decide +kernel
  obtain ⟨r, hr, e1⟩ := Option.map_eq_some_iff.1 e1
  obtain ⟨r', g1, g2, _, g3, _⟩ := C110_far_sample_partial 4 (by decide) lamq lamq_antitone (fun _ => 1) ⟨2, m, none, false, 0, 0⟩ (by norm_num) (fun _ _ => by norm_num) (fun _ _ => by norm_num)
    (by norm_num) le_rfl (.inl rfl) exPairs2 exPairs2Far ⟨3, 4, 22⟩ exPairs2_tree (by decide) (by decide +kernel) (by decide +kernel) (fun h => absurd h (by norm_num)) r hr
  exact ⟨r', g1, by rw [g2, e1]; rfl, g3⟩

/-- With `allow_single_cluster` and the excess of mass a far sample can join two clusters to one: it leaves the top cluster, whose score grows by its lambda. -/
theorem C110_single_cluster : (clustersFromMst lamq (fun _ => 1) ⟨2, .eom, none, true, 0, 0⟩ exPairs2).map ClusterResult.labels = some [1, 1, 0, 0] ∧
    (clustersFromMst lamq (fun _ => 1) ⟨2, .eom, none, true, 0, 0⟩ exPairs2Far).map ClusterResult.labels = some [0, 0, 0, 0, -1] := ⟨by decide +kernel, by decide +kernel⟩

/-- Five samples on a line: two pairs, and a far one. -/
def line5 : List ℚ := [0, 10, 31, 42, 100]

/-- The hypotheses of `C110_kruskal_partial` hold for these samples, also with `cluster_selection_epsilon=5`. -/
example (m : Method) : ∃ r', clustersFromMst lamq (fun _ => 1) ⟨2, m, none, false, 5, 0⟩ (kruskalBrute 5 1 (onLine line5) CLParams.none) = some r' ∧
    r'.labels = [1, 1, 0, 0, -1] ∧ r'.strengths 4 = 0 := by
  have e1 : (clustersFromMst lamq (fun _ => 1) ⟨2, m, none, false, 5, 0⟩ (kruskalBrute 4 1 (onLine line5) CLParams.none)).map ClusterResult.labels = some [1, 1, 0, 0] := by
    cases m <;> decide +kernel
  obtain ⟨r, hr, e1⟩ := Option.map_eq_some_iff.1 e1
  obtain ⟨r', g1, g2, _, g3, _⟩ := C110_kruskal_partial 4 (by decide) 1 (by decide) (onLine line5) (onLine_comm _) lamq lamq_antitone (by decide +kernel)
    (by decide +kernel) (fun _ => 1) ⟨2, m, none, false, 5, 0⟩ (fun _ => by show ∀ k < 4, lamq (onLine line5 k 4) < 1 / 5; decide +kernel) (by norm_num) (fun _ _ => by norm_num) (fun _ _ => by norm_num)
    (by norm_num) le_rfl (.inl rfl) r hr
  exact ⟨r', g1, by rw [g2, e1]; rfl, g3⟩

end Verif
