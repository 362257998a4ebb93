import Verif.Lemmas.LinkSame
import Verif.Lemmas.LinkHier
import Verif.Lemmas.Condense

/-!
# Condensing a hierarchy with renamed samples

Renaming the samples changes the order of two children only if both are samples; so the clusters keep their numbers and the rows of the condensed tree
keep their places, up to which sample is listed in a row.
-/

namespace Verif
variable {W S L : Type*}

/-- `l'` is `l` with the samples renamed, up to the places of the samples. -/
structure NodesRen (n : ℕ) (f : ℕ → ℕ) (l l' : List ℕ) : Prop where
  cols : l'.map (innerNode n) = l.map (innerNode n)
  perm : l'.Perm (l.map (onNodes n f))

theorem NodesRen.append {n : ℕ} {f : ℕ → ℕ} {a a' b b' : List ℕ} (h : NodesRen n f a a') (h' : NodesRen n f b b') :
    NodesRen n f (a ++ b) (a' ++ b') :=
  ⟨by rw [List.map_append, List.map_append, h.cols, h'.cols], by rw [List.map_append]; exact h.perm.append h'.perm⟩

theorem NodesRen.nil {n : ℕ} {f : ℕ → ℕ} : NodesRen n f [] [] := ⟨rfl, .refl _⟩

section
variable {n : ℕ} {f : Equiv.Perm ℕ} (hf : ∀ x, f x < n ↔ x < n)
include hf

theorem innerNode_onNodes (v : ℕ) : innerNode n (onNodes n f v) = innerNode n v := by
  unfold innerNode onNodes
  by_cases h : v < n
  · rw [if_pos h, if_neg (by have := (hf v).2 h; omega), if_neg (by omega)]
  · rw [if_neg h]

theorem onNodes_lt (v : ℕ) : onNodes n f v < n ↔ v < n := by
  unfold onNodes
  split
  · next h => simp [hf, h]
  · rfl

omit hf in
theorem onNodes_ge {v : ℕ} (h : n ≤ v) : onNodes n f v = v := by
  unfold onNodes; rw [if_neg (by omega)]

theorem NodesRen.one (v : ℕ) : NodesRen n f [v] [onNodes n f v] := ⟨by simp [innerNode_onNodes hf], .refl _⟩

theorem NodesRen.swap {a b : ℕ} (ha : a < n) (hb : b < n) : NodesRen n f [a, b] [f b, f a] := by
  refine ⟨?_, ?_⟩
  · have h1 := (hf a).2 ha
    have h2 := (hf b).2 hb
    simp [innerNode, Nat.not_le.2 ha, Nat.not_le.2 hb, Nat.not_le.2 h1, Nat.not_le.2 h2]
  · simp only [List.map_cons, List.map_nil, onNodes, ha, hb, if_true]
    exact List.Perm.swap _ _ _

end

/-- `H'` is `H` with the samples renamed. -/
structure HierRen (f : ℕ → ℕ) (H H' : Hier W S) : Prop where
  m : H'.m = H.m
  d : ∀ i, i < H.m → H'.d i = H.d i
  s : ∀ i, i < H.m → H'.s i = H.s i
  kids : ∀ i, i < H.m → (H'.l i = onNodes H.n f (H.l i) ∧ H'.r i = onNodes H.n f (H.r i)) ∨
    (H.l i < H.n ∧ H.r i < H.n ∧ H'.l i = f (H.r i) ∧ H'.r i = f (H.l i))

theorem HierRen.n {f : ℕ → ℕ} {H H' : Hier W S} (h : HierRen f H H') : H'.n = H.n := by unfold Hier.n; rw [h.m]

theorem HierRen.ofRows [Inhabited W] [Inhabited S] {n : ℕ} {f : Equiv.Perm ℕ} (hf : ∀ x, f x < n ↔ x < n) {rows : List (LRow W S)} (hn : rows.length + 1 = n)
    (hlt : ∀ (i : ℕ) (row : LRow W S), rows[i]? = some row → row.r < row.l) : HierRen f (Hier.ofRows rows) (Hier.ofRows (rows.map (renRow n f))) := by
  have hget : ∀ i, i < rows.length → ∃ row, rows[i]? = some row := fun i hi => ⟨_, List.getElem?_eq_getElem hi⟩
  have hHn : (Hier.ofRows rows).n = n := hn
  refine ⟨by simp [Hier.ofRows], fun i hi => ?_, fun i hi => ?_, fun i hi => ?_⟩
  · obtain ⟨row, hr⟩ := hget i hi
    simp only [Hier.ofRows, List.getElem?_map, hr, Option.map_some, Option.getD_some, renRow]
  · obtain ⟨row, hr⟩ := hget i hi
    simp only [Hier.ofRows, List.getElem?_map, hr, Option.map_some, Option.getD_some, renRow]
  rw [hHn]
  obtain ⟨row, hr⟩ := hget i hi
  have h0 := hlt i row hr
  simp only [Hier.ofRows, List.getElem?_map, hr, Option.map_some, Option.getD_some, renRow]
  by_cases hl : row.l < n
  · have hr : row.r < n := by omega
    have e1 : onNodes n f row.l = f row.l := if_pos hl
    have e2 : onNodes n f row.r = f row.r := if_pos hr
    rw [e1, e2]
    rcases le_total (f row.r) (f row.l) with h1 | h1
    · exact Or.inl ⟨max_eq_left h1, min_eq_right h1⟩
    · exact Or.inr ⟨hl, hr, max_eq_right h1, min_eq_left h1⟩
  · have e1 : onNodes n f row.l = row.l := if_neg hl
    have : onNodes n f row.r ≤ row.l := by
      by_cases hr : row.r < n
      · have := (onNodes_lt hf row.r).2 hr; omega
      · rw [onNodes_ge (by omega)]; omega
    rw [e1]
    exact Or.inl ⟨max_eq_left this, min_eq_right this⟩

section
variable {f : Equiv.Perm ℕ} {H H' : Hier W S} (h : HierRen f H H') (hf : ∀ x, f x < H.n ↔ x < H.n)
include h hf

theorem HierRen.kids_ren {v : ℕ} (hv : v ≤ H.root) : NodesRen H.n f (H.kids v) (H'.kids v) := by
  unfold Hier.kids
  rw [h.n]
  by_cases hn : H.n ≤ v
  · rw [if_pos hn, if_pos hn]
    have hre := H.root_eq
    rcases h.kids (v - H.n) (by omega) with ⟨h1, h2⟩ | ⟨h1, h2, h3, h4⟩
    · rw [h1, h2]
      exact (NodesRen.one hf _).append (NodesRen.one hf _)
    · rw [h3, h4]
      exact NodesRen.swap hf h1 h2
  · rw [if_neg hn, if_neg hn]
    exact .nil

/-- The children only depend on the inner nodes of a list. -/
theorem HierRen.flatMap_kids {l l' : List ℕ} (hl : NodesRen H.n f l l') (hb : ∀ v ∈ l, v ≤ H.root) :
    NodesRen H.n f (l.flatMap H.kids) (l'.flatMap H'.kids) := by
  have h1 : l'.flatMap H'.kids = l.flatMap H'.kids := by
    have e : ∀ l : List ℕ, l.flatMap H'.kids = (l.map (innerNode H.n)).flatMap (fun o => o.elim [] H'.kids) := by
      intro l
      rw [List.flatMap_map]
      congr 1
      funext v
      unfold innerNode
      split
      · rfl
      · next hv => simp [Hier.kids, h.n, hv]
    rw [e, e, hl.cols]
  rw [h1]
  clear hl h1
  induction l with
  | nil => exact .nil
  | cons v l ih =>
    rw [List.flatMap_cons, List.flatMap_cons]
    exact (h.kids_ren hf (hb v (by simp))).append (ih fun w hw => hb w (by simp [hw]))

theorem HierRen.bfsAux_ren (hv : H.Valid) (fuel : ℕ) {l l' : List ℕ} (hl : NodesRen H.n f l l') (hb : ∀ v ∈ l, v ≤ H.root) :
    NodesRen H.n f (H.bfsAux fuel l) (H'.bfsAux fuel l') := by
  induction fuel generalizing l l' with
  | zero => exact .nil
  | succ fuel ih =>
    match l, l', hl with
    | [], [], _ => exact .nil
    | [], b :: bs, hl => exact absurd hl.cols (by simp)
    | a :: as, [], hl => exact absurd hl.cols (by simp)
    | a :: as, b :: bs, hl =>
      refine hl.append (ih (h.flatMap_kids hf hl hb) ?_)
      intro w hw
      obtain ⟨v, hv1, hv2⟩ := List.mem_flatMap.1 hw
      have := hb v hv1
      have hre := H.root_eq
      unfold Hier.kids at hv2
      split at hv2
      · next hn =>
        have hlt := hv.lt (v - H.n) (by omega)
        simp only [List.mem_cons, List.not_mem_nil, or_false] at hv2
        rcases hv2 with rfl | rfl <;> omega
      · simp at hv2

theorem HierRen.bfs_ren (hv : H.Valid) {v : ℕ} (hn : H.n ≤ v) (hb : v ≤ H.root) : NodesRen H.n f (H.bfs v) (H'.bfs v) := by
  have h1 := NodesRen.one (n := H.n) hf v
  rw [onNodes_ge hn] at h1
  exact h.bfsAux_ren hf hv (v + 1) h1 (by simpa using hb)

end

/-! ## Rows of the condensed tree -/

/-- `rows'` is `rows` with the samples renamed, up to the places of the samples among rows that differ in nothing else. -/
structure RowsRen (n : ℕ) (f : ℕ → ℕ) (rows rows' : List (CRow L S)) : Prop where
  cols : rows'.map (anonRow n) = rows.map (anonRow n)
  perm : rows'.Perm (rows.map (renCRow n f))

theorem RowsRen.append {n : ℕ} {f : ℕ → ℕ} {a a' b b' : List (CRow L S)} (h : RowsRen n f a a') (h' : RowsRen n f b b') :
    RowsRen n f (a ++ b) (a' ++ b') :=
  ⟨by rw [List.map_append, List.map_append, h.cols, h'.cols], by rw [List.map_append]; exact h.perm.append h'.perm⟩

theorem RowsRen.nil {n : ℕ} {f : ℕ → ℕ} : RowsRen n f ([] : List (CRow L S)) [] := ⟨rfl, .refl _⟩

/-- One row for every sample of a list of nodes. -/
def sampleRows [One S] (n p : ℕ) (lv : L) (l : List ℕ) : List (CRow L S) := (l.filter fun u => decide (u < n)).map fun u => ⟨p, u, lv, 1⟩

/-- Two runs of the condensing loop that agree up to the names of the samples. -/
structure CondSim (n : ℕ) (f : ℕ → ℕ) (st st' : CondState L S) : Prop where
  relabel : st'.relabel = st.relabel
  ignore : st'.ignore = st.ignore
  next : st'.next = st.next
  ge : n ≤ st.next
  rows : RowsRen n f st.rows st'.rows

section
variable [One S]

theorem NodesRen.sampleRows {n : ℕ} {f : Equiv.Perm ℕ} (hf : ∀ x, f x < n ↔ x < n) {l l' : List ℕ} (h : NodesRen n f l l') (p : ℕ) (lv : L) :
    RowsRen n f (Verif.sampleRows (S := S) n p lv l) (Verif.sampleRows n p lv l') := by
  constructor
  · have e : ∀ l : List ℕ, (Verif.sampleRows (S := S) n p lv l).map (anonRow n) =
        ((l.map (innerNode n)).filter Option.isNone).map fun _ => (p, none, lv, 1) := by
      intro l
      unfold Verif.sampleRows
      rw [List.map_map, List.filter_map, List.map_map]
      have : l.filter (Option.isNone ∘ innerNode n) = l.filter fun u => decide (u < n) := by
        apply List.filter_congr
        intro u _
        by_cases hu : u < n
        · simp [innerNode, hu]
        · simp [innerNode, hu, Nat.le_of_not_lt hu]
      rw [this]
      apply List.map_congr_left
      intro u hu
      have := of_decide_eq_true (List.mem_filter.1 hu).2
      simp [anonRow, innerNode, this]
    rw [e, e, h.cols]
  · unfold Verif.sampleRows
    have h1 := (h.perm.filter fun u => decide (u < n)).map fun u => (⟨p, u, lv, 1⟩ : CRow L S)
    refine h1.trans (List.Perm.of_eq ?_)
    rw [List.filter_map, List.map_map, List.map_map]
    have : l.filter ((fun u => decide (u < n)) ∘ onNodes n f) = l.filter fun u => decide (u < n) := by
      apply List.filter_congr
      intro u _
      simp [onNodes_lt hf]
    rw [this]
    rfl

theorem elim_foldl (n p : ℕ) (lv : L) (l : List ℕ) (st : CondState L S) :
    l.foldl (elimStep n p lv) st = { st with
      ignore := (l.filter fun u => decide (n ≤ u)).foldl (fun g u => Function.update g u true) st.ignore
      rows := st.rows ++ sampleRows n p lv l } := by
  induction l generalizing st with
  | nil => simp [sampleRows]
  | cons u l ih =>
    rw [List.foldl_cons, ih]
    unfold elimStep sampleRows
    by_cases hu : u < n
    · simp [hu, Nat.not_le.2 hu]
    · simp [hu, Nat.le_of_not_lt hu]

variable {f : Equiv.Perm ℕ} {H H' : Hier W S}

theorem HierRen.eliminate (h : HierRen f H H') (hf : ∀ x, f x < H.n ↔ x < H.n) (hv : H.Valid) {st st' : CondState L S} (hs : CondSim H.n f st st') (p : ℕ)
    (lv : L) {v : ℕ} (hb : v ≤ H.root) : CondSim H.n f (eliminateBranch H p lv st v) (eliminateBranch H' p lv st' (onNodes H.n f v)) := by
  unfold eliminateBranch
  rw [h.n]
  by_cases hn : v < H.n
  · rw [if_pos hn, if_pos ((onNodes_lt hf v).2 hn)]
    refine ⟨hs.relabel, hs.ignore, hs.next, hs.ge, hs.rows.append ⟨?_, .refl _⟩⟩
    simp [anonRow, innerNode_onNodes hf]
  · rw [if_neg hn, onNodes_ge (by omega), if_neg hn, elim_foldl, elim_foldl]
    have hbf := h.bfs_ren hf hv (Nat.le_of_not_lt hn) hb
    refine ⟨hs.relabel, ?_, hs.next, hs.ge, hs.rows.append (hbf.sampleRows hf p lv)⟩
    have e : ∀ l : List ℕ, (l.filter fun u => decide (H.n ≤ u)) = (l.map (innerNode H.n)).filterMap id := by
      intro l
      induction l with
      | nil => rfl
      | cons u l ih =>
        by_cases hu : H.n ≤ u
        · simp [innerNode, hu, ih]
        · simp [innerNode, hu, ih]
    simp only
    rw [e, e, hbf.cols, hs.ignore]

end

section
variable [One S] [LinearOrder S] {f : Equiv.Perm ℕ} {H H' : Hier W S} {wt wt' : ℕ → S} {mcs : S}

omit [One S] [LinearOrder S] in
theorem HierRen.count (h : HierRen f H H') (hf : ∀ x, f x < H.n ↔ x < H.n) (hw : ∀ x, x < H.n → wt' (f x) = wt x) {v : ℕ} (hb : v ≤ H.root) :
    H'.count wt' (onNodes H.n f v) = H.count wt v := by
  unfold Hier.count
  rw [h.n]
  by_cases hn : H.n ≤ v
  · rw [onNodes_ge hn, if_pos hn, if_pos hn]
    have := H.root_eq
    exact h.s _ (by omega)
  · have hlt : v < H.n := by omega
    have e : onNodes H.n f v = f v := if_pos hlt
    rw [if_neg hn, e, if_neg (by have := (hf v).2 hlt; omega), hw v hlt]

theorem HierRen.step (h : HierRen f H H') (hf : ∀ x, f x < H.n ↔ x < H.n) (hv : H.Valid) (hw : ∀ x, x < H.n → wt' (f x) = wt x)
    (hl : ∀ x, x < H.n → wt x < mcs) (mx : Option S) (lam : W → L) {st st' : CondState L S} (hs : CondSim H.n f st st') {v : ℕ} (hn : H.n ≤ v)
    (hb : v ≤ H.root) : CondSim H.n f (condenseStep H wt mcs mx lam st v) (condenseStep H' wt' mcs mx lam st' v) := by
  have hre := H.root_eq
  have hi : v - H.n < H.m := by omega
  have hlt := hv.lt _ hi
  unfold condenseStep
  rw [h.n, hs.ignore]
  by_cases hig : st.ignore v ∨ v < H.n
  · rw [if_pos hig, if_pos hig]; exact hs
  rw [if_neg hig, if_neg hig]
  simp only [h.d _ hi, hs.relabel, hs.next]
  set a := H.l (v - H.n)
  set b := H.r (v - H.n)
  have hba : b ≤ H.root := by omega
  have haa : a ≤ H.root := by omega
  have hbig : ∀ {c}, mcs ≤ H.count wt c → H.n ≤ c := by
    intro c hc
    by_contra hlt'
    have hc' : c < H.n := by omega
    unfold Hier.count at hc
    rw [if_neg hlt'] at hc
    exact absurd (hl c hc') (not_lt.2 hc)
  rcases h.kids _ hi with ⟨h1, h2⟩ | ⟨h1, h2, h3, h4⟩
  · rw [h1, h2, h.count hf hw haa, h.count hf hw hba]
    simp only [onNodes_lt hf]
    change CondSim H.n f (if _ then _ else _) (if _ then _ else _)
    have q1 : ¬ (a < H.n ∧ mcs ≤ H.count wt b) := by
      rintro ⟨g1, g2⟩
      have := hbig g2
      omega
    rw [if_neg q1, if_neg q1]
    by_cases q2 : H.count wt a < mcs ∧ mcs ≤ H.count wt b
    · rw [if_pos q2, if_pos q2, onNodes_ge (hbig q2.2)]
      apply h.eliminate hf hv _ _ _ haa
      exact ⟨rfl, rfl, rfl, hs.ge, hs.rows⟩
    rw [if_neg q2, if_neg q2]
    by_cases q3 : mcs ≤ H.count wt a ∧ H.count wt b < mcs
    · rw [if_pos q3, if_pos q3, onNodes_ge (hbig q3.1)]
      apply h.eliminate hf hv _ _ _ hba
      exact ⟨rfl, rfl, rfl, hs.ge, hs.rows⟩
    rw [if_neg q3, if_neg q3]
    by_cases q4 : H.count wt a < mcs ∧ H.count wt b < mcs
    · rw [if_pos q4, if_pos q4]
      exact h.eliminate hf hv (h.eliminate hf hv hs _ _ haa) _ _ hba
    rw [if_neg q4, if_neg q4]
    have ga : mcs ≤ H.count wt a := by
      by_contra g
      rcases lt_or_ge (H.count wt b) mcs with g' | g'
      · exact q4 ⟨not_le.1 g, g'⟩
      · exact q2 ⟨not_le.1 g, g'⟩
    have gb : mcs ≤ H.count wt b := by
      by_contra g
      exact q3 ⟨ga, not_le.1 g⟩
    rw [onNodes_ge (hbig ga), onNodes_ge (hbig gb)]
    split
    · exact ⟨rfl, rfl, rfl, hs.ge, hs.rows⟩
    · refine ⟨rfl, rfl, rfl, by have := hs.ge; simp only; omega, hs.rows.append ⟨rfl, ?_⟩⟩
      have h5 := hs.ge
      simp only [List.map_cons, List.map_nil, renCRow]
      rw [onNodes_ge h5, onNodes_ge (by omega)]
  · change a < H.n at h1
    change b < H.n at h2
    have ea : onNodes H.n f a = f a := if_pos h1
    have eb : onNodes H.n f b = f b := if_pos h2
    have ha' := (hf a).2 h1
    have hb' := (hf b).2 h2
    have ca : H.count wt a < mcs := by unfold Hier.count; rw [if_neg (by omega)]; exact hl a h1
    have cb : H.count wt b < mcs := by unfold Hier.count; rw [if_neg (by omega)]; exact hl b h2
    have ca' := h.count hf hw haa
    have cb' := h.count hf hw hba
    rw [ea] at ca'
    rw [eb] at cb'
    change H'.l (v - H.n) = f b at h3
    change H'.r (v - H.n) = f a at h4
    rw [h3, h4, ca', cb']
    rw [if_neg (fun g => absurd cb (not_lt.2 g.2)), if_neg (fun g => absurd cb (not_lt.2 g.2)), if_neg (fun g => absurd ca (not_lt.2 g.1)),
      if_pos ⟨ca, cb⟩, if_neg (fun g => absurd ca (not_lt.2 g.2)), if_neg (fun g => absurd ca (not_lt.2 g.2)),
      if_neg (fun g => absurd cb (not_lt.2 g.1)), if_pos ⟨cb, ca⟩]
    unfold eliminateBranch
    rw [h.n]
    simp only [h1, h2, ha', hb', if_true]
    refine ⟨hs.relabel, hs.ignore, hs.next, hs.ge, ?_⟩
    simp only [List.append_assoc]
    refine hs.rows.append ⟨?_, ?_⟩
    · simp [anonRow, innerNode, Nat.not_le.2 h1, Nat.not_le.2 h2, Nat.not_le.2 ha', Nat.not_le.2 hb']
    · simp only [List.cons_append, List.nil_append, List.map_cons, List.map_nil, renCRow, ea, eb]
      exact List.Perm.swap _ _ _

/-- The loop only looks at inner nodes. -/
theorem condense_foldl_inner (H : Hier W S) (wt : ℕ → S) (mcs : S) (mx : Option S) (lam : W → L) (l : List ℕ) (st : CondState L S) :
    l.foldl (condenseStep H wt mcs mx lam) st = ((l.map (innerNode H.n)).filterMap id).foldl (condenseStep H wt mcs mx lam) st := by
  induction l generalizing st with
  | nil => rfl
  | cons v l ih =>
    by_cases hv : H.n ≤ v
    · simp [innerNode, hv, ih]
    · have : condenseStep H wt mcs mx lam st v = st := by
        unfold condenseStep
        rw [if_pos (Or.inr (by omega))]
      simp [innerNode, hv, ih, this]

/-- `condense_tree` on a hierarchy with renamed samples. -/
theorem HierRen.condense (h : HierRen f H H') (hf : ∀ x, f x < H.n ↔ x < H.n) (hv : H.Valid) (hm : 0 < H.m) (hw : ∀ x, x < H.n → wt' (f x) = wt x)
    (hl : ∀ x, x < H.n → wt x < mcs) (mx : Option S) (lam : W → L) :
    RowsRen H.n f (condenseTree H wt mcs mx lam) (condenseTree H' wt' mcs mx lam) := by
  have hre := H.root_eq
  have hroot : H'.root = H.root := by unfold Hier.root; rw [h.m]
  have hb := h.bfs_ren hf hv (v := H.root) (by omega) le_rfl
  unfold condenseTree
  rw [condense_foldl_inner H, condense_foldl_inner H', hroot, h.n, hb.cols]
  have hmem : ∀ v ∈ ((H.bfs H.root).map (innerNode H.n)).filterMap id, H.n ≤ v ∧ v ≤ H.root := by
    intro v hv'
    rw [List.filterMap_map, List.mem_filterMap] at hv'
    obtain ⟨u, hu, he⟩ := hv'
    simp only [Function.comp, id, innerNode] at he
    split at he
    · next hn =>
      cases he
      exact ⟨hn, (Hier.mem_bfs hv le_rfl |>.1 hu).le hv⟩
    · cases he
  have key : ∀ (l : List ℕ), (∀ v ∈ l, H.n ≤ v ∧ v ≤ H.root) → ∀ {st st' : CondState L S}, CondSim H.n f st st' →
      CondSim H.n f (l.foldl (condenseStep H wt mcs mx lam) st) (l.foldl (condenseStep H' wt' mcs mx lam) st') := by
    intro l
    induction l with
    | nil => exact fun _ _ _ hs => hs
    | cons v l ih =>
      intro hl' st st' hs
      exact ih (fun w hw => hl' w (by simp [hw])) (h.step hf hv hw hl mx lam hs (hl' v (by simp)).1 (hl' v (by simp)).2)
  have h0 : CondSim H.n f (condenseInit H : CondState L S) (condenseInit H') := by
    refine ⟨?_, rfl, ?_, ?_, .nil⟩
    · simp [condenseInit, hroot, h.n]
    · simp [condenseInit, h.n]
    · simp [condenseInit]
  exact (key _ hmem h0).rows

end
end Verif
