import Verif.Lemmas.SimplifyTree

/-!
# The rows that `simplify_hierarchy` returns form a condensed tree
-/

namespace Verif
variable {L S : Type*}

/-- New number of a cluster. -/
def newId (n : ℕ) (g : ℕ → ℕ) (i : ℕ) : ℕ := n + keptBelow n g (g i)

/-- A row that stays, rewritten. -/
def newRow (n : ℕ) (g : ℕ → ℕ) (F : SimpState L) (row : CRow L S) : CRow L S :=
  ⟨newId n g row.parent, if n ≤ row.child then newId n g row.child else row.child, (F.lmap row.parent).getD row.lam, row.size⟩

/-- The rows returned. -/
def simpOut (n : ℕ) (g : ℕ → ℕ) (F : SimpState L) (rows : List (CRow L S)) : List (CRow L S) :=
  rows.filterMap fun row => if row.child < n ∨ g row.child = row.child then some (newRow n g F row) else none

theorem mem_simpOut {n : ℕ} {g : ℕ → ℕ} {F : SimpState L} {rows : List (CRow L S)} {row' : CRow L S} :
    row' ∈ simpOut n g F rows ↔ ∃ row ∈ rows, (row.child < n ∨ g row.child = row.child) ∧ row' = newRow n g F row := by
  unfold simpOut
  rw [List.mem_filterMap]
  constructor
  · rintro ⟨row, hr, he⟩
    split at he
    · rename_i h; cases he; exact ⟨row, hr, h, rfl⟩
    · cases he
  · rintro ⟨row, hr, h, rfl⟩
    exact ⟨row, hr, if_pos h⟩

theorem simpOut_children (n : ℕ) (g : ℕ → ℕ) (F : SimpState L) (rows : List (CRow L S)) :
    (simpOut n g F rows).map CRow.child = (rows.map CRow.child).filterMap fun c =>
      if c < n ∨ g c = c then some (if n ≤ c then newId n g c else c) else none := by
  unfold simpOut
  rw [List.map_filterMap, List.filterMap_map]
  refine List.filterMap_congr fun row _ => ?_
  simp only [Function.comp]
  split <;> rfl

theorem filter_children (n : ℕ) (g : ℕ → ℕ) (l : List ℕ) :
    (l.filterMap fun c => if c < n ∨ g c = c then some (if n ≤ c then newId n g c else c) else none).filter (fun c => decide (n ≤ c)) =
      ((l.filter fun c => decide (n ≤ c)).filter fun c => decide (g c = c)).map (newId n g) := by
  induction l with
  | nil => rfl
  | cons c l ih =>
    rw [List.filterMap_cons]
    by_cases hn : n ≤ c
    · by_cases hg : g c = c
      · have : n ≤ newId n g c := by unfold newId; omega
        simp [hn, hg, ih, this]
      · simp only [not_lt.2 hn, hg, or_self, if_false, ih]
        simp [hn, hg]
    · simp only [lt_of_not_ge hn, true_or, if_true, hn, if_false, List.filter_cons, ih, decide_false]
      simp

/-- Order as a statement about prefixes. -/
theorem CondTree.order_prefix {n k : ℕ} {rows : List (CRow L S)} (h : CondTree n k rows) {pre post : List (CRow L S)} {row : CRow L S}
    (he : rows = pre ++ row :: post) : row.parent = n ∨ ∃ row' ∈ pre, row'.child = row.parent := by
  rcases h.order pre.length row (by rw [he]; simp) with h1 | ⟨j, row', hj, h1, h2⟩
  · exact Or.inl h1
  · refine Or.inr ⟨row', ?_, h2⟩
    rw [he, List.getElem?_append_left hj] at h1
    exact List.mem_of_getElem? h1

theorem order_of_prefix {n : ℕ} {rows : List (CRow L S)}
    (h : ∀ pre row post, rows = pre ++ row :: post → row.parent = n ∨ ∃ row' ∈ pre, row'.child = row.parent) :
    ∀ (i : ℕ) (row : CRow L S), rows[i]? = some row →
      row.parent = n ∨ ∃ (j : ℕ) (row' : CRow L S), j < i ∧ rows[j]? = some row' ∧ row'.child = row.parent := by
  intro i row hi
  obtain ⟨hlt, he⟩ := List.getElem?_eq_some_iff.1 hi
  have hs : rows = rows.take i ++ row :: rows.drop (i + 1) := by
    rw [← he, ← List.drop_eq_getElem_cons hlt, List.take_append_drop]
  rcases h _ _ _ hs with h1 | ⟨row', h1, h2⟩
  · exact Or.inl h1
  · obtain ⟨j, hj, hje⟩ := List.getElem_of_mem h1
    rw [List.length_take] at hj
    refine Or.inr ⟨j, row', by omega, ?_, h2⟩
    rw [← hje, List.getElem_take]
    exact List.getElem?_eq_getElem (by omega)

section
variable [AddCommGroup L] [LinearOrder L] [IsOrderedAddMonoid L] {thr : L} {n k : ℕ} {rows : List (CRow L S)} {ps : List (CPair L S)}
  {I F : SimpState L} {g : ℕ → ℕ}

/-- `g` maps every cluster to the nearest one above that stays. -/
def IsRep (n k : ℕ) (F : SimpState L) (g : ℕ → ℕ) : Prop := ∀ i, n ≤ i → i < n + k → g i = if F.pmap i = i then i else g (F.pmap i)

theorem SimpCtx.rep_top (h : SimpCtx thr n k rows ps I F) (hg : IsRep n k F g) : g n = n := by
  rw [hg n (le_refl _) (by have := h.ct.pos; omega), if_pos h.pmap_top.1]

theorem SimpCtx.newId_top (h : SimpCtx thr n k rows ps I F) (hg : IsRep n k F g) : newId n g n = n := by
  unfold newId; rw [h.rep_top hg]; simp [keptBelow]

theorem SimpCtx.rep_rep (h : SimpCtx thr n k rows ps I F) (hg : IsRep n k F g) {d : ℕ} (h1 : n ≤ d) (h2 : d < n + k) : g (g d) = g d := by
  obtain ⟨g1, g2, g3, _⟩ := h.rep hg d h1 h2
  exact (h.rep_fix hg g1 (by omega)).2 g3

theorem SimpCtx.newId_lt (h : SimpCtx thr n k rows ps I F) (hg : IsRep n k F g) {d : ℕ} (h1 : n ≤ d) (h2 : d < n + k) :
    newId n g d < n + keptBelow n g (n + k) := by
  obtain ⟨g1, g2, _⟩ := h.rep hg d h1 h2
  have := keptBelow_lt (n := n) (g := g) (e := g d) (f := n + k) g1 (h.rep_rep hg h1 h2) (by omega)
  unfold newId; omega

theorem SimpCtx.newId_inj (h : SimpCtx thr n k rows ps I F) (hg : IsRep n k F g) {c d : ℕ} (h1 : n ≤ c) (h2 : c < n + k) (h3 : n ≤ d)
    (h4 : d < n + k) (he : newId n g c = newId n g d) : g c = g d := by
  obtain ⟨g1, _⟩ := h.rep hg c h1 h2
  obtain ⟨g2, _⟩ := h.rep hg d h3 h4
  unfold newId at he
  exact keptBelow_inj g1 g2 (h.rep_rep hg h1 h2) (h.rep_rep hg h3 h4) (by omega)

/-- Every new number is that of a cluster that stays. -/
theorem SimpCtx.newId_surj (h : SimpCtx thr n k rows ps I F) {v : ℕ} (h1 : n ≤ v) (h2 : v < n + keptBelow n g (n + k)) :
    ∃ e, n ≤ e ∧ e < n + k ∧ g e = e ∧ newId n g e = v := by
  have : v ∈ List.range' n (keptBelow n g (n + k)) := List.mem_range'_1.2 ⟨h1, h2⟩
  rw [← keptBelow_range] at this
  obtain ⟨e, he, rfl⟩ := List.mem_map.1 this
  obtain ⟨he1, he2⟩ := List.mem_filter.1 he
  have he2 := of_decide_eq_true he2
  rw [List.mem_range'_1] at he1
  exact ⟨e, he1.1, he1.2, he2, by unfold newId; rw [he2]⟩

theorem SimpCtx.child_range (h : SimpCtx thr n k rows ps I F) {row : CRow L S} (hr : row ∈ rows) (hc : n ≤ row.child) : n < row.child ∧ row.child < n + k := by
  have := (h.ct.children row.child).1 (List.mem_map_of_mem hr)
  omega

theorem SimpCtx.keptBelow_pos (h : SimpCtx thr n k rows ps I F) (hg : IsRep n k F g) : 0 < keptBelow n g (n + k) := by
  have := h.newId_lt hg (le_refl n) (by have := h.ct.pos; omega)
  rw [h.newId_top hg] at this
  omega

theorem SimpCtx.out_condTree (h : SimpCtx thr n k rows ps I F) (hg : IsRep n k F g) :
    CondTree n (keptBelow n g (n + k)) (simpOut n g F rows) := by
  have hpos := h.ct.pos
  have hasc : ((simpOut n g F rows).map CRow.child).filter (fun c => decide (n ≤ c)) = List.range' (n + 1) (keptBelow n g (n + k) - 1) := by
    rw [simpOut_children, filter_children, h.ct.asc]
    have hk := keptBelow_range n g k
    have hcons : List.range' n k = n :: List.range' (n + 1) (k - 1) := by
      obtain ⟨k', rfl⟩ : ∃ k', k = k' + 1 := ⟨k - 1, by omega⟩
      rw [List.range'_succ]; rfl
    rw [hcons, List.filter_cons, if_pos (by simpa using h.rep_top hg), List.map_cons] at hk
    have hkp := h.keptBelow_pos hg
    obtain ⟨m, hm⟩ : ∃ m, keptBelow n g (n + k) = m + 1 := ⟨keptBelow n g (n + k) - 1, by omega⟩
    rw [hm, List.range'_succ, List.cons.injEq] at hk
    rw [hm, Nat.add_sub_cancel, ← hk.2]
    refine List.map_congr_left fun e he => ?_
    have := of_decide_eq_true (List.mem_filter.1 he).2
    unfold newId; rw [this]
  refine ⟨h.keptBelow_pos hg, ?_, fun c => ?_, hasc, fun row' hr' => ?_, fun row' hr' hc' => ?_, order_of_prefix fun pre row' post he => ?_⟩
  · rw [simpOut_children]
    have hnd := h.ct.nodup
    have hch := h.ct.children
    -- injective on the children that stay
    have key : ∀ l : List ℕ, (∀ c ∈ l, c ∈ rows.map CRow.child) → l.Nodup → (l.filterMap fun c =>
        if c < n ∨ g c = c then some (if n ≤ c then newId n g c else c) else none).Nodup := by
      intro l hl hnd
      induction l with
      | nil => exact List.nodup_nil
      | cons c l ih =>
        obtain ⟨hcl, hnd'⟩ := List.nodup_cons.1 hnd
        have ih' := ih (fun d hd => hl d (by simp [hd])) hnd'
        rw [List.filterMap_cons]
        split
        · exact ih'
        · rename_i v hv
          refine List.nodup_cons.2 ⟨fun hmem => ?_, ih'⟩
          obtain ⟨d, hd, hdv⟩ := List.mem_filterMap.1 hmem
          split at hv
          · rename_i hcs
            split at hdv
            · rename_i hds
              rw [Option.some.injEq] at hv hdv
              have hc1 := (hch c).1 (hl c (by simp))
              have hd1 := (hch d).1 (hl d (by simp [hd]))
              have hge : ∀ i, n ≤ newId n g i := fun i => by unfold newId; omega
              apply hcl
              have : c = d := by
                by_cases hcn : n ≤ c
                · rw [if_pos hcn] at hv
                  by_cases hdn : n ≤ d
                  · rw [if_pos hdn] at hdv
                    have := h.newId_inj hg hcn (by omega) hdn (by omega) (by omega)
                    have e1 := hcs.resolve_left (by omega)
                    have e2 := hds.resolve_left (by omega)
                    omega
                  · rw [if_neg hdn] at hdv
                    have := hge c
                    omega
                · rw [if_neg hcn] at hv
                  by_cases hdn : n ≤ d
                  · rw [if_pos hdn] at hdv
                    have := hge d
                    omega
                  · rw [if_neg hdn] at hdv
                    omega
              rw [this]; exact hd
            · cases hdv
          · cases hv
    exact key _ (fun c hc => hc) hnd
  · by_cases hcn : c < n
    · refine ⟨fun _ => Or.inl hcn, fun _ => ?_⟩
      obtain ⟨row, hr, rfl⟩ := List.mem_map.1 ((h.ct.children c).2 (Or.inl hcn))
      refine List.mem_map.2 ⟨newRow n g F row, mem_simpOut.2 ⟨row, hr, Or.inl hcn, rfl⟩, ?_⟩
      simp only [newRow]
      rw [if_neg (by omega)]
    · have : c ∈ (simpOut n g F rows).map CRow.child ↔ c ∈ ((simpOut n g F rows).map CRow.child).filter (fun c => decide (n ≤ c)) := by
        rw [List.mem_filter]
        exact ⟨fun hc => ⟨hc, decide_eq_true (by omega)⟩, fun hc => hc.1⟩
      rw [this, hasc, List.mem_range'_1]
      have := h.keptBelow_pos hg
      omega
  · obtain ⟨row, hr, _, rfl⟩ := mem_simpOut.1 hr'
    obtain ⟨p1, p2⟩ := h.ct.parents row hr
    refine ⟨?_, h.newId_lt hg p1 p2⟩
    simp only [newRow, newId]; omega
  · obtain ⟨row, hr, hs, rfl⟩ := mem_simpOut.1 hr'
    obtain ⟨p1, p2⟩ := h.ct.parents row hr
    by_cases hcn : n ≤ row.child
    · have hsg := hs.resolve_left (by omega)
      have hd := h.ct.down row hr hcn
      obtain ⟨g1, g2, _⟩ := h.rep hg row.parent p1 p2
      simp only [newRow, newId]
      rw [if_pos hcn, hsg]
      have := keptBelow_lt (n := n) (g := g) (e := g row.parent) (f := row.child) g1 (h.rep_rep hg p1 p2) (by omega)
      omega
    · simp only [newRow] at hc'
      rw [if_neg hcn] at hc'
      omega
  · -- a cluster's own row comes first
    unfold simpOut at he
    rw [List.filterMap_eq_append_iff] at he
    obtain ⟨l1, l2, e1, e2, e3⟩ := he
    rw [List.filterMap_eq_cons_iff] at e3
    obtain ⟨l3, row, l4, e4, e5, e6, _⟩ := e3
    have hrows : rows = (l1 ++ l3) ++ row :: l4 := by rw [e1, e4]; simp
    split at e6
    · rename_i hs
      cases e6
      have hr : row ∈ rows := by rw [hrows]; simp
      obtain ⟨p1, p2⟩ := h.ct.parents row hr
      -- going up, the row of the nearest staying cluster precedes
      have key : ∀ m (pre : List (CRow L S)) r post, rows = pre ++ r :: post → r.parent ≤ m → n ≤ r.parent → r.parent < n + k →
          g r.parent = n ∨ ∃ r' ∈ pre, r'.child = g r.parent := by
        intro m
        induction m with
        | zero =>
          intro pre r post _ h1 h2 h3
          left
          have : r.parent = n := by omega
          rw [this]; exact h.rep_top hg
        | succ m ih =>
          intro pre r post hpre h1 h2 h3
          rcases h.ct.order_prefix hpre with h4 | ⟨r', hr', h4⟩
          · left; rw [h4]; exact h.rep_top hg
          · rw [hg r.parent h2 h3]
            split
            · exact Or.inr ⟨r', hr', h4⟩
            · rename_i hne
              obtain ⟨pre1, post1, hs1⟩ := List.append_of_mem hr'
              have hr'm : r' ∈ rows := by rw [hpre]; simp [hr']
              have hnr : n ≤ r'.child := by omega
              have hpm : F.pmap r.parent = r'.parent := by
                rcases h.pmap_cases r.parent with h5 | ⟨q, hq, hc, _, h5⟩
                · exact absurd h5 hne
                · obtain ⟨q', hq', he'⟩ := h.child_pair hr'm hnr
                  have hc' : r.parent = q'.a ∨ r.parent = q'.a + 1 := by
                    rw [← h4]
                    rcases he' with rfl | rfl
                    · exact Or.inl rfl
                    · exact Or.inr rfl
                  rw [h.pl.unique_a hq hq' hc hc'] at h5
                  rw [h5]
                  rcases he' with rfl | rfl <;> rfl
              rw [hpm]
              have hd := h.ct.down r' hr'm hnr
              obtain ⟨p1', p2'⟩ := h.ct.parents r' hr'm
              rcases ih pre1 r' (post1 ++ r :: post) (by rw [hpre, hs1]; simp) (by omega) p1' p2' with h6 | ⟨r'', h6, h7⟩
              · exact Or.inl h6
              · exact Or.inr ⟨r'', by rw [hs1]; simp [h6], h7⟩
      rcases key row.parent _ row _ hrows (le_refl _) p1 p2 with h1 | ⟨r', h1, h2⟩
      · left
        simp only [newRow, newId]
        rw [h1]; simp [keptBelow]
      · right
        have hr'm : r' ∈ rows := by rw [hrows]; exact List.mem_append_left _ h1
        obtain ⟨g1, g2, _⟩ := h.rep hg row.parent p1 p2
        have hrr := h.rep_rep hg p1 p2
        refine ⟨newRow n g F r', ?_, ?_⟩
        · rcases List.mem_append.1 h1 with h3 | h3
          · rw [← e2]
            exact List.mem_filterMap.2 ⟨r', h3, if_pos (Or.inr (by rw [h2]; exact hrr))⟩
          · have := e5 r' h3
            rw [if_pos (Or.inr (by rw [h2]; exact hrr))] at this
            cases this
        · simp only [newRow, newId]
          rw [if_pos (by omega), h2, hrr]
    · cases e6

/-- Samples below a cluster that stays are the same as before. -/
theorem SimpCtx.desc_out (h : SimpCtx thr n k rows ps I F) (hg : IsRep n k F g) {c d : ℕ} (h1 : n ≤ c) (h2 : c < n + k) (hc : g c = c)
    (hs : CDesc rows c d) (hd : n ≤ d) : d < n + k ∧ CDesc (simpOut n g F rows) (newId n g c) (newId n g d) := by
  induction hs with
  | refl => exact ⟨h2, .refl⟩
  | tail _ hs ih =>
    obtain ⟨row, hr, rfl, rfl⟩ := hs
    obtain ⟨p1, p2⟩ := h.ct.parents row hr
    obtain ⟨_, ih⟩ := ih p1
    have hcr := h.child_range hr hd
    refine ⟨hcr.2, ?_⟩
    by_cases hgc : g row.child = row.child
    · refine ih.tail ⟨newRow n g F row, mem_simpOut.2 ⟨row, hr, Or.inr hgc, rfl⟩, rfl, ?_⟩
      simp only [newRow]; rw [if_pos hd]
    · have hpm : F.pmap row.child ≠ row.child := fun he => hgc ((h.rep_fix hg hd hcr.2).2 he)
      rcases h.pmap_cases row.child with h5 | ⟨q, hq, hc', _, h5⟩
      · exact absurd h5 hpm
      · obtain ⟨q', hq', he'⟩ := h.child_pair hr hd
        have hc'' : row.child = q'.a ∨ row.child = q'.a + 1 := by
          rcases he' with rfl | rfl
          · exact Or.inl rfl
          · exact Or.inr rfl
        rw [h.pl.unique_a hq hq' hc' hc''] at h5
        have hp : q'.p = row.parent := by rcases he' with rfl | rfl <;> rfl
        have : g row.child = g row.parent := by
          rw [hg row.child hd hcr.2, if_neg hpm, h5, hp]
        have e : newId n g row.child = newId n g row.parent := by unfold newId; rw [this]
        rw [e]; exact ih

theorem SimpCtx.desc_in (h : SimpCtx thr n k rows ps I F) (hg : IsRep n k F g) {c y : ℕ} (h1 : n ≤ c) (h2 : c < n + k) (hc : g c = c)
    (hs : CDesc (simpOut n g F rows) (newId n g c) y) :
    (y < n → CDesc rows c y) ∧ (n ≤ y → ∃ e, n ≤ e ∧ e < n + k ∧ g e = e ∧ newId n g e = y ∧ CDesc rows c e) := by
  induction hs with
  | refl =>
    refine ⟨fun hy => ?_, fun _ => ⟨c, h1, h2, hc, rfl, .refl⟩⟩
    unfold newId at hy; omega
  | tail _ hs ih =>
    obtain ⟨row', hr', rfl, rfl⟩ := hs
    obtain ⟨row, hr, hst, rfl⟩ := mem_simpOut.1 hr'
    obtain ⟨p1, p2⟩ := h.ct.parents row hr
    have hge : n ≤ newId n g row.parent := by unfold newId; omega
    obtain ⟨e, e1, e2, e3, e4, e5⟩ := ih.2 hge
    have he := h.newId_inj hg e1 e2 p1 p2 e4
    rw [e3] at he
    have hch := (h.rep hg row.parent p1 p2).2.2.2
    rw [← he] at hch
    have hfull : CDesc rows c row.child := (e5.trans (h.mchain_desc hch)).tail ⟨row, hr, rfl, rfl⟩
    simp only [newRow]
    by_cases hcn : n ≤ row.child
    · rw [if_pos hcn]
      refine ⟨fun hy => ?_, fun _ => ⟨row.child, hcn, (h.child_range hr hcn).2, hst.resolve_left (by omega), rfl, hfull⟩⟩
      unfold newId at hy; omega
    · rw [if_neg hcn]
      exact ⟨fun _ => hfull, fun hy => absurd hy hcn⟩

theorem SimpCtx.samples_out (h : SimpCtx thr n k rows ps I F) (hg : IsRep n k F g) {c x : ℕ} (h1 : n ≤ c) (h2 : c < n + k) (hc : g c = c)
    (hx : x < n) : CDesc (simpOut n g F rows) (newId n g c) x ↔ CDesc rows c x := by
  refine ⟨fun hs => (h.desc_in hg h1 h2 hc hs).1 hx, fun hs => ?_⟩
  rcases Relation.ReflTransGen.cases_tail hs with h3 | ⟨d, h3, row, hr, h4, h5⟩
  · omega
  · have hp := (h.ct.parents row hr).1
    obtain ⟨_, h6⟩ := h.desc_out hg h1 h2 hc h3 (by omega)
    refine h6.tail ⟨newRow n g F row, mem_simpOut.2 ⟨row, hr, Or.inl (by omega), rfl⟩, ?_, ?_⟩
    · simp only [newRow]; rw [h4]
    · simp only [newRow]; rw [if_neg (by omega), h5]

/-- A cluster row that stays keeps its lambda and comes from a pair that persists. -/
theorem SimpCtx.kept_row (h : SimpCtx thr n k rows ps I F) (hg : IsRep n k F g) {row : CRow L S} (hr : row ∈ rows) (hc : n ≤ row.child)
    (hst : g row.child = row.child) : ∃ q ∈ ps, PairKept thr F q ∧ (row = q.r1 ∨ row = q.r2) ∧ F.lmap row.parent = none ∧ F.lmap row.child = none := by
  obtain ⟨q, hq, he⟩ := h.child_pair hr hc
  have hcr := h.child_range hr hc
  have hc' : row.child = q.a ∨ row.child = q.a + 1 := by
    rcases he with rfl | rfl
    · exact Or.inl rfl
    · exact Or.inr rfl
  have hp : q.p = row.parent := by rcases he with rfl | rfl <;> rfl
  have hk : PairKept thr F q := by
    by_contra hk
    have h1 := (h.pmap_child hq hc').2 hk
    have h2 := (h.rep_fix hg hc hcr.2).1 hst
    have := h.pl.par q hq
    omega
  refine ⟨q, hq, hk, he, ?_, ?_⟩
  · cases hl : F.lmap row.parent with
    | none => rfl
    | some lv =>
      obtain ⟨_, _, _, _, _, hleaf⟩ := h.lmap_some hl
      exact absurd (show MChain F row.parent q.p by rw [hp]; exact .refl) ((h.leaf_spec row.parent).1 hleaf q hq hk)
  · obtain ⟨_, _, _, k4, k5⟩ := h.fx.kept q hq hk
    rcases hc' with e | e <;> rw [e] <;> assumption

/-- Every cluster below the top one persists. -/
theorem SimpCtx.out_persists (h : SimpCtx thr n k rows ps I F) (hg : IsRep n k F g) {row' : CRow L S} (hr' : row' ∈ simpOut n g F rows)
    (hc' : n ≤ row'.child) : Persists n (simpOut n g F rows) thr row' := by
  obtain ⟨row, hr, hst, rfl⟩ := mem_simpOut.1 hr'
  have hcn : n ≤ row.child := by
    by_contra hn
    simp only [newRow] at hc'
    rw [if_neg hn] at hc'
    exact hn hc'
  have hst := hst.resolve_left (by omega)
  obtain ⟨q, hq, hk, he, hl1, hl2⟩ := h.kept_row hg hr hcn hst
  have hcr := h.child_range hr hcn
  obtain ⟨s, s1, s2, s3, s4, s5⟩ := h.attained row.child hcn hcr.2
  have hsp := h.ct.parents s s1
  have hls : F.lmap s.parent = none := by
    rcases s5 with s5 | s5
    · rw [s5]; exact hl2
    · exact s5
  refine ⟨newRow n g F s, mem_simpOut.2 ⟨s, s1, Or.inl s2, rfl⟩, ?_, ?_, ?_⟩
  · simp only [newRow]; rw [if_neg (by omega)]; exact s2
  · simp only [newRow]; rw [if_pos hcn]
    exact (h.desc_out hg hcn hcr.2 hst s3 hsp.1).2
  · simp only [newRow]
    rw [hls, hl1, Option.getD_none, Option.getD_none, s4]
    refine hk.trans ?_
    rcases he with rfl | rfl
    · exact sub_le_sub_right (min_le_left _ _) _
    · exact sub_le_sub_right (min_le_right _ _) _

theorem SimpCtx.out_mono (h : SimpCtx thr n k rows ps I F) (hg : IsRep n k F g) : CMono (simpOut n g F rows) := by
  intro r1 hr1 r2 hr2 he
  obtain ⟨row, hr, hst, rfl⟩ := mem_simpOut.1 hr1
  obtain ⟨row', hr', _, rfl⟩ := mem_simpOut.1 hr2
  obtain ⟨p1, p2⟩ := h.ct.parents row' hr'
  simp only [newRow] at he ⊢
  have hcn : n ≤ row.child := by
    by_contra hn
    rw [if_neg hn] at he
    unfold newId at he; omega
  rw [if_pos hcn] at he
  have hst := hst.resolve_left (by omega)
  have hcr := h.child_range hr hcn
  obtain ⟨q, hq, hk, hqe, hl1, hl2⟩ := h.kept_row hg hr hcn hst
  rw [hl1, Option.getD_none]
  have hgp := h.newId_inj hg p1 p2 hcn hcr.2 he
  rw [hst] at hgp
  have hch := (h.rep hg row'.parent p1 p2).2.2.2
  rw [hgp] at hch
  cases hl : F.lmap row'.parent with
  | none => exact h.mono.desc (h.mchain_desc hch) hr rfl hr' rfl
  | some lv =>
    rw [Option.getD_some]
    obtain ⟨q', hq', _, hc', rfl, _⟩ := h.lmap_some hl
    rcases Relation.ReflTransGen.cases_tail hch with h3 | ⟨x, h3, h4⟩
    · rw [h3, hl2] at hl; cases hl
    · obtain ⟨q'', hq'', hp'', hc'', _⟩ := h.mstep h4
      rw [h.pl.unique_a hq'' hq' hc'' hc'] at hp''
      exact h.mono.desc (h.mchain_desc h3) hr rfl (h.pair_mem hq').1 hp''

/-- Clusters are merged in pairs, so that the numbering keeps its parity. -/
theorem SimpCtx.keptBelow_odd (h : SimpCtx thr n k rows ps I F) (hg : IsRep n k F g) (j : ℕ) (hj : n + 1 + 2 * j ≤ n + k) :
    keptBelow n g (n + 1 + 2 * j) % 2 = 1 := by
  induction j with
  | zero =>
    rw [show n + 1 + 2 * 0 = n + 1 by omega, keptBelow_succ (le_refl n), if_pos (h.rep_top hg)]
    simp [keptBelow]
  | succ j ih =>
    have ih := ih (by omega)
    rw [show n + 1 + 2 * (j + 1) = n + 1 + 2 * j + 1 + 1 by omega, keptBelow_succ (by omega), keptBelow_succ (by omega)]
    obtain ⟨q, hq, hc⟩ := h.pair_of (c := n + 1 + 2 * j) (by omega) (by omega)
    have hodd := h.pl.odd q hq
    have hpar := h.pl.par q hq
    have hqa : q.a = n + 1 + 2 * j := by omega
    have e : g (n + 1 + 2 * j) = n + 1 + 2 * j ↔ g (n + 1 + 2 * j + 1) = n + 1 + 2 * j + 1 := by
      rw [h.rep_fix hg (by omega) (by omega), h.rep_fix hg (by omega) (by omega), ← hqa]
      by_cases hk : PairKept thr F q
      · simp [(h.pmap_child hq (Or.inl rfl)).1 hk, (h.pmap_child hq (Or.inr rfl)).1 hk]
      · rw [(h.pmap_child hq (Or.inl rfl)).2 hk, (h.pmap_child hq (Or.inr rfl)).2 hk]
        omega
    by_cases hk : g (n + 1 + 2 * j) = n + 1 + 2 * j
    · rw [if_pos hk, if_pos (e.1 hk)]; omega
    · rw [if_neg hk, if_neg fun h' => hk (e.2 h')]; omega

theorem SimpCtx.out_binary (h : SimpCtx thr n k rows ps I F) (hg : IsRep n k F g) : CBinary n (keptBelow n g (n + k)) (simpOut n g F rows) := by
  intro c' hc1 hc2
  obtain ⟨e, e1, e2, e3, rfl⟩ := h.newId_surj hc1 hc2
  have hls := h.leaf_spec e
  -- the rows of child clusters below `e`
  have hmem : ∀ r ∈ simpOut n g F rows, n ≤ r.child → r.parent = newId n g e → ∃ q ∈ ps, PairKept thr F q ∧ MChain F e q.p ∧
      (r = newRow n g F q.r1 ∨ r = newRow n g F q.r2) := by
    intro r hr hrc hrp
    obtain ⟨row, hrow, hst, rfl⟩ := mem_simpOut.1 hr
    have hcn : n ≤ row.child := by
      by_contra hn
      simp only [newRow] at hrc
      rw [if_neg hn] at hrc
      exact hn hrc
    have hst := hst.resolve_left (by omega)
    obtain ⟨q, hq, hk, hqe, _⟩ := h.kept_row hg hrow hcn hst
    obtain ⟨p1, p2⟩ := h.ct.parents row hrow
    have hgp := h.newId_inj hg p1 p2 e1 e2 hrp
    rw [e3] at hgp
    have hch := (h.rep hg row.parent p1 p2).2.2.2
    rw [hgp] at hch
    have hp : q.p = row.parent := by rcases hqe with rfl | rfl <;> rfl
    exact ⟨q, hq, hk, by rw [hp]; exact hch, by rcases hqe with rfl | rfl <;> simp⟩
  cases hleaf : F.leaf e with
  | true =>
    left
    rw [List.filter_eq_nil_iff]
    intro r hr hd
    obtain ⟨hrc, hrp⟩ := of_decide_eq_true hd
    obtain ⟨q, hq, hk, hch, _⟩ := hmem r hr hrc hrp
    exact hls.1 hleaf q hq hk hch
  | false =>
    right
    obtain ⟨q, hq, hk, hch, huniq⟩ := hls.2 hleaf
    obtain ⟨p1, p2, p3⟩ := h.pl.par q hq
    have hodd := h.pl.odd q hq
    have ga : g q.a = q.a := (h.rep_fix hg (by omega) (by omega)).2 ((h.pmap_child hq (Or.inl rfl)).1 hk)
    have ga1 : g (q.a + 1) = q.a + 1 := (h.rep_fix hg (by omega) (by omega)).2 ((h.pmap_child hq (Or.inr rfl)).1 hk)
    have hrep := h.rep_eq hg e1 e2 e3 hch
    have hid : newId n g q.p = newId n g e := by unfold newId; rw [hrep.2.2, e3]
    have hid1 : newId n g (q.a + 1) = newId n g q.a + 1 := by
      unfold newId; rw [ga, ga1, keptBelow_succ (by omega), if_pos ga]; omega
    have f1 : newRow n g F q.r1 = ⟨newId n g e, newId n g q.a, (F.lmap q.p).getD q.lv, q.s⟩ := by
      have h0 : n ≤ q.r1.child := by simp only [CPair.r1]; omega
      unfold newRow
      rw [if_pos h0]
      simp only [CPair.r1, hid]
    have f2 : newRow n g F q.r2 = ⟨newId n g e, newId n g q.a + 1, (F.lmap q.p).getD q.lv, q.t⟩ := by
      have h0 : n ≤ q.r2.child := by simp only [CPair.r2]; omega
      unfold newRow
      rw [if_pos h0]
      simp only [CPair.r2, hid, hid1]
    refine ⟨newId n g q.a, (F.lmap q.p).getD q.lv, q.s, q.t, ?_, ?_⟩
    · have := h.keptBelow_odd hg ((q.a - n) / 2) (by omega)
      rw [show n + 1 + 2 * ((q.a - n) / 2) = q.a by omega] at this
      unfold newId
      rw [ga, Nat.add_sub_cancel_left]
      exact this
    · rw [← f1, ← f2]
      have hct := h.out_condTree hg
      have hsort : ((simpOut n g F rows).filter fun row => decide (n ≤ row.child ∧ row.parent = newId n g e)).Pairwise fun a b => a.child < b.child := by
        have h2 := List.pairwise_lt_range' (s := n + 1) (n := keptBelow n g (n + k) - 1)
        rw [← hct.clRows_child, List.pairwise_map] at h2
        have e0 : ((simpOut n g F rows).filter fun row => decide (n ≤ row.child ∧ row.parent = newId n g e)) =
            ((simpOut n g F rows).filter fun row => decide (n ≤ row.child)).filter fun row => decide (row.parent = newId n g e) := by
          rw [List.filter_filter]
          refine List.filter_congr fun row _ => ?_
          simp [Bool.decide_and, Bool.and_comm]
        rw [e0]
        exact h2.filter _
      have hsort2 : ([newRow n g F q.r1, newRow n g F q.r2] : List (CRow L S)).Pairwise fun a b => a.child < b.child := by
        rw [f1, f2]; simp
      refine List.Perm.eq_of_pairwise (le := fun a b => a.child < b.child) (fun a b _ _ hab hba => absurd hab (by omega)) hsort hsort2 ?_
      rw [List.perm_ext_iff_of_nodup (hsort.imp fun hab he => by rw [he] at hab; omega) (hsort2.imp fun hab he => by rw [he] at hab; omega)]
      intro r
      rw [List.mem_filter, decide_eq_true_eq]
      constructor
      · rintro ⟨hr, hrc, hrp⟩
        obtain ⟨q', hq', hk', hch', hre⟩ := hmem r hr hrc hrp
        rw [huniq q' hq' hk' hch'] at hre
        simpa using hre
      · intro hr
        obtain ⟨m1, m2⟩ := h.pair_mem hq
        simp only [List.mem_cons, List.not_mem_nil, or_false] at hr
        have hge : n ≤ newId n g q.a := by unfold newId; omega
        rcases hr with rfl | rfl
        · refine ⟨mem_simpOut.2 ⟨_, m1, Or.inr ga, rfl⟩, ?_⟩
          rw [f1]; exact ⟨hge, rfl⟩
        · refine ⟨mem_simpOut.2 ⟨_, m2, Or.inr ga1, rfl⟩, ?_⟩
          rw [f2]; exact ⟨by simp only; omega, rfl⟩

/-- What the loop keeps: pairs of which both clusters persist. -/
theorem SimpCtx.kept_iff (h : SimpCtx thr n k rows ps I F) (hdens : ∀ row ∈ rows, row.lam ≤ I.births row.parent) {q : CPair L S} (hq : q ∈ ps) :
    PairKept thr F q ↔ Persists n rows thr q.r1 ∧ Persists n rows thr q.r2 := by
  have hle : ∀ c d, n ≤ c → CDesc rows c d → n ≤ d → F.births d ≤ F.births c := by
    intro c d hc hs
    induction hs with
    | refl => exact fun _ => le_refl _
    | tail _ hs ih =>
      obtain ⟨row, hr, rfl, rfl⟩ := hs
      intro hd
      obtain ⟨q', hq', he⟩ := h.child_pair hr hd
      refine le_trans ?_ (ih (h.ct.parents row hr).1)
      have hp : q'.p = row.parent := by rcases he with rfl | rfl <;> rfl
      rw [← hp]
      exact h.births_child hq' (by rcases he with rfl | rfl
                                   · exact Or.inl rfl
                                   · exact Or.inr rfl)
  have hI : ∀ c, I.births c ≤ F.births c := by
    intro c
    by_cases hex : ∃ q ∈ ps, q.p = c
    · obtain ⟨q, hq, rfl⟩ := hex
      rw [h.fx.births q hq]; exact le_max_left _ _
    · rw [h.fx.birthsO c fun q hq he => hex ⟨q, hq, he⟩]
  obtain ⟨p1, p2, p3⟩ := h.pl.par q hq
  have key : ∀ r : CRow L S, (r = q.r1 ∨ r = q.r2) → (thr ≤ F.births r.child - q.lv ↔ Persists n rows thr r) := by
    intro r hre
    have hlv : r.lam = q.lv := by rcases hre with rfl | rfl <;> rfl
    have hrc : n ≤ r.child ∧ r.child < n + k := by
      rcases hre with rfl | rfl <;> simp only [CPair.r1, CPair.r2] <;> omega
    constructor
    · intro ht
      obtain ⟨s, s1, s2, s3, s4, _⟩ := h.attained r.child hrc.1 hrc.2
      exact ⟨s, s1, s2, s3, by rw [s4, hlv]; exact ht⟩
    · rintro ⟨s, s1, s2, s3, s4⟩
      rw [hlv] at s4
      refine s4.trans (sub_le_sub_right ?_ _)
      exact (hdens s s1).trans ((hI _).trans (hle _ _ hrc.1 s3 (h.ct.parents s s1).1))
  rw [← key q.r1 (Or.inl rfl), ← key q.r2 (Or.inr rfl)]
  unfold PairKept
  simp only [CPair.r1, CPair.r2]
  constructor
  · intro hk
    exact ⟨hk.trans (sub_le_sub_right (min_le_left _ _) _), hk.trans (sub_le_sub_right (min_le_right _ _) _)⟩
  · rintro ⟨k1, k2⟩
    rcases min_choice (F.births q.a) (F.births (q.a + 1)) with e | e <;> rw [e] <;> assumption

end

/-! ## Setting up -/

theorem lastLam_mem {L S : Type*} (rows : List (CRow L S)) (b0 : ℕ → L) (c : ℕ) (hex : ∃ row ∈ rows, row.parent = c) :
    ∃ row ∈ rows, row.parent = c ∧ row.lam = rows.foldl (fun b row => Function.update b row.parent row.lam) b0 c := by
  induction rows using List.reverseRecOn with
  | nil => obtain ⟨_, h, _⟩ := hex; cases h
  | append_singleton rows r ih =>
    rw [List.foldl_append, List.foldl_cons, List.foldl_nil]
    by_cases hr : r.parent = c
    · exact ⟨r, by simp, hr, by rw [← hr, Function.update_self]⟩
    · rw [Function.update_of_ne fun h => hr h.symm]
      obtain ⟨row, hm, hp⟩ := hex
      rcases List.mem_append.1 hm with hm | hm
      · obtain ⟨row, g1, g2⟩ := ih ⟨row, hm, hp⟩
        exact ⟨row, by simp [g1], g2⟩
      · rw [List.mem_singleton] at hm; subst hm; exact absurd hp hr

theorem lastLam_max {L S : Type*} [LinearOrder L] (rows : List (CRow L S)) (b0 : ℕ → L) (hs : LamSorted rows) :
    ∀ row ∈ rows, row.lam ≤ rows.foldl (fun b row => Function.update b row.parent row.lam) b0 row.parent := by
  induction rows using List.reverseRecOn with
  | nil => intro _ h; cases h
  | append_singleton rows r ih =>
    obtain ⟨h1, _, h2⟩ := List.pairwise_append.1 hs
    rw [List.foldl_append, List.foldl_cons, List.foldl_nil]
    intro row hrow
    rcases List.mem_append.1 hrow with hm | hm
    · by_cases hp : row.parent = r.parent
      · rw [hp, Function.update_self]; exact h2 row hm r (by simp) hp
      · rw [Function.update_of_ne hp]; exact ih h1 row hm
    · rw [List.mem_singleton] at hm; subst hm; rw [Function.update_self]

end Verif
