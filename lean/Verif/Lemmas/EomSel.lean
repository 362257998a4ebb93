import Verif.Lemmas.EomOpt
import Verif.Spec.Selection
import Mathlib.Tactic.Abel

/-!
# Lemmas: scores and the result of `extract_eom_clusters`
-/

namespace Verif
variable {L S V : Type*} {n k : ℕ} {ct : List (CRow L S)}

theorem foldl_min_eq (l : List ℕ) (a m : ℕ) (ha : m ≤ a) (hl : ∀ x ∈ l, m ≤ x) (hm : m = a ∨ m ∈ l) :
    l.foldl min a = m := by
  induction l generalizing a with
  | nil => simp at hm; simp [hm]
  | cons b l ih =>
    have hb := hl b (by simp)
    rw [List.foldl_cons]
    refine ih _ (by omega) (fun x hx => hl x (by simp [hx])) ?_
    rcases hm with h | h
    · left; omega
    · rcases List.mem_cons.1 h with h | h
      · left; omega
      · exact .inr h

theorem foldl_max_eq (l : List ℕ) (a m : ℕ) (ha : a ≤ m) (hl : ∀ x ∈ l, x ≤ m) (hm : m = a ∨ m ∈ l) :
    l.foldl max a = m := by
  induction l generalizing a with
  | nil => simp at hm; simp [hm]
  | cons b l ih =>
    have hb := hl b (by simp)
    rw [List.foldl_cons]
    refine ih _ (by omega) (fun x hx => hl x (by simp [hx])) ?_
    rcases hm with h | h
    · left; omega
    · rcases List.mem_cons.1 h with h | h
      · left; omega
      · exact .inr h

theorem ClTree.first (h : ClTree n k ct) (hk : 1 < k) : CStep ct n (n + 1) := by
  obtain ⟨row, h1, h2⟩ := List.mem_map.1 ((h.mem (c := n + 1)).2 ⟨by omega, by omega⟩)
  have := h.par row h1
  exact ⟨row, h1, by omega, h2⟩

theorem ClTree.root_eq (h : ClTree n k ct) (hk : 1 < k) (a : ℕ) (ha : a ∈ ct.map CRow.parent) :
    (ct.map CRow.parent).foldl min a = n := by
  have hl : ∀ x ∈ ct.map CRow.parent, n ≤ x := by
    intro x hx
    obtain ⟨row, h1, rfl⟩ := List.mem_map.1 hx
    exact (h.par row h1).1
  obtain ⟨row, h1, h2, _⟩ := h.first hk
  exact foldl_min_eq _ _ _ (hl a ha) hl (.inr (h2 ▸ List.mem_map_of_mem h1))

theorem ClTree.head_parent (h : ClTree n k ct) (hk : 1 < k) : ∃ row rest, ct = row :: rest := by
  match hc : ct, h with
  | [], h => have := h.length; simp at this; omega
  | row :: rest, _ => exact ⟨row, rest, rfl⟩

open Classical in
/-- The selection made by `extract_eom_clusters`. -/
theorem ClTree.eom_mem (h : ClTree n k ct) (hk : 1 < k) (o : ScoreOps V) (d : ScoreDict V) (sizeGt : ℕ → Bool)
    (rootGt allow : Bool) (c : ℕ) :
    c ∈ eomClusters ct o d sizeGt rootGt allow ↔ c ∈ d.keys ∧
      if allow then h.Top o d.val (Function.update sizeGt n rootGt) n c
      else 1 < d.keys.length ∧ ∃ r ∈ kidsOf ct n, h.Top o d.val (Function.update sizeGt n rootGt) r c := by
  obtain ⟨row, rest, hct⟩ := h.head_parent hk
  have hroot : (ct.map CRow.parent).foldl min row.parent = n :=
    h.root_eq hk _ (by rw [hct]; simp)
  have hlen := h.length
  have hunf : eomClusters ct o d sizeGt rootGt allow = d.keys.filter fun c =>
      (if allow then (eomRec ct o d.val (Function.update sizeGt n rootGt) (ct.length + 1) n (fun _ => false)).2
      else if 1 < d.keys.length then
        (kidsOf ct n).foldl (fun s c => (eomRec ct o d.val (Function.update sizeGt n rootGt) (ct.length + 1) c s).2)
          (fun _ => false)
      else fun _ => false) c := by
    rw [← hroot]
    rw [hct]
    rfl
  rw [hunf, List.mem_filter, and_congr_right_iff]
  intro _
  cases allow
  · simp only [Bool.false_eq_true, if_false]
    by_cases hkeys : 1 < d.keys.length
    · simp only [hkeys, if_true, true_and]
      have hfold : ∀ (cs : List ℕ), (∀ c ∈ cs, c ∈ kidsOf ct n) → cs.Nodup → ∀ (s : ℕ → Bool),
          (∀ c ∈ cs, ∀ x, CDesc ct c x → s x = false) → ∀ x,
          (cs.foldl (fun s c => (eomRec ct o d.val (Function.update sizeGt n rootGt) (ct.length + 1) c s).2) s) x =
            if ∃ c ∈ cs, CDesc ct c x then
              decide (∃ c ∈ cs, h.Top o d.val (Function.update sizeGt n rootGt) c x) else s x := by
        intro cs
        induction cs with
        | nil => intro _ _ s _ x; simp
        | cons c cs ihc =>
          intro hcs hnd s hs x
          have hc := h.kid_lt (hcs c (by simp))
          have hstep := h.eomRec_sel o d.val (Function.update sizeGt n rootGt) (ct.length + 1) c (by omega) hc.2.2 s
            (hs c (by simp))
          have hdis : ∀ d ∈ cs, ∀ y, CDesc ct d y → ¬ CDesc ct c y := by
            intro d hd y hdy hcy
            have := h.kids_disjoint (hcs c (by simp)) (hcs d (by simp [hd])) hcy hdy
            subst this
            exact (List.nodup_cons.1 hnd).1 hd
          rw [List.foldl_cons, ihc (fun c hc => hcs c (by simp [hc])) (List.nodup_cons.1 hnd).2]
          · rw [hstep x]
            by_cases h1 : ∃ d ∈ cs, CDesc ct d x
            · obtain ⟨d, hd, hdx⟩ := h1
              rw [if_pos ⟨d, hd, hdx⟩, if_pos ⟨d, by simp [hd], hdx⟩]
              apply decide_eq_decide.2
              constructor
              · rintro ⟨e, h1, h2⟩; exact ⟨e, by simp [h1], h2⟩
              · rintro ⟨e, h1, h2⟩
                rcases List.mem_cons.1 h1 with h3 | h3
                · subst h3; exact absurd h2.1 (hdis d hd x hdx)
                · exact ⟨e, h3, h2⟩
            · rw [if_neg h1]
              by_cases h2 : CDesc ct c x
              · rw [if_pos h2, if_pos ⟨c, by simp, h2⟩]
                apply decide_eq_decide.2
                constructor
                · intro h3; exact ⟨c, by simp, h3⟩
                · rintro ⟨e, h3, h4⟩
                  rcases List.mem_cons.1 h3 with h5 | h5
                  · subst h5; exact h4
                  · exact absurd ⟨e, h5, h4.1⟩ h1
              · rw [if_neg h2, if_neg]
                rintro ⟨e, h3, h4⟩
                rcases List.mem_cons.1 h3 with h5 | h5
                · subst h5; exact h2 h4
                · exact h1 ⟨e, h5, h4⟩
          · intro d hd y hdy
            rw [hstep y, if_neg (hdis d hd y hdy)]
            exact hs d (by simp [hd]) y hdy
      rw [hfold _ (fun _ h => h) (h.kids_nodup n) _ (fun _ _ _ _ => rfl)]
      by_cases h1 : ∃ r ∈ kidsOf ct n, CDesc ct r c
      · rw [if_pos h1, decide_eq_true_eq]
      · rw [if_neg h1]
        simp only [Bool.false_eq_true, false_iff]
        rintro ⟨r, h2, h3⟩
        exact h1 ⟨r, h2, h3.1⟩
    · simp [hkeys]
  · simp only [if_true]
    rw [h.eomRec_sel _ _ _ _ _ (by omega) (by omega) _ (fun _ _ => rfl)]
    by_cases h1 : CDesc ct n c
    · rw [if_pos h1, decide_eq_true_eq]
    · rw [if_neg h1]
      simp only [Bool.false_eq_true, false_iff]
      exact fun h2 => h1 h2.1

/-! ## Scores -/

theorem stability_snoc [Ring V] (rows : List (CRow V V)) (row : CRow V V) (c : ℕ) :
    stability (rows ++ [row]) c = stability rows c + (if row.parent = c then row.lam * row.size else 0) -
      (if row.child = c then row.lam * row.size else 0) := by
  unfold stability
  rw [List.filter_append, List.filter_append, List.map_append, List.map_append, List.sum_append, List.sum_append]
  by_cases h1 : row.parent = c <;> by_cases h2 : row.child = c <;> simp [h1, h2] <;> abel

theorem CondTree.scoreNodes_eq [Ring V] [LinearOrder V] {rows : List (CRow V V)} (h : CondTree n k rows)
    (hne : rows ≠ []) (hk : ∀ row ∈ rows, 1 < row.size ↔ n ≤ row.child) :
    ∃ d, scoreNodes rows = some d ∧ d.keys = List.range' n k ∧ ∀ c, n ≤ c → c < n + k → d.val c = stability rows c := by
  obtain ⟨row, rest, hrows⟩ := List.exists_cons_of_ne_nil hne
  have hfirst : row.parent = n := by
    rcases h.order 0 row (by rw [hrows]; rfl) with h1 | ⟨j, _, hj, _⟩
    · exact h1
    · omega
  have hunf : scoreNodes rows = rows.foldlM scoreStep ⟨[n], fun _ => 0⟩ := by
    rw [hrows, ← hfirst]; rfl
  have hmain : ∀ l, l <+: rows → ∃ d, l.foldlM scoreStep (⟨[n], fun _ => 0⟩ : ScoreDict V) = some d ∧
      d.keys = n :: (l.map CRow.child).filter (fun c => decide (n ≤ c)) ∧
      ∀ c ∈ d.keys, d.val c = stability l c := by
    intro l
    induction l using List.reverseRecOn with
    | nil => intro _; exact ⟨_, rfl, rfl, fun c hc => by simp [stability]⟩
    | append_singleton l row ih =>
      intro hpre
      obtain ⟨d, h1, h2, h3⟩ := ih ((List.prefix_append l [row]).trans hpre)
      have hget : rows[l.length]? = some row := by
        obtain ⟨t, ht⟩ := hpre
        rw [← ht]; simp
      have hrow := List.mem_of_getElem? hget
      have hlsub : ∀ j, j < l.length → rows[j]? = l[j]? := by
        intro j hj
        obtain ⟨t, ht⟩ := hpre
        rw [← ht, List.append_assoc, List.getElem?_append_left hj]
      have hpar : row.parent ∈ d.keys := by
        rw [h2]
        rcases h.order _ row hget with h4 | ⟨j, row', hj, h5, h6⟩
        · simp [h4]
        · rw [hlsub j hj] at h5
          refine List.mem_cons_of_mem _ (List.mem_filter.2 ⟨?_, decide_eq_true (h.parents row hrow).1⟩)
          rw [← h6]; exact List.mem_map_of_mem (List.mem_of_getElem? h5)
      have hnd : row.child ∉ l.map CRow.child := by
        have hsub := h.nodup.sublist (hpre.sublist.map CRow.child)
        rw [List.map_append, List.nodup_append] at hsub
        intro hmem
        exact hsub.2.2 _ hmem row.child (by simp) rfl
      rw [List.foldlM_append, h1]
      have hs : ∀ d', scoreStep d row = some d' →
          (([row] : List (CRow V V)).foldlM scoreStep d) = some d' := by
        intro d' hd'
        rw [List.foldlM_cons, hd']; rfl
      by_cases hsz : 1 < row.size
      · have hc := (hk row hrow).1 hsz
        have hcn : row.child ≠ n := by
          have := (h.children row.child).1 (List.mem_map_of_mem hrow); omega
        have hckeys : row.child ∉ d.keys := by
          rw [h2]
          simp only [List.mem_cons, List.mem_filter, not_or, not_and]
          exact ⟨hcn, fun h4 => absurd h4 hnd⟩
        have hnopar : ∀ r ∈ l, r.parent ≠ row.child := by
          intro r hr hrp
          obtain ⟨i, hi⟩ := List.mem_iff_getElem?.1 hr
          have hil : i < l.length := (List.getElem?_eq_some_iff.1 hi).1
          rcases h.order i r (by rw [hlsub i hil]; exact hi) with h4 | ⟨j, row', hj, h5, h6⟩
          · omega
          · rw [hlsub j (by omega)] at h5
            exact hnd (by rw [← hrp, ← h6]; exact List.mem_map_of_mem (List.mem_of_getElem? h5))
        have hpc : row.parent ≠ row.child := by
          have := h.down row hrow hc; omega
        refine ⟨(d.set row.child (-row.lam * row.size)).set row.parent
            ((d.set row.child (-row.lam * row.size)).val row.parent + row.lam * row.size), hs _ ?_, ?_, ?_⟩
        · unfold scoreStep
          simp only [hsz, if_true]
          rw [if_pos]
          simp only [ScoreDict.set, hckeys, if_false, List.mem_append]
          exact .inl hpar
        · simp only [ScoreDict.set, hckeys, if_false, List.mem_append, hpar, true_or, if_true]
          rw [h2, List.map_append, List.filter_append]
          simp [hc]
        · intro c hcm
          simp only [ScoreDict.set, hckeys, if_false, List.mem_append, hpar, true_or, if_true,
            List.mem_singleton] at hcm ⊢
          rw [stability_snoc]
          by_cases hcp : c = row.parent
          · subst hcp
            rw [Function.update_self, Function.update_of_ne hpc, h3 _ hpar]
            simp [hpc.symm]
          · rw [Function.update_of_ne hcp]
            by_cases hcc : c = row.child
            · subst hcc
              rw [Function.update_self]
              have hz : stability l row.child = 0 := by
                unfold stability
                rw [List.filter_eq_nil_iff.2, List.filter_eq_nil_iff.2]
                · simp
                · intro r hr hrc
                  exact hnd (of_decide_eq_true hrc ▸ List.mem_map_of_mem hr)
                · intro r hr hrc
                  exact hnopar r hr (of_decide_eq_true hrc)
              rw [hz]
              simp [hpc]
            · rw [Function.update_of_ne hcc, h3 c (hcm.resolve_right hcc)]
              simp [Ne.symm hcp, Ne.symm hcc]
      · have hc : ¬ n ≤ row.child := fun hc => hsz ((hk row hrow).2 hc)
        refine ⟨d.set row.parent (d.val row.parent + row.lam * row.size), hs _ ?_, ?_, ?_⟩
        · unfold scoreStep
          simp only [hsz, if_false, hpar, if_true]
        · simp only [ScoreDict.set, hpar, if_true]
          rw [h2, List.map_append, List.filter_append]
          simp [hc]
        · intro c hcm
          simp only [ScoreDict.set, hpar, if_true] at hcm ⊢
          rw [stability_snoc]
          have hcn : n ≤ c := by
            rw [h2] at hcm
            rcases List.mem_cons.1 hcm with h4 | h4
            · omega
            · exact of_decide_eq_true (List.mem_filter.1 h4).2
          by_cases hcp : c = row.parent
          · subst hcp
            rw [Function.update_self, h3 _ hpar]
            simp [show row.child ≠ row.parent by omega]
          · rw [Function.update_of_ne hcp, h3 c hcm]
            simp [Ne.symm hcp, show row.child ≠ c by omega]
  obtain ⟨d, h1, h2, h3⟩ := hmain rows (List.prefix_refl _)
  have hkeys : d.keys = List.range' n k := by
    rw [h2, h.asc]
    obtain ⟨k', rfl⟩ : ∃ k', k = k' + 1 := ⟨k - 1, by have := h.pos; omega⟩
    rw [List.range'_succ]; rfl
  refine ⟨d, hunf.trans h1, hkeys, fun c hc1 hc2 => h3 c ?_⟩
  rw [hkeys, List.mem_range'_1]; omega

theorem CondTree.extractEom_eq [Ring V] [LinearOrder V] {rows : List (CRow V V)} (h : CondTree n k rows)
    (hne : rows ≠ []) (hk : ∀ row ∈ rows, 1 < row.size ↔ n ≤ row.child) (hs : 1 < k) (mx : Option V) (allow : Bool) :
    ∃ d : ScoreDict V, d.keys = List.range' n k ∧ (∀ c, n ≤ c → c < n + k → d.val c = stability rows c) ∧
      extractEom rows mx allow = some (eomClusters (clusterTree rows) (ScoreOps.exact V) d
        (sizeExceeds (clusterTree rows) mx) (rootExceeds mx n) allow) := by
  obtain ⟨d, h1, h2, h3⟩ := h.scoreNodes_eq hne hk
  have hc := h.clTree hk
  obtain ⟨row, rest, hct⟩ := hc.head_parent hs
  refine ⟨d, h2, h3, ?_⟩
  have hroot : ((clusterTree rows).map CRow.parent).foldl min (((clusterTree rows).map CRow.parent).headD 0) = n :=
    hc.root_eq hs _ (by rw [hct]; simp)
  unfold extractEom
  rw [h1]
  simp only [hroot]

end Verif
