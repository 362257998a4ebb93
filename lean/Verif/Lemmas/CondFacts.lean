import Verif.Lemmas.Condense

/-!
# What the condensed tree looks like when the loop has ended
-/

namespace Verif
variable {W S L : Type*}

section
variable [LinearOrder S] (H : Hier W S) (wt : ℕ → S) (mcs : S) (mx : Option S)

/-- The loop invariant after the last iteration; `relabel v` is the cluster of hierarchy node `v`, `top c` the node at
which cluster `c` is born. -/
structure CondRes [One S] (lam : W → L) (rows : List (CRow L S)) (k : ℕ) (relabel top : ℕ → ℕ) : Prop where
  k_odd : k % 2 = 1
  lab : ∀ v, H.Alive wt mcs v → H.n ≤ relabel v ∧ relabel v < H.n + k ∧ H.Sub (top (relabel v)) v
  lab_root : relabel H.root = H.n
  tops : ∀ c, H.n ≤ c → c < H.n + k → H.Alive wt mcs (top c) ∧ relabel (top c) = c
  top_root : top H.n = H.root
  rows_pt : ∀ row ∈ rows, row.child < H.n → ∃ v, H.Home wt mcs row.child v ∧
    row.parent = relabel v ∧ row.lam = lam (H.d (v - H.n)) ∧ row.size = 1
  rows_cl : ∀ row ∈ rows, H.n ≤ row.child → H.n < row.child ∧ row.child < H.n + k ∧
    ∃ v, H.Alive wt mcs v ∧ H.IsKid v (top row.child) ∧ row.parent = relabel v ∧
      row.lam = lam (H.d (v - H.n)) ∧ row.size = H.count wt (top row.child) ∧ row.parent < row.child ∧
      H.Split wt mcs mx v
  complete : ∀ x, x < H.n → x ∈ rows.map CRow.child
  seq : (rows.map CRow.child).filter (fun c => decide (H.n ≤ c)) = List.range' (H.n + 1) (k - 1)
  nodup : (rows.map CRow.child).Nodup
  order : ∀ (i : ℕ) (row : CRow L S), rows[i]? = some row →
    row.parent = H.n ∨ ∃ (j : ℕ) (row' : CRow L S), j < i ∧ rows[j]? = some row' ∧ row'.child = row.parent
  one : ∀ v, H.Alive wt mcs v → ∀ a b, H.IsKid v a → H.IsKid v b → a ≠ b → H.Alive wt mcs a →
    ¬ H.Alive wt mcs b → relabel a = relabel v
  two : ∀ v, H.Alive wt mcs v → H.Split wt mcs mx v →
    relabel v < relabel (H.l (v - H.n)) ∧
    relabel (H.r (v - H.n)) = relabel (H.l (v - H.n)) + 1 ∧
    (relabel (H.l (v - H.n)) - H.n) % 2 = 1 ∧
    top (relabel (H.l (v - H.n))) = H.l (v - H.n) ∧ top (relabel (H.r (v - H.n))) = H.r (v - H.n) ∧
    ⟨relabel v, relabel (H.l (v - H.n)), lam (H.d (v - H.n)), H.count wt (H.l (v - H.n))⟩ ∈ rows ∧
    ⟨relabel v, relabel (H.r (v - H.n)), lam (H.d (v - H.n)), H.count wt (H.r (v - H.n))⟩ ∈ rows
  big : ∀ v, H.Alive wt mcs v → mcs ≤ H.count wt (H.l (v - H.n)) → mcs ≤ H.count wt (H.r (v - H.n)) →
    ¬ H.Split wt mcs mx v → relabel (H.l (v - H.n)) = relabel v ∧ relabel (H.r (v - H.n)) = relabel v

variable {H wt mcs mx}

theorem CondInv.res [One S] (hh : CondHyp H wt mcs) (hm : 0 < H.m) {lam : W → L} {st : CondState L S} {top : ℕ → ℕ}
    (h : CondInv H wt mcs mx lam (H.bfs H.root) st top) : CondRes H wt mcs mx lam st.rows (st.next - H.n) st.relabel top := by
  have hre := H.root_eq
  have hv := hh.valid
  have hroot : H.Alive wt mcs H.root := ⟨by omega, le_rfl, Or.inl rfl⟩
  have hmem : ∀ v, v ≤ H.root → v ∈ H.bfs H.root := fun v hvr =>
    (Hier.mem_bfs hv le_rfl).2 (Hier.sub_root hv hvr)
  have hready : ∀ v, v ≤ H.root → H.Ready (H.bfs H.root) v := by
    intro v hvr
    rcases hvr.lt_or_eq with h1 | h1
    · obtain ⟨w, hw⟩ := Hier.exists_parent hv h1
      exact Or.inr ⟨w, hmem w (by have := hw.2.1; omega), hw⟩
    · exact Or.inl h1
  have hng := h.next_ge
  have hodd := h.odd
  have hk : H.n + (st.next - H.n) = st.next := by omega
  have hal : ∀ {v}, H.Alive wt mcs v → v ∈ H.bfs H.root := fun hva => hmem _ hva.2.1
  constructor
  · exact hodd
  · intro v hva
    rw [hk]
    exact h.lab v hva (hready v hva.2.1)
  · exact h.lab_root
  · intro c h1 h2
    rw [hk] at h2
    rcases h1.lt_or_eq with h3 | h3
    · obtain ⟨h4, _, h5⟩ := h.tops c h3 h2
      exact ⟨h4, h5⟩
    · subst h3
      rw [h.top_root]
      exact ⟨hroot, h.lab_root⟩
  · exact h.top_root
  · intro row hrow hc
    obtain ⟨v, _, h1⟩ := h.rows_pt row hrow hc
    exact ⟨v, h1⟩
  · intro row hrow hc
    obtain ⟨h1, h2, v, _, h3⟩ := h.rows_cl row hrow hc
    exact ⟨h1, by rw [hk]; exact h2, v, h3⟩
  · intro x hx
    obtain ⟨w, hw, _⟩ := exists_home hh hroot hx (Hier.sub_root hv (by omega))
    exact h.complete w (hal hw.1) x hx hw
  · rw [h.seq]; congr 1
  · exact h.nodup
  · exact h.order
  · intro v hva; exact h.one v (hal hva) hva
  · intro v hva; exact h.two v (hal hva) hva
  · intro v hva; exact h.big v (hal hva) hva

theorem condense_res [One S] (hh : CondHyp H wt mcs) (hm : 0 < H.m) (lam : W → L) :
    ∃ k relabel top, CondRes H wt mcs mx lam (condenseTree H wt mcs mx lam) k relabel top := by
  obtain ⟨top, h⟩ := condense_inv (L := L) (mx := mx) hh lam
  exact ⟨_, _, _, h.res hh hm⟩

variable [One S] {lam : W → L} {rows : List (CRow L S)} {k : ℕ} {relabel top : ℕ → ℕ}

theorem CondRes.condTree (h : CondRes H wt mcs mx lam rows k relabel top) : CondTree H.n k rows := by
  have hk := h.k_odd
  constructor
  · omega
  · exact h.nodup
  · intro c
    constructor
    · intro hc
      rw [List.mem_map] at hc
      obtain ⟨row, hrow, rfl⟩ := hc
      by_cases hcn : row.child < H.n
      · exact Or.inl hcn
      · have := h.rows_cl row hrow (by omega)
        exact Or.inr ⟨this.1, this.2.1⟩
    · rintro (hc | ⟨h1, h2⟩)
      · exact h.complete c hc
      · have : c ∈ (rows.map CRow.child).filter (fun c => decide (H.n ≤ c)) := by
          rw [h.seq, List.mem_range']
          exact ⟨c - (H.n + 1), by omega, by omega⟩
        exact (List.mem_filter.1 this).1
  · exact h.seq
  · intro row hrow
    by_cases hc : row.child < H.n
    · obtain ⟨v, h1, h2, _⟩ := h.rows_pt row hrow hc
      rw [h2]
      exact ⟨(h.lab v h1.1).1, (h.lab v h1.1).2.1⟩
    · obtain ⟨_, _, v, h1, _, h2, _⟩ := h.rows_cl row hrow (by omega)
      rw [h2]
      exact ⟨(h.lab v h1).1, (h.lab v h1).2.1⟩
  · intro row hrow hc
    exact (h.rows_cl row hrow hc).2.2.choose_spec.2.2.2.2.2.1
  · exact h.order

/-- A node either keeps the cluster of its parent node or is the birth node of its cluster. -/
theorem CondRes.kid_label (hh : CondHyp H wt mcs) (h : CondRes H wt mcs mx lam rows k relabel top) {v a : ℕ}
    (hv : H.Alive wt mcs v) (hk : H.IsKid v a) (ha : H.Alive wt mcs a) :
    (¬ H.Split wt mcs mx v ∧ relabel a = relabel v) ∨
      (H.Split wt mcs mx v ∧ top (relabel a) = a ∧ ∃ row ∈ rows, row.parent = relabel v ∧
        row.child = relabel a ∧ row.lam = lam (H.d (v - H.n)) ∧ row.size = H.count wt a) := by
  have hka : H.IsKid v (H.l (v - H.n)) := ⟨hk.1, hk.2.1, Or.inl rfl⟩
  have hkb : H.IsKid v (H.r (v - H.n)) := ⟨hk.1, hk.2.1, Or.inr rfl⟩
  have hlt := hh.valid.lt (v - H.n) (by have := hk.1; have := hk.2.1; omega)
  by_cases hs : H.Split wt mcs mx v
  · right
    obtain ⟨_, _, _, h4, h5, h6, h7⟩ := h.two v hv hs
    refine ⟨hs, ?_⟩
    rcases hk.2.2 with rfl | rfl
    · exact ⟨h4, _, h6, rfl, rfl, rfl, rfl⟩
    · exact ⟨h5, _, h7, rfl, rfl, rfl, rfl⟩
  · left
    refine ⟨hs, ?_⟩
    by_cases hb : mcs ≤ H.count wt (H.l (v - H.n)) ∧ mcs ≤ H.count wt (H.r (v - H.n))
    · have := h.big v hv hb.1 hb.2 hs
      rcases hk.2.2 with rfl | rfl
      · exact this.1
      · exact this.2
    · have h1 := ha
      rw [alive_kid_iff hh hk] at h1
      rcases hk.2.2 with rfl | rfl
      · exact h.one v hv _ _ hka hkb (by omega) ha (by rw [alive_kid_iff hh hkb]; tauto)
      · exact h.one v hv _ _ hkb hka (by omega) ha (by rw [alive_kid_iff hh hka]; tauto)

/-- Going down in the hierarchy is going down in the condensed tree. -/
theorem CondRes.desc_of_sub (hh : CondHyp H wt mcs) (h : CondRes H wt mcs mx lam rows k relabel top) {u v : ℕ}
    (hu : u ≤ H.root) (hs : H.Sub u v) (hv : H.Alive wt mcs v) : CDesc rows (relabel u) (relabel v) := by
  induction hs with
  | refl => exact Relation.ReflTransGen.refl
  | @tail w v hw hk ih =>
    have hwa : H.Alive wt mcs w :=
      alive_up hh hv (Hier.Sub.kid hk) (by have := Hier.Sub.le hh.valid hw; omega)
    refine (ih hwa).trans ?_
    rcases h.kid_label hh hwa hk hv with ⟨_, h1⟩ | ⟨_, _, row, hr, h1, h2, _⟩
    · rw [h1]
    · exact Relation.ReflTransGen.single ⟨row, hr, h1, h2⟩

theorem CondRes.step_sub (h : CondRes H wt mcs mx lam rows k relabel top) {c b : ℕ} (hs : CStep rows c b) :
    (b < H.n → H.Sub (top c) b) ∧ (H.n ≤ b → H.Sub (top c) (top b)) := by
  obtain ⟨row, hrow, rfl, rfl⟩ := hs
  constructor
  · intro hb
    obtain ⟨v, h1, h2, _⟩ := h.rows_pt row hrow hb
    rw [h2]
    exact (h.lab v h1.1).2.2.trans (Home.sub h1)
  · intro hb
    obtain ⟨_, _, v, h1, h2, h3, _⟩ := h.rows_cl row hrow hb
    rw [h3]
    exact (h.lab v h1).2.2.tail h2

theorem CondRes.sub_of_desc (h : CondRes H wt mcs mx lam rows k relabel top) {c b : ℕ} (hs : CDesc rows c b)
    (hc : H.n ≤ c) : (b < H.n → H.Sub (top c) b) ∧ (H.n ≤ b → H.Sub (top c) (top b)) := by
  induction hs with
  | refl => exact ⟨fun hb => absurd hb (by omega), fun _ => Hier.Sub.refl _⟩
  | @tail w b hw hk ih =>
    have hwn : H.n ≤ w := by
      obtain ⟨row, hr, h1, _⟩ := hk
      rw [← h1]; exact (h.condTree.parents row hr).1
    have h1 := h.step_sub hk
    exact ⟨fun hb => (ih.2 hwn).trans (h1.1 hb), fun hb => (ih.2 hwn).trans (h1.2 hb)⟩

/-- The samples below a cluster are those below its birth node. -/
theorem CondRes.below_iff (hh : CondHyp H wt mcs) (h : CondRes H wt mcs mx lam rows k relabel top) {c x : ℕ}
    (hc : H.n ≤ c) (hck : c < H.n + k) (hx : x < H.n) : CDesc rows c x ↔ H.Sub (top c) x := by
  constructor
  · intro hs; exact (h.sub_of_desc hs hc).1 hx
  · intro hs
    obtain ⟨h1, h2⟩ := h.tops c hc hck
    obtain ⟨w, hw, hw'⟩ := exists_home hh h1 hx hs
    have h3 := h.desc_of_sub hh h1.2.1 hw' hw.1
    rw [h2] at h3
    have hmem := h.complete x hx
    rw [List.mem_map] at hmem
    obtain ⟨row, hrow, hch⟩ := hmem
    obtain ⟨v, hv, hp, _⟩ := h.rows_pt row hrow (by omega)
    rw [hch] at hv
    have := Home.unique hh hv hw
    subst this
    exact h3.tail ⟨row, hrow, hp, hch⟩

/-- Below a split, all labels are born below the split. -/
theorem CondRes.top_below (hh : CondHyp H wt mcs) (h : CondRes H wt mcs mx lam rows k relabel top) {u a v : ℕ}
    (hu : H.Alive wt mcs u) (hs : H.Split wt mcs mx u) (hk : H.IsKid u a) (hsub : H.Sub a v)
    (hv : H.Alive wt mcs v) : H.Sub a (top (relabel v)) := by
  have haR : a ≤ H.root := by
    have := hk.lt hh.valid; have := hu.2.1; omega
  induction hsub with
  | refl =>
    rcases h.kid_label hh hu hk hv with ⟨h1, _⟩ | ⟨_, h1, _⟩
    · exact absurd hs h1
    · rw [h1]; exact Hier.Sub.refl _
  | @tail w v hw hk' ih =>
    have hwa : H.Alive wt mcs w :=
      alive_up hh hv (Hier.Sub.kid hk') (by have := Hier.Sub.le hh.valid hw; omega)
    rcases h.kid_label hh hwa hk' hv with ⟨_, h1⟩ | ⟨_, h1, _⟩
    · rw [h1]; exact ih hwa
    · rw [h1]; exact hw.tail hk'

omit [One S] in
/-- With no `max_cluster_size`, a node at which both halves survive splits. -/
theorem split_of_none {v : ℕ} (ha : mcs ≤ H.count wt (H.l (v - H.n))) (hb : mcs ≤ H.count wt (H.r (v - H.n))) :
    H.Split wt mcs none v := ⟨ha, hb, by simp [tooBig]⟩

/-- Nothing below a split carries the label of the cluster that splits. -/
theorem CondRes.split_bottom (hh : CondHyp H wt mcs) (h : CondRes H wt mcs mx lam rows k relabel top) {u v : ℕ}
    (hu : H.Alive wt mcs u) (hv : H.Alive wt mcs v) (hsu : H.Split wt mcs mx u) (he : relabel u = relabel v)
    (hs : H.Sub u v) : u = v := by
  have hvalid := hh.valid
  rcases hs.cases_head with h1 | ⟨a, ha, hav⟩
  · exact h1
  · exfalso
    have h1 := h.top_below hh hu hsu ha hav hv
    have h2 := (h.lab u hu).2.2
    rw [he] at h2
    have h3 := h1.le hvalid
    have h4 := h2.le hvalid
    have h5 := ha.lt hvalid
    omega

/-- With no `max_cluster_size`, the nodes of one cluster form a chain. -/
theorem CondRes.label_chain (hh : CondHyp H wt mcs) (h : CondRes H wt mcs none lam rows k relabel top) {u v : ℕ}
    (hu : H.Alive wt mcs u) (hv : H.Alive wt mcs v) (he : relabel u = relabel v) : H.Sub u v ∨ H.Sub v u := by
  have hvalid := hh.valid
  have h1 := (h.lab u hu).2.2
  have h2 := (h.lab v hv).2.2
  rw [← he] at h2
  set t := top (relabel u) with ht
  have htR : t ≤ H.root := (h.tops _ (h.lab u hu).1 (h.lab u hu).2.1).1.2.1
  have : ∀ t, t ≤ H.root → H.Sub t u → H.Sub t v → H.Sub u v ∨ H.Sub v u := by
    intro t
    induction t using Nat.strong_induction_on with
    | _ t ih =>
      intro htR h1 h2
      rcases h1.cases_head with h3 | ⟨a, ha, hau⟩
      · rw [← h3]; exact Or.inl h2
      · rcases h2.cases_head with h4 | ⟨b, hb, hbv⟩
        · rw [← h4]; exact Or.inr h1
        · by_cases hab : a = b
          · subst hab
            have := ha.lt hvalid
            exact ih a this (by omega) hau hbv
          · exfalso
            have hta : H.Alive wt mcs t := alive_up hh hu h1 htR
            have haR := ha.lt hvalid
            have hbR := hb.lt hvalid
            have haa : H.Alive wt mcs a := alive_up hh hu hau (by omega)
            have hba : H.Alive wt mcs b := alive_up hh hv hbv (by omega)
            have hs : H.Split wt mcs none t := by
              have hca := (alive_kid_iff hh ha).1 haa
              have hcb := (alive_kid_iff hh hb).1 hba
              rcases ha.2.2 with rfl | rfl <;> rcases hb.2.2 with rfl | rfl
              · exact absurd rfl hab
              · exact split_of_none hca hcb
              · exact split_of_none hcb hca
              · exact absurd rfl hab
            have h5 := h.top_below hh hta hs ha hau hu
            have h6 := h.top_below hh hta hs hb hbv hv
            rw [← he] at h6
            exact hab (Hier.kids_disjoint hvalid ha hb h5 h6)
  exact this t htR h1 h2

/-- With no `max_cluster_size`, each cluster splits at most once. -/
theorem CondRes.split_unique (hh : CondHyp H wt mcs) (h : CondRes H wt mcs none lam rows k relabel top) {u v : ℕ}
    (hu : H.Alive wt mcs u) (hv : H.Alive wt mcs v) (hsu : H.Split wt mcs none u) (hsv : H.Split wt mcs none v)
    (he : relabel u = relabel v) : u = v := by
  rcases h.label_chain hh hu hv he with h1 | h1
  · exact h.split_bottom hh hu hv hsu he h1
  · exact (h.split_bottom hh hv hu hsv he.symm h1).symm

/-- Clusters nest exactly as their birth nodes do. -/
theorem CondRes.desc_iff (hh : CondHyp H wt mcs) (h : CondRes H wt mcs mx lam rows k relabel top) {c b : ℕ}
    (hc : H.n ≤ c) (hck : c < H.n + k) (hb : H.n ≤ b) (hbk : b < H.n + k) :
    CDesc rows c b ↔ H.Sub (top c) (top b) := by
  constructor
  · intro hs; exact (h.sub_of_desc hs hc).2 hb
  · intro hs
    obtain ⟨h1, h2⟩ := h.tops c hc hck
    obtain ⟨h3, h4⟩ := h.tops b hb hbk
    have := h.desc_of_sub hh h1.2.1 hs h3
    rwa [h2, h4] at this

/-- The cluster rows are sorted by child. -/
theorem CondRes.cl_sorted (h : CondRes H wt mcs mx lam rows k relabel top) :
    (rows.filter fun row => decide (H.n ≤ row.child)).Pairwise fun a b => a.child < b.child := by
  have h1 : ((rows.filter fun row => decide (H.n ≤ row.child)).map CRow.child) =
      List.range' (H.n + 1) (k - 1) := by
    rw [← h.seq, List.filter_map]; rfl
  have h2 := List.pairwise_lt_range' (s := H.n + 1) (n := k - 1)
  rw [← h1, List.pairwise_map] at h2
  exact h2

theorem CondRes.binary (hh : CondHyp H wt mcs) (h : CondRes H wt mcs none lam rows k relabel top) :
    CBinary H.n k rows := by
  intro c hc hck
  by_cases hex : ∃ row ∈ rows, H.n ≤ row.child ∧ row.parent = c
  · right
    obtain ⟨row, hrow, h1, rfl⟩ := hex
    obtain ⟨_, _, v, hva, hk, hp, _, _, _, hs⟩ := h.rows_cl row hrow h1
    obtain ⟨g1, g2, g3, g4, g5, g6, g7⟩ := h.two v hva hs
    have hka : H.IsKid v (H.l (v - H.n)) := ⟨hk.1, hk.2.1, Or.inl rfl⟩
    have hkb : H.IsKid v (H.r (v - H.n)) := ⟨hk.1, hk.2.1, Or.inr rfl⟩
    have haa : H.Alive wt mcs (H.l (v - H.n)) := (alive_kid_iff hh hka).2 hs.1
    refine ⟨relabel (H.l (v - H.n)), lam (H.d (v - H.n)), H.count wt (H.l (v - H.n)),
      H.count wt (H.r (v - H.n)), g3, ?_⟩
    rw [← g2, hp]
    have hn1 := (h.lab _ haa).1
    -- same members, both sorted
    have hsort : (rows.filter fun row => decide (H.n ≤ row.child ∧ row.parent = relabel v)).Pairwise
        fun a b => a.child < b.child := by
      have : (rows.filter fun row => decide (H.n ≤ row.child ∧ row.parent = relabel v)) =
          (rows.filter fun row => decide (H.n ≤ row.child)).filter fun row => decide (row.parent = relabel v) := by
        rw [List.filter_filter]
        congr 1
        funext row
        simp [Bool.decide_and, Bool.and_comm]
      rw [this]
      exact h.cl_sorted.filter _
    have hsort2 : ([⟨relabel v, relabel (H.l (v - H.n)), lam (H.d (v - H.n)), H.count wt (H.l (v - H.n))⟩,
        ⟨relabel v, relabel (H.r (v - H.n)), lam (H.d (v - H.n)), H.count wt (H.r (v - H.n))⟩] :
        List (CRow L S)).Pairwise fun a b => a.child < b.child := by
      simp [g2]
    refine List.Perm.eq_of_pairwise (le := fun a b => a.child < b.child)
      (fun a b _ _ hab hba => absurd hab (by omega)) hsort hsort2 ?_
    rw [List.perm_ext_iff_of_nodup (hsort.imp fun hab he => by rw [he] at hab; omega)
      (hsort2.imp fun hab he => by rw [he] at hab; omega)]
    intro r
    rw [List.mem_filter, decide_eq_true_eq]
    constructor
    · rintro ⟨hr, hrc, hrp⟩
      obtain ⟨_, hrk, w, hwa, hkw, hpw, hlw, hsz, _, hsw⟩ := h.rows_cl r hr hrc
      have hwv : w = v := h.split_unique hh hwa hva hsw hs (by rw [← hpw, hrp])
      subst hwv
      have hrt := (h.tops r.child hrc hrk).2
      obtain ⟨rp, rc, rl, rs⟩ := r
      simp only at hkw hpw hlw hsz hrt hrp
      rcases hkw.2.2 with h8 | h8
      · rw [h8] at hrt hsz
        simp [hpw, hlw, hsz, ← hrt]
      · rw [h8] at hrt hsz
        simp [hpw, hlw, hsz, ← hrt]
    · intro hr
      simp only [List.mem_cons, List.not_mem_nil, or_false] at hr
      rcases hr with rfl | rfl
      · exact ⟨g6, hn1, rfl⟩
      · exact ⟨g7, by simp only; omega, rfl⟩
  · left
    rw [List.filter_eq_nil_iff]
    intro row hrow hc'
    rw [decide_eq_true_eq] at hc'
    exact hex ⟨row, hrow, hc'⟩

omit [LinearOrder S] [One S] in
/-- Heights do not decrease towards the root. -/
theorem Hier.Sub.height [Preorder W] (hv : H.Valid) (hmono : ∀ i j, i ≤ j → j < H.m → H.d i ≤ H.d j) {u v : ℕ}
    (hs : H.Sub u v) (hn : H.n ≤ v) (hu : u ≤ H.root) : H.d (v - H.n) ≤ H.d (u - H.n) := by
  have h1 := hs.le hv
  have := H.root_eq
  exact hmono _ _ (by omega) (by omega)

theorem CondRes.mono [Preorder W] [Preorder L] (hh : CondHyp H wt mcs) (hlam : Antitone lam)
    (hd : ∀ i j, i ≤ j → j < H.m → H.d i ≤ H.d j) (h : CondRes H wt mcs mx lam rows k relabel top) :
    CMono rows := by
  intro row hrow row' hrow' he
  have hv := hh.valid
  have hpar := (h.condTree.parents row' hrow').1
  have hcn : H.n ≤ row.child := by omega
  obtain ⟨h1, h2, v, h3, h4, h5, h6, _⟩ := h.rows_cl row hrow hcn
  have key : ∀ w, H.Alive wt mcs w → row'.parent = relabel w → H.d (w - H.n) ≤ H.d (v - H.n) := by
    intro w hw hp
    have hsub := (h.lab w hw).2.2
    rw [← hp, he] at hsub
    exact ((Hier.Sub.kid h4).trans hsub).height hv hd hw.1 h3.2.1
  rw [h6]
  by_cases hc' : row'.child < H.n
  · obtain ⟨w, g1, g2, g3, _⟩ := h.rows_pt row' hrow' hc'
    rw [g3]
    exact hlam (key w g1.1 g2)
  · obtain ⟨_, _, w, g1, _, g2, g3, _⟩ := h.rows_cl row' hrow' (by omega)
    rw [g3]
    exact hlam (key w g1 g2)

end

end Verif
