import Verif.Props.Select
import Verif.Props.Epsilon
import Verif.Props.Labels

/-!
# Lemmas: selected clusters and splits at lambda zero

Lambda zero is distance `+inf`.  A selected cluster either has no split at lambda zero below it, or all its samples leave at
lambda zero (and are labelled noise).
-/

namespace Verif
variable {V : Type*} {n k : ℕ} {rows : List (CRow V V)}

/-- Nothing at or below cluster `c` splits at lambda zero. -/
def SafeAt [Zero V] (n : ℕ) (rows : List (CRow V V)) (c : ℕ) : Prop :=
  ∀ row ∈ rows, n ≤ row.child → CDesc rows c row.parent → row.lam ≠ 0

/-- All samples below `c` leave at lambda zero. -/
def AllZero [Zero V] (n : ℕ) (rows : List (CRow V V)) (c : ℕ) : Prop :=
  ∀ row ∈ rows, row.child < n → CDesc rows c row.child → row.lam = 0

/-- Facts about condensed trees used here. -/
structure SepHyp [Zero V] [One V] [LinearOrder V] (n : ℕ) (rows : List (CRow V V)) : Prop where
  kind : ∀ row ∈ rows, 1 < row.size ↔ n ≤ row.child
  mono : CMono rows
  last : ∀ row ∈ rows, ∀ row' ∈ rows, row.parent = row'.parent → n ≤ row'.child → row.lam ≤ row'.lam
  nonneg : ∀ row ∈ rows, 0 ≤ row.lam
  sizes : ∀ row ∈ rows, ∀ row' ∈ rows, n ≤ row'.child → row'.parent = row.child → row'.size ≤ row.size
  pos : ∀ row ∈ rows, 0 < row.size

theorem SafeAt.of_own [Zero V] [One V] [LinearOrder V] (ht : CondTree n k rows) (hh : SepHyp n rows) {c : ℕ}
    (h : ∀ row ∈ rows, n ≤ row.child → row.parent = c → row.lam ≠ 0) : SafeAt n rows c := by
  have key : ∀ p, CDesc rows c p → ∀ row ∈ rows, n ≤ row.child → row.parent = p → row.lam ≠ 0 := by
    intro p hp
    induction hp with
    | refl => exact h
    | @tail q p _ hs ih =>
      intro row hrow hc he
      obtain ⟨r, hr, h1, h2⟩ := hs
      have hpn : n ≤ r.child := by rw [h2, ← he]; exact (ht.parents row hrow).1
      have h3 := ih r hr hpn h1
      have h4 := hh.mono r hr row hrow (by rw [he, h2])
      exact ((lt_of_le_of_ne (hh.nonneg r hr) (Ne.symm h3)).trans_le h4).ne'
  exact fun row hrow hc hd => key _ hd row hrow hc rfl

theorem SafeAt.of_childless [Zero V] (ht : CondTree n k rows) {c : ℕ} (hcn : n ≤ c) (h : Childless n rows c) :
    SafeAt n rows c := by
  intro row hrow hc hd
  exfalso
  rcases Relation.ReflTransGen.cases_head hd with h1 | ⟨d, ⟨r, h1, h2, h3⟩, h4⟩
  · have := h row hrow h1.symm; omega
  · have h5 := h r h1 h2
    rcases Relation.ReflTransGen.cases_head h4 with h6 | ⟨e, ⟨r', h6, h7, h8⟩, _⟩
    · have := (ht.parents row hrow).1; omega
    · have := (ht.parents r' h6).1; omega

section
variable [Ring V] [LinearOrder V] [IsStrictOrderedRing V]

/-- A cluster all of whose rows have lambda zero and that appeared at lambda zero has stability zero. -/
theorem stability_zero {c : ℕ} (h1 : ∀ row ∈ rows, row.parent = c → row.lam = 0)
    (h2 : ∀ row ∈ rows, row.child = c → row.lam = 0) : stability rows c = 0 := by
  have key : ∀ p : CRow V V → Prop, ∀ [DecidablePred p], (∀ row ∈ rows, p row → row.lam = 0) →
      ((rows.filter fun row => decide (p row)).map fun row => row.lam * row.size).sum = 0 := by
    intro p _ hp
    apply List.sum_eq_zero
    intro x hx
    obtain ⟨row, hr, rfl⟩ := List.mem_map.1 hx
    obtain ⟨h3, h4⟩ := List.mem_filter.1 hr
    rw [hp row h3 (of_decide_eq_true h4), zero_mul]
  unfold stability
  rw [key (fun row => row.parent = c) h1, key (fun row => row.child = c) h2, sub_zero]

theorem stability_pos {c : ℕ} (hn : ∀ row ∈ rows, 0 ≤ row.lam) (hp : ∀ row ∈ rows, 0 < row.size)
    (h2 : ∀ row ∈ rows, row.child = c → row.lam = 0) {r : CRow V V} (hr : r ∈ rows) (hrc : r.parent = c)
    (hl : r.lam ≠ 0) : 0 < stability rows c := by
  unfold stability
  have hz : ((rows.filter fun row => decide (row.child = c)).map fun row => row.lam * row.size).sum = 0 := by
    apply List.sum_eq_zero
    intro x hx
    obtain ⟨row, hr, rfl⟩ := List.mem_map.1 hx
    obtain ⟨h3, h4⟩ := List.mem_filter.1 hr
    rw [h2 row h3 (of_decide_eq_true h4), zero_mul]
  rw [hz, sub_zero]
  have hmem : r.lam * r.size ∈ (rows.filter fun row => decide (row.parent = c)).map fun row => row.lam * row.size :=
    List.mem_map.2 ⟨r, List.mem_filter.2 ⟨hr, decide_eq_true hrc⟩, rfl⟩
  refine lt_of_lt_of_le (mul_pos (lt_of_le_of_ne (hn r hr) (Ne.symm hl)) (hp r hr)) (List.single_le_sum ?_ _ hmem)
  intro x hx
  obtain ⟨row, hr, rfl⟩ := List.mem_map.1 hx
  have hr := (List.mem_filter.1 hr).1
  exact mul_nonneg (hn row hr) (hp row hr).le

/-- Below a cluster that splits at lambda zero and has a sample leaving later, some cluster that appeared at lambda zero has
positive stability. -/
theorem SepHyp.exists_pos (ht : CondTree n k rows) (hh : SepHyp n rows) {c : ℕ} (hcn : n ≤ c)
    (hzero : ∀ row ∈ rows, row.parent = c → row.lam = 0) {r : CRow V V} (hr : r ∈ rows) (hrn : r.child < n)
    (hd : CDesc rows c r.child) (hl : r.lam ≠ 0) :
    ∃ d, n ≤ d ∧ d ≠ c ∧ CDesc rows c d ∧ 0 < stability rows d := by
  have key : ∀ q, CDesc rows c q → ∀ r ∈ rows, r.parent = q → r.lam ≠ 0 →
      ∃ d, n ≤ d ∧ d ≠ c ∧ CDesc rows c d ∧ 0 < stability rows d := by
    intro q hq
    induction hq with
    | refl => intro r hr he hl; exact absurd (hzero r hr he) hl
    | @tail q' q hq' hs ih =>
      intro r hr he hl
      obtain ⟨b, hb, h1, h2⟩ := hs
      by_cases hbl : b.lam = 0
      · have hqn : n ≤ q := by rw [← he]; exact (ht.parents r hr).1
        refine ⟨q, hqn, fun hqc => hl (hzero r hr (he.trans hqc)), hq'.tail ⟨b, hb, h1, h2⟩,
          stability_pos hh.nonneg hh.pos (fun row hrow hc => ?_) hr he hl⟩
        rw [List.inj_on_of_nodup_map ht.nodup hrow hb (hc.trans h2.symm)]; exact hbl
      · exact ih b hb h1 hbl
  rcases Relation.ReflTransGen.cases_tail hd with h1 | ⟨e, h1, b, h2, h3, h4⟩
  · omega
  · have := List.inj_on_of_nodup_map ht.nodup h2 hr h4
    subst this
    exact key e h1 b h2 h3 hl

/-- Sizes never grow downwards. -/
theorem SepHyp.size_le (hh : SepHyp n rows) {a b : CRow V V} (ha : a ∈ rows) (hb : b ∈ rows)
    (hbn : n ≤ b.child) (ht : CondTree n k rows) (hd : CDesc rows a.child b.child) : b.size ≤ a.size := by
  have key : ∀ q, CDesc rows a.child q → ∀ b ∈ rows, n ≤ b.child → b.child = q → b.size ≤ a.size := by
    intro q hq
    induction hq with
    | refl =>
      intro b hb _ he
      rw [List.inj_on_of_nodup_map ht.nodup hb ha he]
    | @tail q' q hq' hs ih =>
      intro b hb hbn he
      obtain ⟨r, hr, h1, h2⟩ := hs
      have := List.inj_on_of_nodup_map ht.nodup hb hr (he.trans h2.symm)
      subst this
      rcases Relation.ReflTransGen.cases_tail hq' with h3 | ⟨e, h3, r', h4, h5, h6⟩
      · exact hh.sizes a ha b hb hbn (h1.trans h3)
      · have hpn := (ht.parents b hb).1
        exact (hh.sizes r' h4 b hb hbn (h1.trans h6.symm)).trans (ih r' h4 (by rw [h6, ← h1]; exact hpn) h6)
  exact key _ hd b hb hbn rfl

open Finset in
/-- What excess-of-mass selects. -/
theorem SepHyp.eom (ht : CondTree n k rows) (hh : SepHyp n rows) (hne : rows ≠ []) {mx : Option V} {allow : Bool}
    {sel : List ℕ} (he : extractEom rows mx allow = some sel)
    (hroot : n ∈ sel → ∀ m, mx = some m → ∀ row ∈ rows, n ≤ row.child → row.size ≤ m) :
    ∀ c ∈ sel, SafeAt n rows c ∨ AllZero n rows c := by
  classical
  intro c hc
  by_cases hs : 1 < k
  swap
  · have hk1 : k = 1 := by have := ht.pos; omega
    subst hk1
    rw [C57_no_split_no_cluster rows ht hne hh.kind, Option.some.injEq] at he
    subst he; simp at hc
  by_contra hcon
  push Not at hcon
  obtain ⟨hns, hnz⟩ := hcon
  -- the selection
  obtain ⟨d, hkeys, hval, hex⟩ := ht.extractEom_eq hne hh.kind hs mx allow
  have hsel : sel = eomClusters (clusterTree rows) (ScoreOps.exact V) d (sizeExceeds (clusterTree rows) mx)
      (rootExceeds mx n) allow := by rw [hex, Option.some.injEq] at he; exact he.symm
  have hnn := C21_eom_not_nested rows ht hh.kind (ScoreOps.exact V) d (sizeExceeds (clusterTree rows) mx)
    (rootExceeds mx n) allow
  rw [← hsel] at hnn
  obtain ⟨hnest, hrange⟩ := hnn
  obtain ⟨sel', he', hsorted, hopt⟩ := C22_eom_optimal_partial rows ht hne hh.kind hs mx allow
  rw [he, Option.some.injEq] at he'
  subst he'
  have hcn := hrange c hc
  -- c splits at zero
  have hsplit : ∃ row ∈ rows, n ≤ row.child ∧ row.parent = c ∧ row.lam = 0 := by
    by_contra hno
    push Not at hno
    exact hns (SafeAt.of_own ht hh hno)
  obtain ⟨row0, hr0, hr0n, hr0p, hr0l⟩ := hsplit
  have hzero : ∀ row ∈ rows, row.parent = c → row.lam = 0 := fun row hrow hp =>
    le_antisymm (hr0l ▸ hh.last row hrow row0 hr0 (hp.trans hr0p.symm) hr0n) (hh.nonneg row hrow)
  have hbirth : ∀ row ∈ rows, row.child = c → row.lam = 0 := fun row hrow hp =>
    le_antisymm (hr0l ▸ hh.mono row hrow row0 hr0 (hr0p.trans hp.symm)) (hh.nonneg row hrow)
  have hstab := stability_zero hzero hbirth
  simp only [AllZero, not_forall] at hnz
  obtain ⟨r, hr, hrn, hrd, hrl⟩ := hnz
  obtain ⟨e, hen, hec, hce, hepos⟩ := hh.exists_pos ht hcn.1 hzero hr hrn hrd hrl
  have hct := ht.clTree hh.kind
  have hek : e < n + k := by
    rw [← ht.desc_clusterTree hh.kind hen] at hce
    exact (hct.desc_range hce hcn.1 hcn.2).2
  have hne' : n ≠ e := by
    rintro rfl
    have h1 := (ht.desc_clusterTree hh.kind hen).2 hce
    have := hct.desc_le h1
    omega
  have hdown : ∀ {a b}, CDesc rows a b → n ≤ b → a ≤ b := fun hab hb =>
    hct.desc_le ((ht.desc_clusterTree hh.kind hb).2 hab)
  have hnd : sel.Nodup := hsorted.imp (fun h => ne_of_lt h)
  set A : Finset ℕ := insert e (sel.toFinset.erase c) with hA
  have hesel : e ∉ sel := fun hes => hec (hnest c hc e hes hce).symm
  have hsum := hopt A ?_ ?_ ?_ ?_
  · rw [hA, Finset.sum_insert (by simp [hesel]), ← List.sum_toFinset _ hnd,
      ← Finset.add_sum_erase _ _ (List.mem_toFinset.2 hc), hstab, max_self, max_eq_left hepos.le, zero_add] at hsum
    have : 0 < stability rows e := hepos
    exact absurd hsum (not_le.2 (lt_add_of_pos_left _ this))
  · intro x hx
    rw [hA, Finset.mem_insert, Finset.mem_erase, List.mem_toFinset] at hx
    rcases hx with rfl | ⟨_, hx⟩
    · exact ⟨hen, hek⟩
    · exact hrange x hx
  · intro a ha b hb hab
    rw [hA, Finset.mem_insert, Finset.mem_erase, List.mem_toFinset] at ha hb
    rcases ha with rfl | ⟨hac, ha⟩ <;> rcases hb with rfl | ⟨hbc, hb⟩
    · rfl
    · exact absurd (hnest c hc b hb (hce.trans hab)).symm hbc
    · -- a and c are both above e
      exfalso
      have h1 := (ht.desc_clusterTree hh.kind hen).2 hab
      have h2 := (ht.desc_clusterTree hh.kind hen).2 hce
      rcases hct.comparable h1 h2 with h3 | h3
      · exact hac (hnest a ha c hc ((ht.desc_clusterTree hh.kind hcn.1).1 h3))
      · exact hac (hnest c hc a ha ((ht.desc_clusterTree hh.kind (hrange a ha).1).1 h3)).symm
    · exact hnest a ha b hb hab
  · intro hnA
    rw [hA, Finset.mem_insert, Finset.mem_erase, List.mem_toFinset] at hnA
    exfalso
    rcases hnA with h1 | ⟨h1, h2⟩
    · exact hne' h1
    · -- the top cluster is above c
      have h3 := hct.desc_root hcn.1 hcn.2
      exact h1 (hnest n h2 c hc ((ht.desc_clusterTree hh.kind hcn.1).1 h3))
  · intro row hrow hx m hm
    rw [hA, Finset.mem_insert, Finset.mem_erase, List.mem_toFinset] at hx
    have hc23 := C23_max_cluster_size_partial rows ht hne hh.kind m allow sel (hm ▸ he)
    rcases hx with hx | ⟨_, hx⟩
    · by_cases hcr : c = n
      · exact hroot (hcr ▸ hc) m hm row hrow (hx ▸ hen)
      · obtain ⟨b, hb, hbc⟩ := List.mem_map.1 ((ht.children c).2 (.inr ⟨by omega, hcn.2⟩))
        have h1 := hc23.1 b hb (by rw [hbc]; exact hc)
        exact (hh.size_le hb hrow (hx ▸ hen) ht (by rw [hbc, hx]; exact hce)).trans h1
    · exact hc23.1 row hrow hx
end

theorem length_of_mapM_some {α β : Type*} {f : α → Option β} {l : List α} {o : List β} (h : l.mapM f = some o) :
    o.length = l.length := by
  induction l generalizing o with
  | nil => simp at h; subst h; rfl
  | cons a l ih =>
    rw [List.mapM_cons] at h
    cases ha : f a with
    | none => rw [ha] at h; cases h
    | some b =>
      cases hl : l.mapM f with
      | none => rw [ha, hl] at h; cases h
      | some bs => rw [ha, hl] at h; cases h; simp [ih hl]

theorem getElem?_of_mapM_some {α β : Type*} {f : α → Option β} {l : List α} {o : List β} (h : l.mapM f = some o)
    {i : ℕ} {a : α} (ha : l[i]? = some a) : f a = o[i]? := by
  induction l generalizing o i with
  | nil => simp at ha
  | cons a' l ih =>
    rw [List.mapM_cons] at h
    cases ha' : f a' with
    | none => rw [ha'] at h; cases h
    | some b =>
      cases hl : l.mapM f with
      | none => rw [ha', hl] at h; cases h
      | some bs =>
        rw [ha', hl] at h; cases h
        cases i with
        | zero => simp at ha; subst ha; simpa using ha'
        | succ i => simp at ha; simpa using ih hl ha

/-- A non-negative label stands for a selected cluster above the sample, which left it at positive lambda. -/
theorem CondTree.labels_sound {L S : Type*} [LinearOrder L] [Zero L] {rows : List (CRow L S)} (h : CondTree n k rows)
    {sel : List ℕ} (hnd : sel.Nodup) (hsel : ∀ c ∈ sel, n ≤ c) (hnn : NonNested rows sel) {epsLam : Option L}
    {labels : List ℤ} (hl : labelVector rows sel epsLam n = some labels) {x : ℕ} {i : ℤ} (hx : labels[x]? = some i)
    (hi : 0 ≤ i) : x < n ∧ ∃ s, (sortIds sel)[i.toNat]? = some s ∧ CDesc rows s x ∧
      ∃ row ∈ rows, row.child = x ∧ row.lam ≠ 0 := by
  have hperm : (sortIds sel).Perm sel := List.perm_insertionSort _ sel
  by_cases hemp : rows.length = 0 ∨ sel.length = 0
  · unfold labelVector at hl
    rw [if_pos hemp, Option.some.injEq] at hl
    subst hl
    have := List.mem_of_getElem? hx
    rw [List.mem_replicate] at this
    omega
  · push Not at hemp
    have hne : rows ≠ [] := fun e => hemp.1 (by rw [e]; rfl)
    have hse : sel ≠ [] := fun e => hemp.2 (by rw [e]; rfl)
    rw [h.labelVector_eq hne hse] at hl
    have hlen := length_of_mapM_some hl
    have hxn : x < n := by
      have := (List.getElem?_eq_some_iff.1 hx).1
      rw [List.length_range] at hlen; omega
    have hone : labelOne rows sel epsLam n (labRep rows sel n x) x = some i := by
      have := getElem?_of_mapM_some hl (i := x) (a := x) (by simp [hxn])
      rw [hx] at this; exact this
    obtain ⟨row, hrow, rfl⟩ := List.mem_map.1 ((h.children x).2 (.inl hxn))
    obtain ⟨c1, c2, c3⟩ := h.label_cases hne hnd hsel hnn epsLam hrow hxn
    have hlam : row.lam ≠ 0 := fun e => by
      rw [c1 e, Option.some.injEq] at hone; omega
    have hmap : ∀ s ∈ sel, labelMap sel s = some i → (sortIds sel)[i.toNat]? = some s := by
      intro s hs hm
      obtain ⟨j, hj⟩ := List.mem_iff_getElem?.1 (hperm.mem_iff.2 hs)
      rw [labelMap_of_getElem hnd hj, Option.some.injEq] at hm
      rw [← hm]; simpa using hj
    refine ⟨hxn, ?_⟩
    by_cases hex : ∃ s ∈ sel, s ≠ n ∧ CDesc rows s row.child
    · obtain ⟨s, hs, hsn, hd⟩ := hex
      rw [c2 s hlam hs hsn hd] at hone
      exact ⟨s, hmap s hs hone, hd, row, hrow, rfl, hlam⟩
    · push Not at hex
      have hrep := c3 hlam fun s hs hd => by_contra fun hc => hex s hs hc hd
      have hd := (h.rep_sample hsel hrow hxn hlam).1
      rw [hrep] at hone hd
      by_cases hlen1 : sel.dedup.length = 1
      · obtain ⟨r1, r2⟩ := h.labelOne_root hne hlen1 epsLam hrow
        by_cases hden : DenseEnough n rows epsLam row
        · rw [r1 hden] at hone
          have hmem : n ∈ sel := by
            by_contra hc
            rw [labelMap, if_neg hc] at hone; cases hone
          exact ⟨n, hmap n hmem hone, hd, row, hrow, rfl, hlam⟩
        · rw [r2 hden, Option.some.injEq] at hone; omega
      · rw [labelOne, if_neg (lt_irrefl _), if_pos rfl, if_neg hlen1, Option.some.injEq] at hone; omega

end Verif
