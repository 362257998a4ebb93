import Verif.Lemmas.Kruskal

namespace Verif
variable {W : Type*}

/-! ### Linked lists in the pool -/

/-- Following `next` from `h` visits exactly the cells `cs`. -/
def LChain (next : ℕ → Option ℕ) : Option ℕ → List ℕ → Prop
  | h, [] => h = none
  | h, c :: cs => h = some c ∧ LChain next (next c) cs

theorem LChain.congr {next next' : ℕ → Option ℕ} {h : Option ℕ} {cs : List ℕ}
    (hc : LChain next h cs) (heq : ∀ c ∈ cs, next' c = next c) : LChain next' h cs := by
  induction cs generalizing h with
  | nil => exact hc
  | cons c cs ih =>
    refine ⟨hc.1, ?_⟩
    rw [heq c (by simp)]
    exact ih hc.2 fun d hd => heq d (by simp [hd])

theorem LChain.append {next : ℕ → Option ℕ} {h h2 : Option ℕ} {cs ds : List ℕ} {t : ℕ}
    (hc : LChain next h cs) (hn : cs.Nodup) (ht : cs.getLast? = some t)
    (hd : LChain (Function.update next t h2) h2 ds) :
    LChain (Function.update next t h2) h (cs ++ ds) := by
  induction cs generalizing h with
  | nil => simp at ht
  | cons c cs ih =>
    refine ⟨hc.1, ?_⟩
    cases cs with
    | nil =>
      simp only [List.getLast?_singleton, Option.some.injEq] at ht
      subst ht
      simpa using hd
    | cons d cs =>
      have hct : c ≠ t := by
        rintro rfl
        have : c ∈ d :: cs := by
          rw [List.getLast?_cons_cons] at ht
          exact List.mem_of_getLast? ht
        exact (List.nodup_cons.1 hn).1 this
      rw [Function.update_of_ne hct]
      exact ih hc.2 (List.nodup_cons.1 hn).2 (by rwa [List.getLast?_cons_cons] at ht)

theorem LChain.head_none {next : ℕ → Option ℕ} {h : Option ℕ} {cs : List ℕ}
    (hc : LChain next h cs) : h = none ↔ cs = [] := by
  cases cs with
  | nil => simpa [LChain] using hc
  | cons c cs => simp [hc.1]

/-- The pool stores, for every component `r`, the cells `cells r`. -/
structure PoolRep (P : Pool) (cells : ℕ → List ℕ) : Prop where
  chain : ∀ r, LChain P.next (P.head r) (cells r)
  tail : ∀ r, P.tail r = (cells r).getLast?
  csize : ∀ r, P.csize r = (cells r).length
  lt : ∀ r, ∀ c ∈ cells r, c < P.idx
  nodup : ∀ r, (cells r).Nodup
  disj : ∀ r r', r ≠ r' → ∀ c ∈ cells r, c ∉ cells r'
  fresh : ∀ c, P.idx ≤ c → P.next c = none

theorem PoolRep.empty : PoolRep Pool.empty (fun _ => []) where
  chain := fun _ => rfl
  tail := fun _ => rfl
  csize := fun _ => rfl
  lt := fun _ c hc => by simp at hc
  nodup := fun _ => List.nodup_nil
  disj := fun _ _ _ c hc => by simp at hc
  fresh := fun _ _ => rfl

theorem PoolRep.push {P : Pool} {cells : ℕ → List ℕ} (h : PoolRep P cells) (i c : ℕ) :
    PoolRep (Pool.push i P c) (Function.update cells i (cells i ++ [P.idx])) := by
  have htail := h.tail i
  have hfresh : ∀ r, P.idx ∉ cells r := fun r hm => absurd (h.lt r _ hm) (lt_irrefl _)
  constructor
  · intro r
    by_cases hr : r = i
    · subst hr
      rw [Function.update_self]
      cases ht : P.tail r with
      | none =>
        rw [ht] at htail
        have hnil : cells r = [] := List.getLast?_eq_none_iff.1 htail.symm
        simp only [Pool.push, ht, hnil, List.nil_append, Function.update_self]
        exact ⟨rfl, h.fresh _ (le_refl _)⟩
      | some t =>
        rw [ht] at htail
        simp only [Pool.push, ht]
        refine (h.chain r).append (h.nodup r) htail.symm ⟨rfl, ?_⟩
        have : P.idx ≠ t := by
          rintro rfl
          exact hfresh r (List.mem_of_getLast? htail.symm)
        rw [Function.update_of_ne this]
        exact h.fresh _ (le_refl _)
    · rw [Function.update_of_ne hr]
      cases ht : P.tail i with
      | none =>
        simp only [Pool.push, ht, Function.update_of_ne hr]
        exact h.chain r
      | some t =>
        rw [ht] at htail
        simp only [Pool.push, ht]
        refine (h.chain r).congr fun d hd => ?_
        rw [Function.update_of_ne]
        rintro rfl
        exact h.disj r i hr d hd (List.mem_of_getLast? htail.symm)
  · intro r
    by_cases hr : r = i
    · subst hr; simp [Pool.push]
    · simp only [Pool.push, Function.update_of_ne hr]; exact h.tail r
  · intro r
    by_cases hr : r = i
    · subst hr; simp [Pool.push, h.csize]
    · simp only [Pool.push, Function.update_of_ne hr]; exact h.csize r
  · intro r d hd
    simp only [Pool.push]
    by_cases hr : r = i
    · subst hr
      rw [Function.update_self, List.mem_append, List.mem_singleton] at hd
      rcases hd with hd | rfl
      · have := h.lt r d hd; omega
      · omega
    · rw [Function.update_of_ne hr] at hd
      have := h.lt r d hd; omega
  · intro r
    by_cases hr : r = i
    · subst hr
      rw [Function.update_self, List.nodup_append]
      refine ⟨h.nodup r, by simp, ?_⟩
      intro a ha b hb
      simp only [List.mem_singleton] at hb
      subst hb
      rintro rfl
      exact hfresh r ha
    · rw [Function.update_of_ne hr]; exact h.nodup r
  · intro r r' hrr d hd hd'
    by_cases hr : r = i
    · subst hr
      rw [Function.update_self, List.mem_append, List.mem_singleton] at hd
      rw [Function.update_of_ne hrr.symm] at hd'
      rcases hd with hd | rfl
      · exact h.disj r r' hrr d hd hd'
      · exact hfresh r' hd'
    · rw [Function.update_of_ne hr] at hd
      by_cases hr' : r' = i
      · subst hr'
        rw [Function.update_self, List.mem_append, List.mem_singleton] at hd'
        rcases hd' with hd' | rfl
        · exact h.disj r r' hrr d hd hd'
        · exact hfresh r hd
      · rw [Function.update_of_ne hr'] at hd'
        exact h.disj r r' hrr d hd hd'
  · intro d hd
    simp only [Pool.push] at hd ⊢
    cases ht : P.tail i with
    | none => exact h.fresh d (by omega)
    | some t =>
      rw [ht] at htail
      simp only
      have : d ≠ t := by
        have := h.lt i t (List.mem_of_getLast? htail.symm); omega
      rw [Function.update_of_ne this]
      exact h.fresh d (by omega)

/-- The constraint partners stored for component `r`. -/
def PContents (P : Pool) (cells : ℕ → List ℕ) (r : ℕ) : List ℕ := (cells r).map P.vertex

theorem PoolRep.push_contents {P : Pool} {cells : ℕ → List ℕ} (h : PoolRep P cells) (i c r : ℕ) :
    PContents (Pool.push i P c) (Function.update cells i (cells i ++ [P.idx])) r =
      if r = i then PContents P cells i ++ [c] else PContents P cells r := by
  unfold PContents
  have hfresh : ∀ r, ∀ d ∈ cells r, d ≠ P.idx := fun r d hm => by
    have := h.lt r d hm; omega
  split
  · rename_i hr
    subst hr
    rw [Function.update_self, List.map_append]
    congr 1
    · apply List.map_congr_left
      intro d hd
      simp only [Pool.push, Function.update_of_ne (hfresh r d hd)]
    · simp [Pool.push]
  · rename_i hr
    rw [Function.update_of_ne hr]
    apply List.map_congr_left
    intro d hd
    simp only [Pool.push, Function.update_of_ne (hfresh r d hd)]

theorem PoolRep.push_list {P : Pool} {cells : ℕ → List ℕ} (h : PoolRep P cells) (i : ℕ)
    (cs : List ℕ) : ∃ cells', PoolRep (cs.foldl (Pool.push i) P) cells' ∧
      ∀ r, PContents (cs.foldl (Pool.push i) P) cells' r =
        if r = i then PContents P cells i ++ cs else PContents P cells r := by
  induction cs generalizing P cells with
  | nil => exact ⟨cells, h, fun r => by split <;> simp_all⟩
  | cons c cs ih =>
    obtain ⟨cells', h1, h2⟩ := ih (h.push i c)
    refine ⟨cells', h1, fun r => ?_⟩
    rw [List.foldl_cons, h2]
    split
    · rw [h.push_contents, if_pos rfl]; simp
    · rw [h.push_contents]
      rename_i hr
      rw [if_neg hr]

theorem Pool.init_rep (n : ℕ) (cl : ℕ → List ℕ) : ∃ cells, PoolRep (Pool.init n cl) cells ∧
    ∀ r, PContents (Pool.init n cl) cells r = if r < n then cl r else [] := by
  unfold Pool.init
  induction n with
  | zero => exact ⟨fun _ => [], PoolRep.empty, fun r => by simp [PContents]⟩
  | succ n ih =>
    obtain ⟨cells, h1, h2⟩ := ih
    rw [List.range_succ, List.foldl_append]
    obtain ⟨cells', h3, h4⟩ := h1.push_list n (cl n)
    refine ⟨cells', h3, fun r => ?_⟩
    simp only [List.foldl_cons, List.foldl_nil]
    rw [h4, h2, h2]
    by_cases hr : r = n
    · subst hr; simp
    · rw [if_neg hr]
      by_cases hr' : r < n
      · rw [if_pos hr', if_pos (by omega)]
      · rw [if_neg hr', if_neg (by omega)]

theorem PoolRep.merge {P : Pool} {cells : ℕ → List ℕ} (h : PoolRep P cells) {new old : ℕ}
    (hne : new ≠ old) : PoolRep (P.merge new old)
      (Function.update (Function.update cells new (cells new ++ cells old)) old []) := by
  have hton := h.tail new
  have hcells : ∀ r, Function.update (Function.update cells new (cells new ++ cells old)) old [] r =
      if r = old then [] else if r = new then cells new ++ cells old else cells r := by
    intro r
    by_cases h1 : r = old
    · subst h1; simp
    · rw [Function.update_of_ne h1, if_neg h1]
      by_cases h2 : r = new
      · subst h2; simp
      · rw [Function.update_of_ne h2, if_neg h2]
  by_cases hold : (P.head old).isSome
  swap
  · -- nothing to merge
    have hnil : cells old = [] := by
      rw [← (h.chain old).head_none]
      simpa using hold
    have hc2 : ∀ r, Function.update (Function.update cells new (cells new ++ cells old)) old [] r =
        cells r := by
      intro r
      rw [hcells]
      split
      · rename_i h1; subst h1; exact hnil.symm
      · split
        · rename_i h1; subst h1; simp [hnil]
        · rfl
    have hP : P.merge new old = P := by
      unfold Pool.merge
      simp only [hold, Bool.false_eq_true, if_false]
      have e1 : Function.update P.head old none = P.head := by
        rw [Function.update_eq_self_iff]
        exact ((h.chain old).head_none.2 hnil).symm
      have e2 : Function.update P.tail old none = P.tail := by
        rw [Function.update_eq_self_iff, h.tail, hnil]; rfl
      have e3 : Function.update P.csize old 0 = P.csize := by
        rw [Function.update_eq_self_iff, h.csize, hnil]; rfl
      rw [e1, e2, e3]
    rw [hP, show Function.update (Function.update cells new (cells new ++ cells old)) old [] = cells
      from funext hc2]
    exact h
  · have holdne : cells old ≠ [] := by
      intro hnil
      rw [← (h.chain old).head_none] at hnil
      rw [hnil] at hold
      simp at hold
    constructor
    · intro r
      rw [hcells]
      by_cases h1 : r = old
      · subst h1
        simp [Pool.merge, hold, LChain]
      · rw [if_neg h1]
        by_cases h2 : r = new
        · subst h2
          rw [if_pos rfl]
          cases ht : P.tail r with
          | none =>
            rw [ht] at hton
            have hnil : cells r = [] := List.getLast?_eq_none_iff.1 hton.symm
            simp only [Pool.merge, hold, if_true, ht, hnil, List.nil_append]
            rw [Function.update_of_ne h1, Function.update_self]
            exact h.chain old
          | some t =>
            rw [ht] at hton
            simp only [Pool.merge, hold, if_true, ht]
            rw [Function.update_of_ne h1]
            refine (h.chain r).append (h.nodup r) hton.symm ?_
            refine (h.chain old).congr fun d hd => ?_
            rw [Function.update_of_ne]
            rintro rfl
            exact h.disj old r hne.symm d hd (List.mem_of_getLast? hton.symm)
        · rw [if_neg h2]
          cases ht : P.tail new with
          | none =>
            simp only [Pool.merge, hold, if_true, ht]
            rw [Function.update_of_ne h1, Function.update_of_ne h2]
            exact h.chain r
          | some t =>
            rw [ht] at hton
            simp only [Pool.merge, hold, if_true, ht]
            rw [Function.update_of_ne h1]
            refine (h.chain r).congr fun d hd => ?_
            rw [Function.update_of_ne]
            rintro rfl
            exact h.disj r new h2 d hd (List.mem_of_getLast? hton.symm)
    · intro r
      rw [hcells]
      simp only [Pool.merge, hold, if_true]
      by_cases h1 : r = old
      · subst h1; simp
      · rw [if_neg h1, Function.update_of_ne h1]
        by_cases h2 : r = new
        · subst h2
          rw [if_pos rfl, Function.update_self, h.tail, List.getLast?_append_of_ne_nil _ holdne]
        · rw [if_neg h2, Function.update_of_ne h2]; exact h.tail r
    · intro r
      rw [hcells]
      simp only [Pool.merge, hold, if_true]
      by_cases h1 : r = old
      · subst h1; simp
      · rw [if_neg h1, Function.update_of_ne h1]
        by_cases h2 : r = new
        · subst h2
          rw [if_pos rfl, Function.update_self, h.csize, h.csize, List.length_append]
        · rw [if_neg h2, Function.update_of_ne h2]; exact h.csize r
    · intro r d hd
      rw [hcells] at hd
      simp only [Pool.merge, hold, if_true]
      split at hd
      · simp at hd
      · split at hd
        · rcases List.mem_append.1 hd with hd | hd
          · exact h.lt _ d hd
          · exact h.lt _ d hd
        · exact h.lt _ d hd
    · intro r
      rw [hcells]
      split
      · exact List.nodup_nil
      · split
        · rw [List.nodup_append]
          refine ⟨h.nodup _, h.nodup _, ?_⟩
          rintro a ha b hb rfl
          exact h.disj new old hne a ha hb
        · exact h.nodup _
    · intro r r' hrr d hd hd'
      rw [hcells] at hd hd'
      by_cases h1 : r = old
      · rw [if_pos h1] at hd; simp at hd
      · by_cases h1' : r' = old
        · rw [if_pos h1'] at hd'; simp at hd'
        · rw [if_neg h1] at hd
          rw [if_neg h1'] at hd'
          by_cases h2 : r = new
          · have h2' : r' ≠ new := fun h => hrr (h2.trans h.symm)
            rw [if_pos h2] at hd
            rw [if_neg h2'] at hd'
            rcases List.mem_append.1 hd with hd | hd
            · exact h.disj new r' h2'.symm d hd hd'
            · exact h.disj old r' (Ne.symm h1') d hd hd'
          · rw [if_neg h2] at hd
            by_cases h2' : r' = new
            · rw [if_pos h2'] at hd'
              rcases List.mem_append.1 hd' with hd' | hd'
              · exact h.disj r new h2 d hd hd'
              · exact h.disj r old h1 d hd hd'
            · rw [if_neg h2'] at hd'
              exact h.disj r r' hrr d hd hd'
    · intro d hd
      simp only [Pool.merge, hold, if_true] at hd ⊢
      cases ht : P.tail new with
      | none => exact h.fresh d hd
      | some t =>
        rw [ht] at hton
        simp only
        have : d ≠ t := by
          have := h.lt new t (List.mem_of_getLast? hton.symm); omega
        rw [Function.update_of_ne this]
        exact h.fresh d hd

theorem Pool.merge_vertex (P : Pool) (new old : ℕ) : (P.merge new old).vertex = P.vertex := by
  unfold Pool.merge
  split <;> rfl

theorem PoolRep.length_le {P : Pool} {cells : ℕ → List ℕ} (h : PoolRep P cells) (r : ℕ) :
    (cells r).length ≤ P.idx := by
  have h1 : (cells r).Subperm (List.range P.idx) :=
    List.subperm_of_subset (h.nodup r) fun c hc => List.mem_range.2 (h.lt r c hc)
  simpa using h1.length_le

theorem Pool.scan_iff {n : ℕ} {p : ℕ → ℕ} {P : Pool} {big : ℕ} (f : ℕ) {hd : Option ℕ}
    {cs : List ℕ} (hc : LChain P.next hd cs) (hf : cs.length ≤ f) :
    Pool.scan n p P big f hd = true ↔ ∃ y ∈ cs.map P.vertex, root n p y = big := by
  induction f generalizing hd cs with
  | zero =>
    cases cs with
    | nil => rw [show hd = none from hc]; simp [Pool.scan]
    | cons c cs => simp at hf
  | succ f ih =>
    cases cs with
    | nil => rw [show hd = none from hc]; simp [Pool.scan]
    | cons c cs =>
      rw [hc.1]
      simp only [Pool.scan, chaseRoot_root, List.map_cons, List.mem_cons, exists_eq_or_imp]
      split
      · rename_i h1; simp [h1]
      · rename_i h1
        rw [ih hc.2 (by simpa using hf)]
        simp [h1]

/-! ### The constrained loop -/

/-- The constraint relation given by CSR rows. -/
def CLRel (n : ℕ) (cl : ℕ → List ℕ) (x y : ℕ) : Prop := x < n ∧ y ∈ cl x

/-- Invariant of `_kruskal_core_constrained`. -/
structure CInv (n : ℕ) (cl : ℕ → List ℕ) (es : List (Edge W)) (s : CState W) : Prop where
  base : KInv n (CLRel n cl) es s.toKState
  pool : ∃ cells, PoolRep s.pool cells ∧ ∀ r, s.pred r = r → ∀ y,
    y ∈ PContents s.pool cells r ↔ ∃ x, x < n ∧ root n s.pred x = r ∧ y ∈ cl x

theorem CInv.init (n : ℕ) (cl : ℕ → List ℕ) :
    CInv n cl ([] : List (Edge W)) ⟨⟨fun x => x, fun _ => 0, []⟩, Pool.init n cl⟩ := by
  refine ⟨KInv.init n _, ?_⟩
  obtain ⟨cells, h1, h2⟩ := Pool.init_rep n cl
  refine ⟨cells, h1, fun r _ y => ?_⟩
  simp only [h2]
  constructor
  · intro hy
    split at hy
    · rename_i hr
      exact ⟨r, hr, (PForest.id n).root_of_fixed rfl, hy⟩
    · simp at hy
  · rintro ⟨x, hx, hxr, hy⟩
    rw [(PForest.id n).root_of_fixed rfl] at hxr
    subst hxr
    rw [if_pos hx]; exact hy

theorem Pool.conflict_iff {n : ℕ} {p : ℕ → ℕ} {P : Pool} {cells : ℕ → List ℕ} {cl : ℕ → List ℕ}
    (hsym : ∀ x y, CLRel n cl x y → CLRel n cl y x)
    (hP : PoolRep P cells)
    (hcont : ∀ r, p r = r → ∀ y,
      y ∈ PContents P cells r ↔ ∃ x, x < n ∧ root n p x = r ∧ y ∈ cl x)
    {ru rv : ℕ} (hu : p ru = ru) (hv : p rv = rv) :
    P.conflict n p ru rv = true ↔
      ∃ x y, root n p x = ru ∧ root n p y = rv ∧ CLRel n cl x y := by
  have hscan : ∀ a b, p a = a →
      (Pool.scan n p P b P.idx (P.head a) = true ↔
        ∃ x y, root n p x = a ∧ root n p y = b ∧ CLRel n cl x y) := by
    intro a b ha
    rw [Pool.scan_iff P.idx (hP.chain a) (hP.length_le a)]
    constructor
    · rintro ⟨y, hy, hyb⟩
      obtain ⟨x, hx, hxa, hxy⟩ := (hcont a ha y).1 hy
      exact ⟨x, y, hxa, hyb, hx, hxy⟩
    · rintro ⟨x, y, hxa, hyb, hx, hxy⟩
      exact ⟨y, (hcont a ha y).2 ⟨x, hx, hxa, hxy⟩, hyb⟩
  unfold Pool.conflict
  split
  · split
    · exact hscan ru rv hu
    · rw [hscan rv ru hv]
      constructor
      · rintro ⟨x, y, h1, h2, h3⟩; exact ⟨y, x, h2, h1, hsym _ _ h3⟩
      · rintro ⟨x, y, h1, h2, h3⟩; exact ⟨y, x, h2, h1, hsym _ _ h3⟩
  · rename_i hz
    simp only [Bool.false_eq_true, false_iff]
    rintro ⟨x, y, h1, h2, h3⟩
    apply hz
    constructor
    · rw [hP.csize]
      have : y ∈ PContents P cells ru := (hcont ru hu y).2 ⟨x, h3.1, h1, h3.2⟩
      unfold PContents at this
      rcases List.mem_map.1 this with ⟨c, hc, _⟩
      exact List.length_pos_of_mem hc
    · rw [hP.csize]
      have h4 := hsym _ _ h3
      have : x ∈ PContents P cells rv := (hcont rv hv x).2 ⟨y, h4.1, h2, h4.2⟩
      unfold PContents at this
      rcases List.mem_map.1 this with ⟨c, hc, _⟩
      exact List.length_pos_of_mem hc

theorem root_fixed_iff {n : ℕ} {p p' : ℕ → ℕ} (hp : PForest n p) (hp' : PForest n p')
    (hr : ∀ x, root n p' x = root n p x) (r : ℕ) : p' r = r ↔ p r = r := by
  constructor
  · intro h
    have := hp'.root_of_fixed h
    rw [hr] at this
    rw [← this]; exact hp.root_fixed _
  · intro h
    have := hp.root_of_fixed h
    rw [← hr] at this
    rw [← this]; exact hp'.root_fixed _

theorem constrainedStep_inv {n : ℕ} {cl : ℕ → List ℕ}
    (hsym : ∀ x y, CLRel n cl x y → CLRel n cl y x) {es : List (Edge W)} {s : CState W}
    {e : Edge W} (h : CInv n cl es s) (hu : e.u < n) (hv : e.v < n) :
    CInv n cl (es ++ [e]) (constrainedStep n s e) := by
  obtain ⟨hb, cells, hP, hcont⟩ := h
  unfold constrainedStep
  split
  · rename_i hl
    exact ⟨⟨Greedy.skip hb.greedy (not_permitted_of_full hb.greedy hb.rep.inRange hl hu hv), hb.rep⟩,
      cells, hP, hcont⟩
  · split
    · rename_i heq
      refine ⟨⟨Greedy.skip hb.greedy fun hp => hp.1 ?_, hb.rep⟩, cells, hP, hcont⟩
      rw [heq]; exact Conn.refl _ _
    · obtain ⟨h1, h2, h3⟩ := findCompress_spec hb.rep.forest e.u
      obtain ⟨h4, h5, h6⟩ := findCompress_spec h2 e.v
      obtain ⟨hrep, hru, hrv⟩ := find_two hb.rep e.u e.v
      have hroots : ∀ x, root n (findCompress n (findCompress n s.pred e.u).1 e.v).1 x =
          root n s.pred x := fun x => by rw [h6, h3]
      have hfix := root_fixed_iff hb.rep.forest h5 hroots
      simp only
      generalize hru' : (findCompress n s.pred e.u).2 = ru at *
      generalize hrv' : (findCompress n (findCompress n s.pred e.u).1 e.v).2 = rv at *
      generalize hpp : (findCompress n (findCompress n s.pred e.u).1 e.v).1 = p' at *
      have hcont' : ∀ r, p' r = r → ∀ y,
          y ∈ PContents s.pool cells r ↔ ∃ x, x < n ∧ root n p' x = r ∧ y ∈ cl x := by
        intro r hr y
        rw [hcont r ((hfix r).1 hr)]
        simp only [hroots]
      have hpu : p' ru = ru := by rw [hru]; exact h5.root_fixed _
      have hpv : p' rv = rv := by rw [hrv]; exact h5.root_fixed _
      split
      · rename_i heq
        refine ⟨⟨Greedy.skip hb.greedy fun hp => hp.1 ((hrep.conn _ _).1 ?_), hrep⟩, cells, hP, hcont'⟩
        rw [← hru, ← hrv, heq]
      · rename_i hne
        have hci := Pool.conflict_iff hsym hP hcont' hpu hpv
        split
        · rename_i hcf
          rw [hci] at hcf
          obtain ⟨x, y, hx, hy, hxy⟩ := hcf
          refine ⟨⟨Greedy.skip hb.greedy fun hp => hp.2 x y ((hrep.conn _ _).1 ?_)
            ((hrep.conn _ _).1 ?_) hxy, hrep⟩, cells, hP, hcont'⟩
          · rw [hx, hru]
          · rw [hy, hrv]
        · rename_i hcf
          rw [hci] at hcf
          have hne' : root n p' e.u ≠ root n p' e.v := by rw [← hru, ← hrv]; exact hne
          have hun := unionRank_spec s.rank ru rv
          generalize hnew : (unionRank s.rank ru rv).1 = new at *
          generalize hold : (unionRank s.rank ru rv).2.1 = old at *
          have hno : new ≠ old := by
            rcases hun with ⟨rfl, rfl⟩ | ⟨rfl, rfl⟩
            · exact hne
            · exact Ne.symm hne
          have hnewfix : p' new = new := by
            rcases hun with ⟨rfl, rfl⟩ | ⟨rfl, rfl⟩ <;> assumption
          have holdfix : p' old = old := by
            rcases hun with ⟨rfl, rfl⟩ | ⟨rfl, rfl⟩ <;> assumption
          have hlt : new < n ∧ old < n := by
            have a1 : ru < n := hru ▸ h5.root_lt hu
            have a2 : rv < n := hrv ▸ h5.root_lt hv
            rcases hun with ⟨rfl, rfl⟩ | ⟨rfl, rfl⟩
            · exact ⟨a1, a2⟩
            · exact ⟨a2, a1⟩
          have hrl := h5.root_link hnewfix holdfix hno hlt.1 hlt.2
          refine ⟨⟨Greedy.take hb.greedy ⟨fun hc => hne' ((hrep.conn _ _).2 hc),
            fun x y hx hy hxy => hcf ⟨x, y, ?_, ?_, hxy⟩⟩, ?_⟩, ?_⟩
          · rw [hru]; exact ((hrep.conn _ _).2 hx).symm
          · rw [hrv]; exact ((hrep.conn _ _).2 hy).symm
          · apply hrep.link hu hv hne'
            rw [← hru, ← hrv]
            exact hun
          · refine ⟨_, hP.merge hno, fun r hr y => ?_⟩
            simp only [PContents, Pool.merge_vertex]
            have hro : r ≠ old := by
              rintro rfl
              simp only [Function.update_self] at hr
              exact hno hr
            simp only [Function.update_of_ne hro] at hr ⊢
            by_cases hrn : r = new
            · subst hrn
              rw [Function.update_self, List.map_append, List.mem_append]
              have c1 := hcont' r hnewfix y
              have c2 := hcont' old holdfix y
              unfold PContents at c1 c2
              rw [c1, c2]
              constructor
              · rintro (⟨x, hx, hxr, hy⟩ | ⟨x, hx, hxr, hy⟩)
                · refine ⟨x, hx, ?_, hy⟩
                  rw [hrl, hxr, if_neg hno]
                · refine ⟨x, hx, ?_, hy⟩
                  rw [hrl, hxr, if_pos rfl]
              · rintro ⟨x, hx, hxr, hy⟩
                rw [hrl] at hxr
                split at hxr
                · rename_i ho; exact Or.inr ⟨x, hx, ho, hy⟩
                · exact Or.inl ⟨x, hx, hxr, hy⟩
            · rw [Function.update_of_ne hrn]
              have c1 := hcont' r hr y
              unfold PContents at c1
              rw [c1]
              constructor
              · rintro ⟨x, hx, hxr, hy⟩
                refine ⟨x, hx, ?_, hy⟩
                rw [hrl, hxr, if_neg hro]
              · rintro ⟨x, hx, hxr, hy⟩
                rw [hrl] at hxr
                split at hxr
                · exact absurd hxr.symm hrn
                · exact ⟨x, hx, hxr, hy⟩

theorem constrainedCore_inv {n : ℕ} {cl : ℕ → List ℕ}
    (hsym : ∀ x y, CLRel n cl x y → CLRel n cl y x) {es : List (Edge W)} (hr : InRange n es) :
    CInv n cl es (constrainedCore n cl es) := by
  induction es using List.reverseRecOn with
  | nil => exact CInv.init n cl
  | append_singleton es e ih =>
    have hr' : InRange n es := fun x hx => hr x (by simp [hx])
    have he := hr e (by simp)
    have := constrainedStep_inv hsym (ih hr') he.1 he.2
    unfold constrainedCore at this ⊢
    rw [List.foldl_append]
    exact this

/-! ### The group loop -/

/-- Same non-negative group. -/
def GroupRel (n : ℕ) (g : ℕ → ℤ) (x y : ℕ) : Prop := x < n ∧ y < n ∧ 0 ≤ g x ∧ g x = g y

structure GInv (n : ℕ) (g : ℕ → ℤ) (nWords : ℕ) (es : List (Edge W)) (s : GState W) : Prop where
  base : KInv n (GroupRel n g) es s.toKState
  mask : ∀ r, s.pred r = r → ∀ w, w < nWords → ∀ b, b < 64 →
    ((s.mask r w).getLsbD b = true ↔
      ∃ x, x < n ∧ root n s.pred x = r ∧ 0 ≤ g x ∧ (g x).toNat = 64 * w + b)

theorem GInv.init (n : ℕ) (g : ℕ → ℤ) (nWords : ℕ) :
    GInv n g nWords ([] : List (Edge W)) ⟨⟨fun x => x, fun _ => 0, []⟩, groupMaskInit n g⟩ := by
  refine ⟨KInv.init n _, fun r _ w hw b hb => ?_⟩
  simp only [groupMaskInit]
  constructor
  · intro h
    split at h
    · rename_i hc
      obtain ⟨h1, h2, h3⟩ := hc
      refine ⟨r, h1, (PForest.id n).root_of_fixed rfl, h2, ?_⟩
      have hlt : (g r).toNat % 64 < 64 := Nat.mod_lt _ (by norm_num)
      simp only [BitVec.zero_or, BitVec.getLsbD_shiftLeft, Bool.and_eq_true, Bool.not_eq_true',
        decide_eq_true_eq, decide_eq_false_iff_not, BitVec.getLsbD_one] at h
      omega
    · simp at h
  · rintro ⟨x, hx, hxr, h0, hxw⟩
    rw [(PForest.id n).root_of_fixed rfl] at hxr
    subst hxr
    rw [if_pos ⟨hx, h0, by omega⟩]
    simp only [BitVec.zero_or, BitVec.getLsbD_shiftLeft, Bool.and_eq_true, Bool.not_eq_true',
      decide_eq_true_eq, decide_eq_false_iff_not, BitVec.getLsbD_one]
    omega

theorem groupConflict_iff {n nWords : ℕ} {g : ℕ → ℤ} {p : ℕ → ℕ} {mask : ℕ → ℕ → BitVec 64}
    (hg : ∀ x, x < n → g x < 64 * nWords)
    (hmask : ∀ r, p r = r → ∀ w, w < nWords → ∀ b, b < 64 →
      ((mask r w).getLsbD b = true ↔
        ∃ x, x < n ∧ root n p x = r ∧ 0 ≤ g x ∧ (g x).toNat = 64 * w + b))
    {ru rv : ℕ} (hu : p ru = ru) (hv : p rv = rv) :
    groupConflict nWords mask ru rv = true ↔
      ∃ x y, root n p x = ru ∧ root n p y = rv ∧ GroupRel n g x y := by
  unfold groupConflict
  rw [List.any_eq_true]
  constructor
  · rintro ⟨w, hw, h⟩
    rw [List.mem_range] at hw
    simp only [bne_iff_ne, ne_eq] at h
    have : ∃ b, b < 64 ∧ (mask ru w &&& mask rv w).getLsbD b = true := by
      by_contra hne
      push Not at hne
      apply h
      apply BitVec.eq_of_getLsbD_eq
      intro i hi
      have := hne i hi
      simpa using this
    obtain ⟨b, hb, h1⟩ := this
    rw [BitVec.getLsbD_and, Bool.and_eq_true] at h1
    obtain ⟨x, hx, hxr, hx0, hxw⟩ := (hmask ru hu w hw b hb).1 h1.1
    obtain ⟨y, hy, hyr, hy0, hyw⟩ := (hmask rv hv w hw b hb).1 h1.2
    exact ⟨x, y, hxr, hyr, hx, hy, hx0, by omega⟩
  · rintro ⟨x, y, hxr, hyr, hx, hy, hx0, hxy⟩
    have hlt := hg x hx
    set w := (g x).toNat / 64
    set b := (g x).toNat % 64
    have hb : b < 64 := Nat.mod_lt _ (by norm_num)
    have hw : w < nWords := by omega
    have hwb : (g x).toNat = 64 * w + b := by omega
    refine ⟨w, List.mem_range.2 hw, ?_⟩
    simp only [bne_iff_ne, ne_eq]
    intro h0
    have h1 := (hmask ru hu w hw b hb).2 ⟨x, hx, hxr, hx0, hwb⟩
    have h2 := (hmask rv hv w hw b hb).2 ⟨y, hy, hyr, by omega, by omega⟩
    have : (mask ru w &&& mask rv w).getLsbD b = true := by
      rw [BitVec.getLsbD_and, h1, h2]; rfl
    rw [h0] at this
    simp at this

theorem groupStep_inv {n nWords : ℕ} {g : ℕ → ℤ} (hg : ∀ x, x < n → g x < 64 * nWords)
    {es : List (Edge W)} {s : GState W} {e : Edge W} (h : GInv n g nWords es s)
    (hu : e.u < n) (hv : e.v < n) : GInv n g nWords (es ++ [e]) (groupStep n nWords s e) := by
  obtain ⟨hb, hmask⟩ := h
  unfold groupStep
  split
  · rename_i hl
    exact ⟨⟨Greedy.skip hb.greedy (not_permitted_of_full hb.greedy hb.rep.inRange hl hu hv), hb.rep⟩,
      hmask⟩
  · split
    · rename_i heq
      refine ⟨⟨Greedy.skip hb.greedy fun hp => hp.1 ?_, hb.rep⟩, hmask⟩
      rw [heq]; exact Conn.refl _ _
    · obtain ⟨h1, h2, h3⟩ := findCompress_spec hb.rep.forest e.u
      obtain ⟨h4, h5, h6⟩ := findCompress_spec h2 e.v
      obtain ⟨hrep, hru, hrv⟩ := find_two hb.rep e.u e.v
      have hroots : ∀ x, root n (findCompress n (findCompress n s.pred e.u).1 e.v).1 x =
          root n s.pred x := fun x => by rw [h6, h3]
      have hfix := root_fixed_iff hb.rep.forest h5 hroots
      simp only
      generalize hru' : (findCompress n s.pred e.u).2 = ru at *
      generalize hrv' : (findCompress n (findCompress n s.pred e.u).1 e.v).2 = rv at *
      generalize hpp : (findCompress n (findCompress n s.pred e.u).1 e.v).1 = p' at *
      have hmask' : ∀ r, p' r = r → ∀ w, w < nWords → ∀ b, b < 64 →
          ((s.mask r w).getLsbD b = true ↔
            ∃ x, x < n ∧ root n p' x = r ∧ 0 ≤ g x ∧ (g x).toNat = 64 * w + b) := by
        intro r hr w hw b hb
        rw [hmask r ((hfix r).1 hr) w hw b hb]
        simp only [hroots]
      have hpu : p' ru = ru := by rw [hru]; exact h5.root_fixed _
      have hpv : p' rv = rv := by rw [hrv]; exact h5.root_fixed _
      split
      · rename_i heq
        refine ⟨⟨Greedy.skip hb.greedy fun hp => hp.1 ((hrep.conn _ _).1 ?_), hrep⟩, hmask'⟩
        rw [← hru, ← hrv, heq]
      · rename_i hne
        have hci := groupConflict_iff hg hmask' hpu hpv
        split
        · rename_i hcf
          rw [hci] at hcf
          obtain ⟨x, y, hx, hy, hxy⟩ := hcf
          refine ⟨⟨Greedy.skip hb.greedy fun hp => hp.2 x y ((hrep.conn _ _).1 ?_)
            ((hrep.conn _ _).1 ?_) hxy, hrep⟩, hmask'⟩
          · rw [hx, hru]
          · rw [hy, hrv]
        · rename_i hcf
          rw [hci] at hcf
          have hne' : root n p' e.u ≠ root n p' e.v := by rw [← hru, ← hrv]; exact hne
          have hun := unionRank_spec s.rank ru rv
          generalize hnew : (unionRank s.rank ru rv).1 = new at *
          generalize hold : (unionRank s.rank ru rv).2.1 = old at *
          have hno : new ≠ old := by
            rcases hun with ⟨rfl, rfl⟩ | ⟨rfl, rfl⟩
            · exact hne
            · exact Ne.symm hne
          have hnewfix : p' new = new := by
            rcases hun with ⟨rfl, rfl⟩ | ⟨rfl, rfl⟩ <;> assumption
          have holdfix : p' old = old := by
            rcases hun with ⟨rfl, rfl⟩ | ⟨rfl, rfl⟩ <;> assumption
          have hlt : new < n ∧ old < n := by
            have a1 : ru < n := hru ▸ h5.root_lt hu
            have a2 : rv < n := hrv ▸ h5.root_lt hv
            rcases hun with ⟨rfl, rfl⟩ | ⟨rfl, rfl⟩
            · exact ⟨a1, a2⟩
            · exact ⟨a2, a1⟩
          have hrl := h5.root_link hnewfix holdfix hno hlt.1 hlt.2
          refine ⟨⟨Greedy.take hb.greedy ⟨fun hc => hne' ((hrep.conn _ _).2 hc),
            fun x y hx hy hxy => hcf ⟨x, y, ?_, ?_, hxy⟩⟩, ?_⟩, ?_⟩
          · rw [hru]; exact ((hrep.conn _ _).2 hx).symm
          · rw [hrv]; exact ((hrep.conn _ _).2 hy).symm
          · apply hrep.link hu hv hne'
            rw [← hru, ← hrv]
            exact hun
          · intro r hr w hw b hb
            have hro : r ≠ old := by
              rintro rfl
              simp only [Function.update_self] at hr
              exact hno hr
            simp only [Function.update_of_ne hro] at hr ⊢
            by_cases hrn : r = new
            · subst hrn
              rw [if_pos ⟨rfl, hw⟩, BitVec.getLsbD_or, Bool.or_eq_true,
                hmask' r hnewfix w hw b hb, hmask' old holdfix w hw b hb]
              constructor
              · rintro (⟨x, hx, hxr, hy⟩ | ⟨x, hx, hxr, hy⟩)
                · refine ⟨x, hx, ?_, hy⟩
                  rw [hrl, hxr, if_neg hno]
                · refine ⟨x, hx, ?_, hy⟩
                  rw [hrl, hxr, if_pos rfl]
              · rintro ⟨x, hx, hxr, hy⟩
                rw [hrl] at hxr
                split at hxr
                · rename_i ho; exact Or.inr ⟨x, hx, ho, hy⟩
                · exact Or.inl ⟨x, hx, hxr, hy⟩
            · rw [if_neg (by tauto), hmask' r hr w hw b hb]
              constructor
              · rintro ⟨x, hx, hxr, hy⟩
                refine ⟨x, hx, ?_, hy⟩
                rw [hrl, hxr, if_neg hro]
              · rintro ⟨x, hx, hxr, hy⟩
                rw [hrl] at hxr
                split at hxr
                · exact absurd hxr.symm hrn
                · exact ⟨x, hx, hxr, hy⟩

theorem groupCore_inv {n : ℕ} {g : ℕ → ℤ} {nGroups : ℕ} (hg : ∀ x, x < n → g x < nGroups)
    {es : List (Edge W)} (hr : InRange n es) :
    GInv n g ((nGroups + 63) / 64) es (groupCore n g nGroups es) := by
  have hg' : ∀ x, x < n → g x < 64 * (((nGroups + 63) / 64 : ℕ) : ℤ) := by
    intro x hx
    have := hg x hx
    omega
  induction es using List.reverseRecOn with
  | nil => exact GInv.init n g _
  | append_singleton es e ih =>
    have hr' : InRange n es := fun x hx => hr x (by simp [hx])
    have he := hr e (by simp)
    have := groupStep_inv hg' (ih hr') he.1 he.2
    unfold groupCore at this ⊢
    rw [List.foldl_append]
    exact this

end Verif
