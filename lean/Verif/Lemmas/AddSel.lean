import Verif.Lemmas.AddSample
import Verif.Model.Pipeline
import Verif.Lemmas.RenDown

/-!
# One more sample: selection of clusters

All clusters get the next number.
-/

namespace Verif
variable {L S V : Type*}

/-- A row between clusters, with the next numbers. -/
def nextRow (row : CRow L S) : CRow L S := ⟨row.parent + 1, row.child + 1, row.lam, row.size⟩

theorem upCRow_cluster {n : ℕ} {row : CRow L S} (hp : n ≤ row.parent) (hc : n ≤ row.child) : upCRow n row = nextRow row := by
  unfold upCRow nextRow; rw [up_ge hp, up_ge hc]

theorem clusterTree_add [One S] [LinearOrder S] {n : ℕ} {T : List (CRow L S)} (hp : ∀ row ∈ T, n ≤ row.parent) (hk : ∀ row ∈ T, 1 < row.size → n ≤ row.child) (p c : ℕ) (l : L) :
    clusterTree (⟨p, c, l, 1⟩ :: T.map (upCRow n)) = (clusterTree T).map nextRow := by
  unfold clusterTree
  rw [List.filter_cons_of_neg (by simp)]
  induction T with
  | nil => rfl
  | cons row T ih =>
    have ih := ih (fun r hr => hp r (by simp [hr])) fun r hr => hk r (by simp [hr])
    rw [List.map_cons]
    by_cases hs : 1 < row.size
    · rw [List.filter_cons_of_pos (by simp [upCRow, hs]), List.filter_cons_of_pos (by simp [hs]), List.map_cons, ih,
        upCRow_cluster (hp row (by simp)) (hk row (by simp) hs)]
    · rw [List.filter_cons_of_neg (by simp [upCRow, hs]), List.filter_cons_of_neg (by simp [hs]), ih]

theorem kidsOf_next (ct : List (CRow L S)) (c : ℕ) : kidsOf (ct.map nextRow) (c + 1) = (kidsOf ct c).map (· + 1) := by
  unfold kidsOf
  rw [List.filter_map, List.map_map, List.map_map]
  congr 1
  · congr 1
    funext row
    simp [nextRow]

theorem foldl_min_next (l : List ℕ) (a : ℕ) : (l.map (· + 1)).foldl min (a + 1) = l.foldl min a + 1 := by
  induction l generalizing a with
  | nil => rfl
  | cons b l ih =>
    rw [List.map_cons, List.foldl_cons, List.foldl_cons, ← ih, ← min_add_add_right]

theorem foldl_max_next (l : List ℕ) (a : ℕ) : (l.map (· + 1)).foldl max (a + 1) = l.foldl max a + 1 := by
  induction l generalizing a with
  | nil => rfl
  | cons b l ih =>
    rw [List.map_cons, List.foldl_cons, List.foldl_cons, ← ih, ← max_add_add_right]

theorem parents_next (ct : List (CRow L S)) : (ct.map nextRow).map CRow.parent = (ct.map CRow.parent).map (· + 1) := by
  rw [List.map_map, List.map_map]; rfl

theorem children_next (ct : List (CRow L S)) : (ct.map nextRow).map CRow.child = (ct.map CRow.child).map (· + 1) := by
  rw [List.map_map, List.map_map]; rfl

/-! ### Leaves -/

theorem leafSelection_next (ct : List (CRow L S)) (n : ℕ) : leafSelection (ct.map nextRow) (n + 1) = (leafSelection ct n).map (· + 1) := by
  unfold leafSelection
  cases ct with
  | nil => rfl
  | cons row ct =>
    rw [if_neg (by simp), if_neg (by simp)]
    unfold clusterTreeLeaves
    have h1 : ((List.map nextRow (row :: ct)).map CRow.child).foldl max 0 = (((row :: ct).map CRow.child).foldl max 0) + 1 := by
      rw [children_next, List.map_cons, List.map_cons, List.foldl_cons, List.foldl_cons, Nat.zero_max, Nat.zero_max]
      exact foldl_max_next _ _
    rw [h1, show ∀ a, a + 1 + 1 - (n + 1) = a + 1 - n from fun a => by omega]
    generalize ((row :: ct).map CRow.child).foldl max 0 + 1 - n = m
    rw [show List.range' (n + 1) m = (List.range' n m).map (· + 1) from List.range'_succ_left, List.filter_map]
    congr 2
    funext c
    simp [nextRow]

/-! ### Excess of mass -/

theorem unselectBelow_next (ct : List (CRow L S)) : ∀ (f node : ℕ) (sel sel' : ℕ → Bool), (∀ x, sel' (x + 1) = sel x) →
    ∀ x, unselectBelow (ct.map nextRow) f (node + 1) sel' (x + 1) = unselectBelow ct f node sel x
  | 0, _, _, _, h, x => h x
  | f + 1, node, sel, sel', h, x => by
    unfold unselectBelow
    rw [kidsOf_next]
    generalize kidsOf ct node = l
    induction l generalizing sel sel' with
    | nil => exact h x
    | cons c l ih =>
      rw [List.map_cons, List.foldl_cons, List.foldl_cons]
      refine ih _ _ fun y => ?_
      simp only [Function.update_apply, Nat.add_right_cancel_iff]
      rw [unselectBelow_next ct f c sel sel' h y]

theorem eomRec_next {ct : List (CRow L S)} {r : ℕ} (hd : ∀ row ∈ ct, row.parent < row.child) (o : ScoreOps V) (score score' : ℕ → V) (big big' : ℕ → Bool)
    (hs : ∀ c, r < c → score' (c + 1) = score c) (hb : ∀ c, r < c → big' (c + 1) = big c) :
    ∀ (f node : ℕ) (sel sel' : ℕ → Bool), r < node → (∀ x, sel' (x + 1) = sel x) →
      (eomRec (ct.map nextRow) o score' big' f (node + 1) sel').1 = (eomRec ct o score big f node sel).1 ∧
      ∀ x, (eomRec (ct.map nextRow) o score' big' f (node + 1) sel').2 (x + 1) = (eomRec ct o score big f node sel).2 x
  | 0, _, _, _, _, h => ⟨rfl, h⟩
  | f + 1, node, sel, sel', hr, h => by
    have hkids : ∀ c ∈ kidsOf ct node, r < c := by
      intro c hc
      unfold kidsOf at hc
      obtain ⟨row, hrow, rfl⟩ := List.mem_map.1 hc
      obtain ⟨h1, h2⟩ := List.mem_filter.1 hrow
      have := hd row h1
      have : row.parent = node := of_decide_eq_true h2
      omega
    have hfold : ∀ (l : List ℕ), (∀ c ∈ l, r < c) → ∀ (acc acc' : V × (ℕ → Bool)), acc'.1 = acc.1 → (∀ x, acc'.2 (x + 1) = acc.2 x) →
        ((l.map (· + 1)).foldl (fun acc c => (o.add acc.1 (eomRec (ct.map nextRow) o score' big' f c acc.2).1, (eomRec (ct.map nextRow) o score' big' f c acc.2).2)) acc').1 =
          (l.foldl (fun acc c => (o.add acc.1 (eomRec ct o score big f c acc.2).1, (eomRec ct o score big f c acc.2).2)) acc).1 ∧
        ∀ x, ((l.map (· + 1)).foldl (fun acc c => (o.add acc.1 (eomRec (ct.map nextRow) o score' big' f c acc.2).1, (eomRec (ct.map nextRow) o score' big' f c acc.2).2)) acc').2 (x + 1) =
          (l.foldl (fun acc c => (o.add acc.1 (eomRec ct o score big f c acc.2).1, (eomRec ct o score big f c acc.2).2)) acc).2 x := by
      intro l
      induction l with
      | nil => exact fun _ _ _ h1 h2 => ⟨h1, h2⟩
      | cons c l ih =>
        intro hl acc acc' h1 h2
        obtain ⟨g1, g2⟩ := eomRec_next hd o score score' big big' hs hb f c acc.2 acc'.2 (hl c (by simp)) h2
        rw [List.map_cons, List.foldl_cons, List.foldl_cons]
        exact ih (fun c hc => hl c (by simp [hc])) _ _ (by simp only [h1, g1]) g2
    obtain ⟨k1, k2⟩ := hfold _ hkids (o.zero, sel) (o.zero, sel') rfl h
    rw [← kidsOf_next] at k1 k2
    unfold eomRec
    simp only [hs node hr, hb node hr, k1]
    split_ifs
    · exact ⟨k1, k2⟩
    · refine ⟨rfl, unselectBelow_next ct (f + 1) node _ _ fun x => ?_⟩
      simp only [Function.update_apply, Nat.add_right_cancel_iff, k2]

theorem sizeExceeds_next [LT S] [DecidableLT S] (ct : List (CRow L S)) (mx : Option S) (c : ℕ) : sizeExceeds (ct.map nextRow) mx (c + 1) = sizeExceeds ct mx c := by
  unfold sizeExceeds
  cases mx with
  | none => rfl
  | some m =>
    simp only [List.any_map]
    congr 1
    funext row
    exact decide_eq_decide.2 (by simp [nextRow])

/-- Score dictionaries that agree except for the top cluster. -/
structure ScoreNext (n : ℕ) (d d' : ScoreDict V) : Prop where
  keys : d'.keys = d.keys.map (· + 1)
  val : ∀ c, c ≠ n → d'.val (c + 1) = d.val c

theorem ScoreNext.set {n : ℕ} {d d' : ScoreDict V} (h : ScoreNext n d d') (c : ℕ) {x x' : V} (hx : c ≠ n → x' = x) : ScoreNext n (d.set c x) (d'.set (c + 1) x') := by
  refine ⟨?_, fun a ha => ?_⟩
  · unfold ScoreDict.set
    have : (c + 1 ∈ d'.keys) = (c ∈ d.keys) := by rw [h.keys]; simp
    simp only [this]
    split_ifs
    · exact h.keys
    · simp [h.keys]
  · unfold ScoreDict.set
    simp only [Function.update_apply, Nat.add_right_cancel_iff]
    split_ifs with he
    · exact hx (he ▸ ha)
    · exact h.val a ha

theorem scoreStep_add [Ring V] [LinearOrder V] {n : ℕ} {row : CRow V V} (hp : n ≤ row.parent) (hk : 1 < row.size → n < row.child) {d d' : ScoreDict V}
    (h : ScoreNext n d d') :
    (scoreStep d row = none ∧ scoreStep d' (upCRow n row) = none) ∨ ∃ e e', scoreStep d row = some e ∧ scoreStep d' (upCRow n row) = some e' ∧ ScoreNext n e e' := by
  have hd : ScoreNext n (if 1 < row.size then d.set row.child (-row.lam * row.size) else d)
      (if 1 < row.size then d'.set (up n row.child) (-row.lam * row.size) else d') := by
    split_ifs with hs
    · rw [up_ge (hk hs).le]; exact h.set _ fun _ => rfl
    · exact h
  unfold scoreStep
  simp only [upCRow, up_ge hp]
  have hkey : ∀ {d d' : ScoreDict V}, ScoreNext n d d' → ((row.parent + 1 ∈ d'.keys) = (row.parent ∈ d.keys)) := fun h => by rw [h.keys]; simp
  generalize (if 1 < row.size then d.set row.child (-row.lam * row.size) else d) = e at hd ⊢
  generalize (if 1 < row.size then d'.set (up n row.child) (-row.lam * row.size) else d') = e' at hd ⊢
  simp only [hkey hd]
  split_ifs with h1
  · exact .inr ⟨_, _, rfl, rfl, hd.set _ fun hne => by rw [hd.val _ hne]⟩
  · exact .inl ⟨rfl, rfl⟩

theorem scoreFold_add [Ring V] [LinearOrder V] {n : ℕ} (T : List (CRow V V)) (hp : ∀ row ∈ T, n ≤ row.parent) (hk : ∀ row ∈ T, 1 < row.size → n < row.child) {d d' : ScoreDict V}
    (h : ScoreNext n d d') :
    (T.foldlM scoreStep d = none ∧ (T.map (upCRow n)).foldlM scoreStep d' = none) ∨
      ∃ e e', T.foldlM scoreStep d = some e ∧ (T.map (upCRow n)).foldlM scoreStep d' = some e' ∧ ScoreNext n e e' := by
  induction T generalizing d d' with
  | nil => exact .inr ⟨d, d', rfl, rfl, h⟩
  | cons row T ih =>
    rw [List.map_cons, List.foldlM_cons, List.foldlM_cons]
    rcases scoreStep_add (hp row (by simp)) (hk row (by simp)) h with ⟨h1, h2⟩ | ⟨e, e', h1, h2, h3⟩
    · rw [h1, h2]; exact .inl ⟨rfl, rfl⟩
    · rw [h1, h2]
      exact ih (fun r hr => hp r (by simp [hr])) (fun r hr => hk r (by simp [hr])) h3

theorem eomClusters_next {ct : List (CRow L S)} {n : ℕ} (hd : ∀ row ∈ ct, row.parent < row.child) (hp : ∀ row ∈ ct, n ≤ row.parent) (o : ScoreOps V) {d d' : ScoreDict V} (h : ScoreNext n d d')
    (big big' : ℕ → Bool) (hb : ∀ c, big' (c + 1) = big c) (rb rb' : Bool) :
    eomClusters (ct.map nextRow) o d' big' rb' false = (eomClusters ct o d big rb false).map (· + 1) := by
  cases ct with
  | nil => rfl
  | cons row ct =>
    have hunf : eomClusters ((row :: ct).map nextRow) o d' big' rb' false = d'.keys.filter fun c =>
        (if 1 < d'.keys.length then (kidsOf ((row :: ct).map nextRow) ((((row :: ct).map nextRow).map CRow.parent).foldl min (nextRow row).parent)).foldl
          (fun s c => (eomRec ((row :: ct).map nextRow) o d'.val (Function.update big' ((((row :: ct).map nextRow).map CRow.parent).foldl min (nextRow row).parent) rb')
            (((row :: ct).map nextRow).length + 1) c s).2) (fun _ => false) else fun _ => false) c := rfl
    have hunf0 : eomClusters (row :: ct) o d big rb false = d.keys.filter fun c =>
        (if 1 < d.keys.length then (kidsOf (row :: ct) (((row :: ct).map CRow.parent).foldl min row.parent)).foldl
          (fun s c => (eomRec (row :: ct) o d.val (Function.update big (((row :: ct).map CRow.parent).foldl min row.parent) rb)
            ((row :: ct).length + 1) c s).2) (fun _ => false) else fun _ => false) c := rfl
    rw [hunf, hunf0]
    have hroot : ((List.map nextRow (row :: ct)).map CRow.parent).foldl min (nextRow row).parent = ((row :: ct).map CRow.parent).foldl min row.parent + 1 := by
      rw [parents_next]; exact foldl_min_next _ _
    have hge : n ≤ ((row :: ct).map CRow.parent).foldl min row.parent := by
      have : ∀ (l : List ℕ) (a : ℕ), n ≤ a → (∀ x ∈ l, n ≤ x) → n ≤ l.foldl min a := by
        intro l
        induction l with
        | nil => exact fun a ha _ => ha
        | cons b l ih => exact fun a ha hl => ih _ (le_min ha (hl b (by simp))) fun x hx => hl x (by simp [hx])
      refine this _ _ (hp row (by simp)) fun x hx => ?_
      obtain ⟨r, hr, rfl⟩ := List.mem_map.1 hx
      exact hp r hr
    rw [hroot]
    generalize ((row :: ct).map CRow.parent).foldl min row.parent = r at hge ⊢
    clear hunf hunf0 hroot
    generalize row :: ct = cs at hd hp ⊢
    simp only [List.length_map]
    have hlen : d'.keys.length = d.keys.length := by rw [h.keys, List.length_map]
    rw [hlen, h.keys, List.filter_map]
    congr 1
    have hsel : ∀ x, (if 1 < d.keys.length then (kidsOf (cs.map nextRow) (r + 1)).foldl (fun s c => (eomRec (cs.map nextRow) o d'.val (Function.update big' (r + 1) rb') (cs.length + 1) c s).2) (fun _ => false)
          else fun _ => false) (x + 1) =
        (if 1 < d.keys.length then (kidsOf cs r).foldl (fun s c => (eomRec cs o d.val (Function.update big r rb) (cs.length + 1) c s).2) (fun _ => false) else fun _ => false) x := by
      intro x
      split_ifs
      · have hkids : ∀ c ∈ kidsOf cs r, r < c := by
          intro c hc
          unfold kidsOf at hc
          obtain ⟨row, hrow, rfl⟩ := List.mem_map.1 hc
          obtain ⟨h1, h2⟩ := List.mem_filter.1 hrow
          have := hd row h1
          have : row.parent = r := of_decide_eq_true h2
          omega
        rw [kidsOf_next]
        have hfold : ∀ (l : List ℕ), (∀ c ∈ l, r < c) → ∀ (s s' : ℕ → Bool), (∀ x, s' (x + 1) = s x) → ∀ x,
            (l.map (· + 1)).foldl (fun s c => (eomRec (cs.map nextRow) o d'.val (Function.update big' (r + 1) rb') (cs.length + 1) c s).2) s' (x + 1) =
              l.foldl (fun s c => (eomRec cs o d.val (Function.update big r rb) (cs.length + 1) c s).2) s x := by
          intro l
          induction l with
          | nil => exact fun _ _ _ h => h
          | cons c l ih =>
            intro hl s s' hs
            rw [List.map_cons, List.foldl_cons, List.foldl_cons]
            refine ih (fun c hc => hl c (by simp [hc])) _ _ (eomRec_next hd o d.val d'.val _ _ (fun c hc => h.val c (by omega)) (fun c hc => ?_) _ c s s' (hl c (by simp)) hs).2
            rw [Function.update_of_ne (by omega), Function.update_of_ne (by omega), hb]
        exact hfold _ hkids _ _ (fun _ => rfl) x
      · rfl
    refine List.filter_congr fun c _ => ?_
    exact hsel c

theorem extractEom_add [Ring V] [LinearOrder V] {n : ℕ} {T : List (CRow V V)} (hp : ∀ row ∈ T, n ≤ row.parent) (hk : ∀ row ∈ T, 1 < row.size → n < row.child)
    (hd : ∀ row ∈ T, 1 < row.size → row.parent < row.child) (hhead : (T.head?).map CRow.parent = some n) (l : V) (mx : Option V) :
    extractEom (⟨n + 1, n, l, 1⟩ :: T.map (upCRow n)) mx false = (extractEom T mx false).map (List.map (· + 1)) := by
  unfold extractEom
  rw [clusterTree_add hp fun row hr hs => (hk row hr hs).le]
  have hfirst : ∃ d1, scoreStep (⟨[n + 1], fun _ => 0⟩ : ScoreDict V) ⟨n + 1, n, l, 1⟩ = some d1 ∧ ScoreNext n ⟨[n], fun _ => 0⟩ d1 := by
    refine ⟨_, by simp [scoreStep]; rfl, ⟨by simp [ScoreDict.set], fun c hc => ?_⟩⟩
    simp [ScoreDict.set, hc]
  obtain ⟨d1, e1, e2⟩ := hfirst
  have hs : scoreNodes (⟨n + 1, n, l, 1⟩ :: T.map (upCRow n)) = (T.map (upCRow n)).foldlM scoreStep d1 := by
    show (_ :: T.map (upCRow n)).foldlM scoreStep ⟨[n + 1], fun _ => 0⟩ = _
    rw [List.foldlM_cons, e1]; rfl
  have hs0 : scoreNodes T = T.foldlM scoreStep ⟨[n], fun _ => 0⟩ := by
    cases T with
    | nil => simp at hhead
    | cons row T =>
      simp only [List.head?_cons, Option.map_some, Option.some.injEq] at hhead
      show (row :: T).foldlM scoreStep ⟨[row.parent], fun _ => 0⟩ = _
      rw [hhead]
  simp only [hs, hs0]
  rcases scoreFold_add T hp hk e2 with ⟨g1, g2⟩ | ⟨e, e', g1, g2, g3⟩
  · rw [g1, g2]; rfl
  · rw [g1, g2]
    simp only [Option.map_some, Option.some.injEq]
    refine eomClusters_next (fun row hr => ?_) (fun row hr => hp row (List.mem_filter.1 hr).1) _ g3 _ _ (sizeExceeds_next _ _) _ _
    obtain ⟨h1, h2⟩ := List.mem_filter.1 hr
    exact hd row h1 (of_decide_eq_true h2)

/-! ### The epsilon search -/

theorem searchLeft_next (a : List ℕ) (x : ℕ) : searchLeft (a.map (· + 1)) (x + 1) = searchLeft a x := by
  unfold searchLeft
  induction a with
  | nil => rfl
  | cons b a ih =>
    by_cases h : b < x
    · rw [List.map_cons, List.takeWhile_cons_of_pos (by simpa using h), List.takeWhile_cons_of_pos (by simpa using h), List.length_cons, List.length_cons, ih]
    · rw [List.map_cons, List.takeWhile_cons_of_neg (by simpa using h), List.takeWhile_cons_of_neg (by simpa using h)]

theorem find_child_next (ct : List (CRow L S)) (c : ℕ) :
    (ct.map nextRow).find? (fun row => decide (row.child = c + 1)) = (ct.find? fun row => decide (row.child = c)).map nextRow := by
  rw [List.find?_map]
  congr 2
  funext row
  simp [nextRow]

theorem traverseUpwards_next (close : L → Bool) (ct : List (CRow L S)) (root : ℕ) : ∀ f seg,
    traverseUpwards close (ct.map nextRow) (root + 1) f (seg + 1) = (traverseUpwards close ct root f seg).map (· + 1)
  | 0, _ => rfl
  | f + 1, seg => by
    unfold traverseUpwards
    rw [find_child_next]
    cases ct.find? (fun row => decide (row.child = seg)) with
    | none => rfl
    | some row =>
      simp only [Option.map_some]
      by_cases hr : row.parent = root
      · rw [if_pos hr, if_pos (by simp [nextRow, hr])]; rfl
      · rw [if_neg hr, if_neg (by simpa [nextRow] using hr)]
        simp only [show (nextRow row).parent = row.parent + 1 from rfl, find_child_next]
        cases ct.find? (fun r => decide (r.child = row.parent)) with
        | none => rfl
        | some prow =>
          simp only [Option.map_some, show (nextRow prow).lam = prow.lam from rfl]
          split_ifs
          · exact traverseUpwards_next close ct root f row.parent
          · rfl

theorem branchNext_next (parents children : List ℕ) (seg : ℕ) :
    branchNext (parents.map (· + 1)) (children.map (· + 1)) (seg + 1) = (branchNext parents children seg).map (· + 1) := by
  unfold branchNext
  simp only [searchLeft_next, List.length_map, List.getElem?_map]
  split_ifs
  · rfl
  · rw [List.map_append]
    congr 1 <;> (rw [Option.toList_map])

theorem segmentsInBranch_next (parents children : List ℕ) : ∀ f (l : List ℕ),
    segmentsInBranch (parents.map (· + 1)) (children.map (· + 1)) f (l.map (· + 1)) = (segmentsInBranch parents children f l).map (· + 1)
  | 0, _ => rfl
  | f + 1, [] => rfl
  | f + 1, a :: as => by
    have : ((a :: as).map (· + 1)).flatMap (branchNext (parents.map (· + 1)) (children.map (· + 1))) = ((a :: as).flatMap (branchNext parents children)).map (· + 1) := by
      generalize a :: as = l
      induction l with
      | nil => rfl
      | cons b l ih => rw [List.map_cons, List.flatMap_cons, List.flatMap_cons, List.map_append, ih, branchNext_next]
    rw [List.map_cons] at this ⊢
    unfold segmentsInBranch
    rw [this, segmentsInBranch_next, List.map_append, List.map_cons]

theorem epsilonSearch_next (close : L → Bool) (ct : List (CRow L S)) (hne : ct ≠ []) (sel : List ℕ) :
    epsilonSearch close (ct.map nextRow) (sel.map (· + 1)) = (epsilonSearch close ct sel).map (List.map (· + 1)) := by
  unfold epsilonSearch
  have hsort : (ct.map nextRow).insertionSort (fun a b : CRow L S => a.parent ≤ b.parent) = (ct.insertionSort (fun a b : CRow L S => a.parent ≤ b.parent)).map nextRow :=
    (List.map_insertionSort _ _ _ _ fun a _ b _ => by simp [nextRow]).symm
  have hroot : ((ct.map nextRow).map CRow.parent).foldl min (((ct.map nextRow).map CRow.parent).headD 0) =
      (ct.map CRow.parent).foldl min ((ct.map CRow.parent).headD 0) + 1 := by
    rw [parents_next]
    cases ct with
    | nil => exact absurd rfl hne
    | cons row ct => exact foldl_min_next _ _
  simp only [hsort, hroot]
  generalize (ct.map CRow.parent).foldl min ((ct.map CRow.parent).headD 0) = root
  generalize ct.insertionSort (fun a b : CRow L S => a.parent ≤ b.parent) = bp
  have key : ∀ (l a b : List ℕ), (l.map (· + 1)).foldlM (epsStep close (ct.map nextRow) (bp.map nextRow) (root + 1)) (a.map (· + 1), b.map (· + 1)) =
      (l.foldlM (epsStep close ct bp root) (a, b)).map fun st => (st.1.map (· + 1), st.2.map (· + 1)) := by
    intro l
    induction l with
    | nil => exact fun _ _ => rfl
    | cons c l ih =>
      intro a b
      have hstep : epsStep close (ct.map nextRow) (bp.map nextRow) (root + 1) (a.map (· + 1), b.map (· + 1)) (c + 1) =
          (epsStep close ct bp root (a, b) c).map fun st => (st.1.map (· + 1), st.2.map (· + 1)) := by
        unfold epsStep
        rw [children_next, searchLeft_next, List.getElem?_map]
        cases ct[searchLeft (ct.map CRow.child) c]? with
        | none => rfl
        | some row =>
          simp only [Option.map_some, show (nextRow row).lam = row.lam from rfl, List.length_map, traverseUpwards_next]
          have hmem : (c + 1 ∈ b.map (· + 1)) = (c ∈ b) := by simp
          simp only [hmem]
          split_ifs
          · rfl
          · cases traverseUpwards close ct root (ct.length + 1) c with
            | none => rfl
            | some p =>
              simp only [Option.map_some, parents_next, children_next, List.map_append, List.map_cons, List.map_nil]
              rw [← segmentsInBranch_next]; rfl
          · simp
      rw [List.map_cons, List.foldlM_cons, List.foldlM_cons, hstep]
      cases epsStep close ct bp root (a, b) c with
      | none => rfl
      | some st => exact ih st.1 st.2
  have := key sel [] []
  rw [List.map_nil] at this
  rw [this, Option.map_map, Option.map_map]
  rfl

end Verif
