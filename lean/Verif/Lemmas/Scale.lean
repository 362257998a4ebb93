import Verif.Lemmas.LinkHier
import Verif.Spec.Scale
import Verif.Model.Bcubed
import Verif.Model.KruskalApi
import Verif.Lemmas.Labels
import Verif.Lemmas.PreTrees
import Verif.Model.Pipeline
import Mathlib.Algebra.Order.Field.Basic
import Mathlib.Tactic.Ring

/-!
# Scaling the distances
-/

namespace Verif
variable {W V L M S : Type*}

section Linkage

theorem lexsortMst_mapW [LinearOrder W] [LinearOrder V] {φ : W → V} (hφ : StrictMono φ) (g : List (Edge W)) :
    lexsortMst (g.map (Edge.mapW φ)) = (lexsortMst g).map (Edge.mapW φ) := by
  unfold lexsortMst
  refine (List.map_insertionSort _ _ _ _ fun a _ b _ => ?_).symm
  unfold lexLe Edge.mapW
  simp only [hφ.lt_iff_lt, hφ.injective.eq_iff]

/-- The state with other distances in the rows. -/
def LinkState.mapD (g : W → V) (st : LinkState W S) : LinkState V S := ⟨st.parent, st.size, st.next, st.rows.map (LRow.mapD g)⟩

theorem mstToLinkage_mapW [Add S] [Zero S] (φ : W → V) (wt : ℕ → S) (es : List (Edge W)) :
    mstToLinkage wt (es.map (Edge.mapW φ)) = (mstToLinkage wt es).map (LRow.mapD φ) := by
  have key : ∀ (m : ℕ) (es : List (Edge W)) (st : LinkState W S),
      (es.map (Edge.mapW φ)).foldl (linkStep m) (st.mapD φ) = (es.foldl (linkStep m) st).mapD φ := by
    intro m es
    induction es with
    | nil => exact fun _ => rfl
    | cons e es ih =>
      intro st
      rw [List.map_cons, List.foldl_cons, List.foldl_cons, ← ih]
      congr 1
      unfold linkStep LinkState.mapD Edge.mapW
      simp only [List.map_append, List.map_cons, List.map_nil]
      congr 2
      split <;> rfl
  unfold mstToLinkage
  simp only [List.length_map]
  have := key (2 * (es.length + 1) - 1) es (linkInit (es.length + 1) wt)
  exact congrArg LinkState.rows this

end Linkage

section Condense
variable [LinearOrder S] [One S]

/-- The state with other lambdas in the rows. -/
def CondState.mapLam (g : L → M) (st : CondState L S) : CondState M S := ⟨st.relabel, st.ignore, st.rows.map (CRow.mapLam g), st.next⟩

omit [LinearOrder S] in
theorem eliminateBranch_mapLam (g : L → M) (H : Hier W S) (H' : Hier V S) (hm : H'.m = H.m) (hl : H'.l = H.l) (hr : H'.r = H.r) (p : ℕ) (lv : L)
    (st : CondState L S) (v : ℕ) : eliminateBranch H' p (g lv) (st.mapLam g) v = (eliminateBranch H p lv st v).mapLam g := by
  have hn : H'.n = H.n := by unfold Hier.n; rw [hm]
  have hb : H'.bfs v = H.bfs v := by
    have hk : H'.kids = H.kids := by funext u; unfold Hier.kids; rw [hn, hl, hr]
    have : ∀ f l, H'.bfsAux f l = H.bfsAux f l := by
      intro f
      induction f with
      | zero => exact fun _ => rfl
      | succ f ih =>
        intro l
        cases l with
        | nil => rfl
        | cons a as => unfold Hier.bfsAux; rw [hk, ih]
    exact this _ _
  unfold eliminateBranch
  rw [hn, hb]
  split
  · simp [CondState.mapLam, CRow.mapLam]
  · generalize H.bfs v = l
    induction l generalizing st with
    | nil => rfl
    | cons u l ih =>
      rw [List.foldl_cons, List.foldl_cons, ← ih]
      congr 1
      unfold elimStep
      split <;> simp [CondState.mapLam, CRow.mapLam]

theorem condenseTree_mapLam {g : L → M} {H : Hier W S} {H' : Hier V S} (hv : H.Valid) (hm : H'.m = H.m) (hl : H'.l = H.l) (hr : H'.r = H.r)
    (hs : H'.s = H.s) {lam : W → L} {lam' : V → M} (hd : ∀ i, i < H.m → lam' (H'.d i) = g (lam (H.d i))) (wt : ℕ → S) (mcs : S) (mx : Option S) :
    condenseTree H' wt mcs mx lam' = (condenseTree H wt mcs mx lam).map (CRow.mapLam g) := by
  have hn : H'.n = H.n := by unfold Hier.n; rw [hm]
  have hroot : H'.root = H.root := by unfold Hier.root; rw [hm]
  have hcount : ∀ v, H'.count wt v = H.count wt v := fun v => by unfold Hier.count; rw [hn, hs]
  have hb : H'.bfs H.root = H.bfs H.root := by
    have hk : H'.kids = H.kids := by funext u; unfold Hier.kids; rw [hn, hl, hr]
    have : ∀ f l, H'.bfsAux f l = H.bfsAux f l := by
      intro f
      induction f with
      | zero => exact fun _ => rfl
      | succ f ih =>
        intro l
        cases l with
        | nil => rfl
        | cons a as => unfold Hier.bfsAux; rw [hk, ih]
    exact this _ _
  have key : ∀ (l : List ℕ) (_ : ∀ v ∈ l, v ≤ H.root) (st : CondState L S),
      l.foldl (condenseStep H' wt mcs mx lam') (st.mapLam g) = (l.foldl (condenseStep H wt mcs mx lam) st).mapLam g := by
    intro l
    induction l with
    | nil => exact fun _ _ => rfl
    | cons v l ih =>
      intro hle st
      rw [List.foldl_cons, List.foldl_cons, ← ih (fun u hu => hle u (by simp [hu]))]
      congr 1
      unfold condenseStep
      rw [hn]
      by_cases h0 : st.ignore v = true ∨ v < H.n
      · rw [if_pos h0, if_pos (show (st.mapLam g).ignore v = true ∨ v < H.n from h0)]
      · rw [if_neg h0, if_neg (show ¬ ((st.mapLam g).ignore v = true ∨ v < H.n) from h0)]
        have hvi : v - H.n < H.m := by
          have h1 := hle v (by simp)
          unfold Hier.root at h1
          unfold Hier.n at h0 ⊢
          have : ¬ v < H.m + 1 := fun h => h0 (Or.inr h)
          omega
        simp only [hl, hr, hcount, hd _ hvi]
        have hrel : (st.mapLam g).relabel = st.relabel := rfl
        have hnext : (st.mapLam g).next = st.next := rfl
        have el := eliminateBranch_mapLam g H H' hm hl hr (st.relabel v) (lam (H.d (v - H.n)))
        rw [hrel, hnext]
        split
        · simp [CondState.mapLam, CRow.mapLam]
        · split
          · exact el { st with relabel := Function.update st.relabel (H.r (v - H.n)) (st.relabel v) } _
          · split
            · exact el { st with relabel := Function.update st.relabel (H.l (v - H.n)) (st.relabel v) } _
            · split
              · rw [el, el]
              · split
                · rfl
                · simp [CondState.mapLam, CRow.mapLam]
  unfold condenseTree
  rw [hroot, hb]
  have := key (H.bfs H.root) (fun v hv' => by
    have := (Hier.mem_bfs hv le_rfl).1 hv'
    exact this.le hv) (condenseInit H)
  have hi : (condenseInit H' : CondState M S) = (condenseInit H : CondState L S).mapLam g := by
    unfold condenseInit CondState.mapLam
    rw [hroot, hn]; rfl
  rw [hi]
  exact congrArg CondState.rows this

theorem condenseTree_ofRows_mapLam [Inhabited W] [Inhabited V] [Inhabited S] {g : L → M} {φ : W → V} {rows : List (LRow W S)} (hv : (Hier.ofRows rows).Valid)
    {lam : W → L} {lam' : V → M} (hd : ∀ row ∈ rows, lam' (φ row.d) = g (lam row.d)) (wt : ℕ → S) (mcs : S) (mx : Option S) :
    condenseTree (Hier.ofRows (rows.map (LRow.mapD φ))) wt mcs mx lam' = (condenseTree (Hier.ofRows rows) wt mcs mx lam).map (CRow.mapLam g) := by
  refine condenseTree_mapLam hv (by simp [Hier.ofRows]) ?_ ?_ ?_ (fun i hi => ?_) wt mcs mx
  · funext i; simp only [Hier.ofRows, List.getElem?_map, Option.map_map]; rfl
  · funext i; simp only [Hier.ofRows, List.getElem?_map, Option.map_map]; rfl
  · funext i; simp only [Hier.ofRows, List.getElem?_map, Option.map_map]; rfl
  · have hi : i < rows.length := hi
    simp only [Hier.ofRows, List.getElem?_map, List.getElem?_eq_getElem hi, Option.map_some, Option.getD_some]
    exact hd _ (List.getElem_mem hi)

end Condense

section Select

theorem clusterTree_mapLam [One S] [LT S] [DecidableLT S] (g : L → M) (rows : List (CRow L S)) :
    clusterTree (rows.map (CRow.mapLam g)) = (clusterTree rows).map (CRow.mapLam g) := by
  unfold clusterTree
  rw [List.filter_map]; rfl

theorem parents_mapLam (g : L → M) (rows : List (CRow L S)) : (rows.map (CRow.mapLam g)).map CRow.parent = rows.map CRow.parent := by
  rw [List.map_map]; rfl

theorem childs_mapLam (g : L → M) (rows : List (CRow L S)) : (rows.map (CRow.mapLam g)).map CRow.child = rows.map CRow.child := by
  rw [List.map_map]; rfl

theorem kidsOf_mapLam (g : L → M) (ct : List (CRow L S)) (c : ℕ) : kidsOf (ct.map (CRow.mapLam g)) c = kidsOf ct c := by
  unfold kidsOf
  rw [List.filter_map, childs_mapLam]; rfl

theorem leafSelection_mapLam (g : L → M) (ct : List (CRow L S)) (n : ℕ) : leafSelection (ct.map (CRow.mapLam g)) n = leafSelection ct n := by
  unfold leafSelection clusterTreeLeaves
  rw [List.length_map, childs_mapLam]
  congr 2
  funext c
  simp [CRow.mapLam]

theorem CondTree.mapLam {n k : ℕ} {rows : List (CRow L S)} (h : CondTree n k rows) (g : L → M) : CondTree n k (rows.map (CRow.mapLam g)) := by
  have hmap : (rows.map (CRow.mapLam g)).map CRow.child = rows.map CRow.child := childs_mapLam g rows
  refine ⟨h.pos, by rw [hmap]; exact h.nodup, by rw [hmap]; exact h.children, by rw [hmap]; exact h.asc, ?_, ?_, ?_⟩
  · intro r hr; obtain ⟨row, hrow, rfl⟩ := List.mem_map.1 hr; exact h.parents row hrow
  · intro r hr hc; obtain ⟨row, hrow, rfl⟩ := List.mem_map.1 hr; exact h.down row hrow hc
  · intro i r hi
    rw [List.getElem?_map] at hi
    obtain ⟨row, hrow, rfl⟩ := Option.map_eq_some_iff.1 hi
    rcases h.order i row hrow with h4 | ⟨j, row', h4, h5, h6⟩
    · exact .inl h4
    · exact .inr ⟨j, row'.mapLam g, h4, by rw [List.getElem?_map, h5]; rfl, h6⟩

theorem CDesc.mapLam_iff {rows : List (CRow L S)} (g : L → M) {a b : ℕ} : CDesc (rows.map (CRow.mapLam g)) a b ↔ CDesc rows a b := by
  have : CStep (rows.map (CRow.mapLam g)) = CStep rows := by
    funext a b
    refine propext ⟨?_, ?_⟩
    · rintro ⟨row, hr, h1, h2⟩
      obtain ⟨row', hr', rfl⟩ := List.mem_map.1 hr
      exact ⟨row', hr', h1, h2⟩
    · rintro ⟨row, hr, h1, h2⟩
      exact ⟨row.mapLam g, List.mem_map_of_mem hr, h1, h2⟩
  unfold CDesc
  rw [this]

variable {K : Type*} [Field K] [LinearOrder K] [IsStrictOrderedRing K] {a : K}

omit [IsStrictOrderedRing K] in
theorem scoreNodes_scale (a : K) (rows : List (CRow K K)) :
    scoreNodes (rows.map (CRow.mapLam (a * ·))) = (scoreNodes rows).map fun d => ⟨d.keys, fun c => a * d.val c⟩ := by
  have hset : ∀ (d : ScoreDict K) (c : ℕ) (x : K), (⟨d.keys, fun c => a * d.val c⟩ : ScoreDict K).set c (a * x) =
      ⟨(d.set c x).keys, fun c' => a * (d.set c x).val c'⟩ := by
    intro d c x
    unfold ScoreDict.set
    congr 1
    funext c'
    by_cases h : c' = c
    · subst h; simp only [Function.update_self]
    · simp only [Function.update_of_ne h]
  have step : ∀ (d : ScoreDict K) (row : CRow K K), scoreStep ⟨d.keys, fun c => a * d.val c⟩ (row.mapLam (a * ·)) =
      (scoreStep d row).map fun d => ⟨d.keys, fun c => a * d.val c⟩ := by
    intro d row
    have h1 : (if 1 < row.size then (⟨d.keys, fun c => a * d.val c⟩ : ScoreDict K).set row.child (-(a * row.lam) * row.size) else ⟨d.keys, fun c => a * d.val c⟩) =
        ⟨(if 1 < row.size then d.set row.child (-row.lam * row.size) else d).keys,
          fun c => a * (if 1 < row.size then d.set row.child (-row.lam * row.size) else d).val c⟩ := by
      split
      · rw [← hset]; congr 1; ring
      · rfl
    unfold scoreStep CRow.mapLam
    simp only [h1]
    generalize (if 1 < row.size then d.set row.child (-row.lam * row.size) else d) = d1
    split
    · rw [Option.map_some, ← hset]
      congr 2
      ring
    · rfl
  have key : ∀ (l : List (CRow K K)) (d : ScoreDict K), (l.map (CRow.mapLam (a * ·))).foldlM scoreStep (⟨d.keys, fun c => a * d.val c⟩ : ScoreDict K) =
      (l.foldlM scoreStep d).map fun d => ⟨d.keys, fun c => a * d.val c⟩ := by
    intro l
    induction l with
    | nil => exact fun _ => rfl
    | cons row l ih =>
      intro d
      rw [List.map_cons, List.foldlM_cons, List.foldlM_cons, step]
      cases scoreStep d row with
      | none => rfl
      | some d1 => exact ih d1
  cases rows with
  | nil => rfl
  | cons row rest =>
    unfold scoreNodes
    rw [List.map_cons]
    simp only
    have := key (row :: rest) ⟨[row.parent], fun _ => 0⟩
    rw [← this]
    simp only [mul_zero]
    rfl

theorem unselectBelow_mapLam (g : L → M) (ct : List (CRow L S)) (f : ℕ) : ∀ node sel,
    unselectBelow (ct.map (CRow.mapLam g)) f node sel = unselectBelow ct f node sel := by
  induction f with
  | zero => exact fun _ _ => rfl
  | succ f ih =>
    intro node sel
    unfold unselectBelow
    rw [kidsOf_mapLam]
    congr 1
    funext s c
    rw [ih]

theorem eomRec_scale (ha : 0 < a) (g : L → M) (ct : List (CRow L S)) (score : ℕ → K) (tl : ℕ → Bool) (f : ℕ) : ∀ node sel,
    eomRec (ct.map (CRow.mapLam g)) (ScoreOps.exact K) (fun c => a * score c) tl f node sel =
      (a * (eomRec ct (ScoreOps.exact K) score tl f node sel).1, (eomRec ct (ScoreOps.exact K) score tl f node sel).2) := by
  induction f with
  | zero =>
    intro node sel
    simp [eomRec, ScoreOps.exact]
  | succ f ih =>
    intro node sel
    have hfold : ∀ (l : List ℕ) (acc : K × (ℕ → Bool)),
        l.foldl (fun acc c =>
          let q := eomRec (ct.map (CRow.mapLam g)) (ScoreOps.exact K) (fun c => a * score c) tl f c acc.2
          ((ScoreOps.exact K).add acc.1 q.1, q.2)) (a * acc.1, acc.2) =
        (a * (l.foldl (fun acc c =>
          let q := eomRec ct (ScoreOps.exact K) score tl f c acc.2
          ((ScoreOps.exact K).add acc.1 q.1, q.2)) acc).1, (l.foldl (fun acc c =>
          let q := eomRec ct (ScoreOps.exact K) score tl f c acc.2
          ((ScoreOps.exact K).add acc.1 q.1, q.2)) acc).2) := by
      intro l
      induction l with
      | nil => exact fun _ => rfl
      | cons c l ihl =>
        intro acc
        rw [List.foldl_cons, List.foldl_cons, ← ihl]
        congr 1
        have hadd : ∀ x y : K, (ScoreOps.exact K).add (a * x) (a * y) = a * (ScoreOps.exact K).add x y := fun x y => (mul_add a x y).symm
        simp only [ih, hadd]
    have h0 := hfold (kidsOf ct node) ((ScoreOps.exact K).zero, sel)
    have hz : a * (ScoreOps.exact K).zero = (ScoreOps.exact K).zero := mul_zero a
    rw [hz] at h0
    unfold eomRec
    simp only [kidsOf_mapLam, unselectBelow_mapLam]
    simp only at h0
    rw [h0]
    generalize (kidsOf ct node).foldl (fun acc c => ((ScoreOps.exact K).add acc.1 (eomRec ct (ScoreOps.exact K) score tl f c acc.2).1,
      (eomRec ct (ScoreOps.exact K) score tl f c acc.2).2)) ((ScoreOps.exact K).zero, sel) = r
    have hpos : (ScoreOps.exact K).pos (a * score node) = a * (ScoreOps.exact K).pos (score node) := by
      change max (a * score node) 0 = a * max (score node) 0
      rw [mul_max_of_nonneg _ _ ha.le, mul_zero]
    have hgt : (ScoreOps.exact K).gt (a * r.1) (a * (ScoreOps.exact K).pos (score node)) = (ScoreOps.exact K).gt r.1 ((ScoreOps.exact K).pos (score node)) := by
      change decide (_ < _) = decide (_ < _)
      rw [decide_eq_decide]
      exact mul_lt_mul_iff_of_pos_left ha
    rw [hpos, hgt]
    split <;> rfl

theorem extractEom_scale (ha : 0 < a) (rows : List (CRow K K)) (mx : Option K) (allow : Bool) :
    extractEom (rows.map (CRow.mapLam (a * ·))) mx allow = extractEom rows mx allow := by
  unfold extractEom
  simp only [clusterTree_mapLam, scoreNodes_scale, parents_mapLam]
  cases scoreNodes rows with
  | none => rfl
  | some d =>
    simp only [Option.map_some, Option.some.injEq]
    have hsz : sizeExceeds ((clusterTree rows).map (CRow.mapLam (a * ·))) mx = sizeExceeds (clusterTree rows) mx := by
      funext c
      unfold sizeExceeds
      cases mx with
      | none => rfl
      | some m => simp only [List.any_map]; rfl
    rw [hsz]
    generalize clusterTree rows = ct
    generalize rootExceeds mx _ = re
    generalize sizeExceeds _ mx = se
    unfold eomClusters
    cases ct with
    | nil => rfl
    | cons row ct =>
      simp only [List.map_cons]
      rw [show row.mapLam (a * ·) :: ct.map (CRow.mapLam (a * ·)) = (row :: ct).map (CRow.mapLam (a * ·)) from rfl]
      simp only [kidsOf_mapLam, eomRec_scale ha, List.length_map, parents_mapLam]
      rfl

theorem baseSelection_scale (ha : 0 < a) (o o' : ClusterOpts K) (h1 : o'.method = o.method) (h2 : o'.maxClusterSize = o.maxClusterSize)
    (h3 : o'.allowSingle = o.allowSingle) (n : ℕ) (rows : List (CRow K K)) :
    baseSelection o' n (rows.map (CRow.mapLam (a * ·))) = baseSelection o n rows := by
  unfold baseSelection
  rw [h1, h2, h3, extractEom_scale ha, clusterTree_mapLam, leafSelection_mapLam]

theorem unselectBelowB_mapLam (g : L → M) (ct : List (CRow L S)) (f : ℕ) : ∀ node st,
    unselectBelowB (ct.map (CRow.mapLam g)) f node st = unselectBelowB ct f node st := by
  induction f with
  | zero => exact fun _ _ => rfl
  | succ f ih =>
    intro node st
    unfold unselectBelowB
    rw [kidsOf_mapLam]
    congr 1
    funext s c
    rw [ih]

theorem eomRecB_map {A : Type*} (g : L → M) (ct : List (CRow L S)) (op : ScoreOps A) (h : A → A) (hz : h op.zero = op.zero)
    (hadd : ∀ x y, h (op.add x y) = op.add (h x) (h y)) (hgt : ∀ x y, op.gt (h x) (h y) = op.gt x y) (score : ℕ → A) (f : ℕ) : ∀ node st,
    eomRecB (ct.map (CRow.mapLam g)) op (fun c => h (score c)) f node st =
      (h (eomRecB ct op score f node st).1, (eomRecB ct op score f node st).2) := by
  induction f with
  | zero =>
    intro node st
    simp [eomRecB, hz]
  | succ f ih =>
    intro node st
    have hfold : ∀ (l : List ℕ) (acc : A × SelState),
        l.foldl (fun acc c =>
          let q := eomRecB (ct.map (CRow.mapLam g)) op (fun c => h (score c)) f c acc.2
          (op.add acc.1 q.1, q.2)) (h acc.1, acc.2) =
        (h (l.foldl (fun acc c =>
          let q := eomRecB ct op score f c acc.2
          (op.add acc.1 q.1, q.2)) acc).1, (l.foldl (fun acc c =>
          let q := eomRecB ct op score f c acc.2
          (op.add acc.1 q.1, q.2)) acc).2) := by
      intro l
      induction l with
      | nil => exact fun _ => rfl
      | cons c l ihl =>
        intro acc
        rw [List.foldl_cons, List.foldl_cons, ← ihl]
        congr 1
        simp only [ih, hadd]
    have h0 := hfold (kidsOf ct node) (op.zero, st)
    rw [hz] at h0
    unfold eomRecB
    simp only [kidsOf_mapLam, unselectBelowB_mapLam]
    simp only at h0
    rw [h0]
    generalize (kidsOf ct node).foldl (fun acc c => (op.add acc.1 (eomRecB ct op score f c acc.2).1,
      (eomRecB ct op score f c acc.2).2)) (op.zero, st) = r
    rw [hgt]
    split <;> rfl

theorem bcubedClusters_map {A : Type*} (g : L → M) (ctb : List (CRow L S)) (op : ScoreOps A) (h : A → A) (hz : h op.zero = op.zero)
    (hadd : ∀ x y, h (op.add x y) = op.add (h x) (h y)) (hgt : ∀ x y, op.gt (h x) (h y) = op.gt x y) (score : ℕ → A) (keys virt : List ℕ) (allow : Bool) :
    bcubedClusters (ctb.map (CRow.mapLam g)) op (fun c => h (score c)) keys virt allow = bcubedClusters ctb op score keys virt allow := by
  unfold bcubedClusters
  cases ctb with
  | nil => rfl
  | cons row ctb =>
    simp only [List.map_cons]
    rw [show row.mapLam g :: ctb.map (CRow.mapLam g) = (row :: ctb).map (CRow.mapLam g) from rfl]
    have hp : (row.mapLam g).parent = row.parent := rfl
    have hps : (ctb.map (CRow.mapLam g)).map CRow.parent = ctb.map CRow.parent := parents_mapLam g ctb
    have hrec := eomRecB_map g (row :: ctb) op h hz hadd hgt score
    simp only [kidsOf_mapLam, hrec, List.length_map, List.length_cons, hp, hps]

theorem clusterElements_mapLam (g : L → M) (rows : List (CRow L S)) (m : ℕ) (lab : ℕ → ℤ) :
    clusterElements (rows.map (CRow.mapLam g)) m lab = clusterElements rows m lab := by
  unfold clusterElements
  rw [parents_mapLam, ← List.map_reverse]
  generalize rows.reverse = l
  generalize (⟨[], fun _ => []⟩ : ScoreDict (List ℕ)) = d
  induction l generalizing d with
  | nil => rfl
  | cons r l ih =>
    rw [List.map_cons, List.foldlM_cons, List.foldlM_cons]
    have : elemStep (rows.map CRow.parent) (labelIdx m lab) d (r.mapLam g) = elemStep (rows.map CRow.parent) (labelIdx m lab) d r := rfl
    rw [this]
    congr 1
    funext d'
    exact ih d'

omit [LinearOrder K] [IsStrictOrderedRing K] in
theorem foldl_set_scale (a : K) (l : List ℕ) : ∀ d : ScoreDict K, l.foldl (fun d v => d.set v 0) (⟨d.keys, fun c => a * d.val c⟩ : ScoreDict K) =
      ⟨(l.foldl (fun d v => d.set v 0) d).keys, fun c => a * (l.foldl (fun d v => d.set v 0) d).val c⟩ := by
    induction l with
    | nil => exact fun _ => rfl
    | cons x l ih =>
      intro d
      rw [List.foldl_cons, List.foldl_cons, ← ih]
      congr 1
      unfold ScoreDict.set
      congr 1
      funext c'
      by_cases h : c' = x
      · subst h; simp only [Function.update_self, mul_zero]
      · simp only [Function.update_of_ne h]

theorem bcubedTree_mapLam [One S] [LT S] [DecidableLT S] [DecidableEq S] (g : L → M) (rows ct : List (CRow L S)) (m : ℕ) (lab : ℕ → ℤ) :
    bcubedTree (rows.map (CRow.mapLam g)) (ct.map (CRow.mapLam g)) m lab = (bcubedTree rows ct m lab).map (CRow.mapLam g) := by
  unfold bcubedTree
  rw [List.filter_map, parents_mapLam]; rfl

theorem virtualNodes_mapLam (g : L → M) (ctb ct : List (CRow L S)) :
    virtualNodes (ctb.map (CRow.mapLam g)) (ct.map (CRow.mapLam g)) = virtualNodes ctb ct := by
  unfold virtualNodes; rw [childs_mapLam, childs_mapLam]

/-- `extractBcubed` from the trees and dictionaries on. -/
def bcubedTail (m : ℕ) (lab : ℕ → ℤ) (allow : Bool) (ctb : List (CRow K K)) (virt : List ℕ) (ce : ScoreDict (List ℕ)) (st : ScoreDict K) : Option (List ℕ) :=
  if ∀ c ∈ ctb.map CRow.child ++ ctb.map CRow.parent, c ∈ ce.keys ∧ c ∈ st.keys then
    some (bcubedClusters ctb (pairOps K) (fun c => (st.val c, bcubedScore m lab (ce.val c))) ce.keys virt allow)
  else none

theorem bcubedTail_scale (ha : 0 < a) (m : ℕ) (lab : ℕ → ℤ) (allow : Bool) (ctb : List (CRow K K)) (virt : List ℕ) (ce : ScoreDict (List ℕ))
    (st : ScoreDict K) : bcubedTail m lab allow (ctb.map (CRow.mapLam (a * ·))) virt ce ⟨st.keys, fun c => a * st.val c⟩ = bcubedTail m lab allow ctb virt ce st := by
  unfold bcubedTail
  rw [bcubedClusters_map (a * ·) ctb (pairOps K) (fun x => (a * x.1, x.2)) (by simp [pairOps]) (fun x y => by simp [pairOps, mul_add])
      (fun x y => by simp only [pairOps, mul_lt_mul_iff_of_pos_left ha]) (fun c => (st.val c, bcubedScore m lab (ce.val c))) ce.keys virt allow]
  simp only [childs_mapLam, parents_mapLam]

omit [IsStrictOrderedRing K] in
theorem extractBcubed_eq (rows : List (CRow K K)) (m : ℕ) (lab : ℕ → ℤ) (v allow : Bool) :
    extractBcubed rows m lab v allow = (clusterElements rows m lab).bind fun ce0 => (scoreNodes rows).bind fun st0 =>
      bcubedTail m lab allow (if v then bcubedTree rows (clusterTree rows) m lab else clusterTree rows)
        (if v then virtualNodes (if v then bcubedTree rows (clusterTree rows) m lab else clusterTree rows) (clusterTree rows) else [])
        ((if v then virtualNodes (if v then bcubedTree rows (clusterTree rows) m lab else clusterTree rows) (clusterTree rows) else []).foldl
          (fun d v => d.set v [v]) ce0)
        ((if v then virtualNodes (if v then bcubedTree rows (clusterTree rows) m lab else clusterTree rows) (clusterTree rows) else []).foldl
          (fun d v => d.set v 0) st0) := rfl

theorem extractBcubed_scale (ha : 0 < a) (rows : List (CRow K K)) (m : ℕ) (lab : ℕ → ℤ) (v allow : Bool) :
    extractBcubed (rows.map (CRow.mapLam (a * ·))) m lab v allow = extractBcubed rows m lab v allow := by
  rw [extractBcubed_eq, extractBcubed_eq, clusterElements_mapLam, scoreNodes_scale, clusterTree_mapLam, bcubedTree_mapLam, ← apply_ite (List.map (CRow.mapLam (a * ·))),
    virtualNodes_mapLam]
  generalize (if v = true then bcubedTree rows (clusterTree rows) m lab else clusterTree rows) = ctb
  generalize (if v = true then virtualNodes ctb (clusterTree rows) else []) = virt
  cases clusterElements rows m lab with
  | none => rw [Option.bind_none, Option.bind_none]
  | some ce0 =>
    cases scoreNodes rows with
    | none => rw [Option.bind_some, Option.bind_some, Option.map_none, Option.bind_none, Option.bind_none]
    | some st0 =>
      rw [Option.bind_some, Option.bind_some, Option.map_some, Option.bind_some, Option.bind_some, foldl_set_scale, bcubedTail_scale ha]

theorem baseSelectionSS_scale (ha : 0 < a) (o o' : ClusterOpts K) (h1 : o'.method = o.method) (h3 : o'.allowSingle = o.allowSingle) (v : Bool) (m : ℕ)
    (lab : ℕ → ℤ) (n : ℕ) (rows : List (CRow K K)) :
    baseSelectionSS o' v m lab n (rows.map (CRow.mapLam (a * ·))) = baseSelectionSS o v m lab n rows := by
  unfold baseSelectionSS
  rw [h1, h3, extractBcubed_scale ha, clusterTree_mapLam, leafSelection_mapLam]

theorem epsilonSearch_mapLam {g : L → M} {close : L → Bool} {close' : M → Bool} (hc : ∀ l, close' (g l) = close l) (ct : List (CRow L S)) (sel : List ℕ) :
    epsilonSearch close' (ct.map (CRow.mapLam g)) sel = epsilonSearch close ct sel := by
  have hfind : ∀ c, (ct.map (CRow.mapLam g)).find? (fun row => decide (row.child = c)) = (ct.find? (fun row => decide (row.child = c))).map (CRow.mapLam g) := by
    intro c
    rw [List.find?_map]; rfl
  have htrav : ∀ root f seg, traverseUpwards close' (ct.map (CRow.mapLam g)) root f seg = traverseUpwards close ct root f seg := by
    intro root f
    induction f with
    | zero => exact fun _ => rfl
    | succ f ih =>
      intro seg
      unfold traverseUpwards
      rw [hfind]
      cases ct.find? (fun row => decide (row.child = seg)) with
      | none => rfl
      | some row =>
        simp only [Option.map_some]
        rw [show (row.mapLam g).parent = row.parent from rfl, hfind]
        cases ct.find? (fun r => decide (r.child = row.parent)) with
        | none => rfl
        | some prow =>
          simp only [Option.map_some]
          rw [show (prow.mapLam g).lam = g prow.lam from rfl, hc, ih]
  have hby : (ct.map (CRow.mapLam g)).insertionSort (fun a b : CRow M S => a.parent ≤ b.parent) =
      (ct.insertionSort (fun a b : CRow L S => a.parent ≤ b.parent)).map (CRow.mapLam g) :=
    (List.map_insertionSort (fun a b : CRow L S => a.parent ≤ b.parent) (fun a b : CRow M S => a.parent ≤ b.parent) (CRow.mapLam g) ct
      fun _ _ _ _ => Iff.rfl).symm
  unfold epsilonSearch
  simp only [hby, parents_mapLam]
  generalize ct.insertionSort (fun a b : CRow L S => a.parent ≤ b.parent) = bp
  congr 1
  congr 1
  funext st c
  unfold epsStep
  simp only [List.getElem?_map, childs_mapLam, parents_mapLam, htrav, List.length_map]
  cases ct[searchLeft (ct.map CRow.child) c]? with
  | none => rfl
  | some row =>
    simp only [Option.map_some]
    rw [show (row.mapLam g).lam = g row.lam from rfl, hc]

theorem epsClose_scale (ha : 0 < a) (eps lam : K) : epsClose (eps / a) (a * lam) = epsClose eps lam := by
  unfold epsClose
  rw [decide_eq_decide]
  have h1 : 0 < a * lam ↔ 0 < lam := mul_pos_iff_of_pos_left ha
  rw [h1]
  refine and_congr_right fun hl => ?_
  rw [div_lt_div_iff₀ (mul_pos ha hl) ha, one_mul, div_lt_iff₀ hl, mul_comm a lam, ← mul_assoc, lt_mul_iff_one_lt_left ha]

theorem epsilonIf_scale (ha : 0 < a) (eps : K) (rows : List (CRow K K)) (sel : List ℕ) :
    epsilonIf (eps / a) (rows.map (CRow.mapLam (a * ·))) sel = epsilonIf eps rows sel := by
  unfold epsilonIf
  rw [clusterTree_mapLam, epsilonSearch_mapLam fun l => epsClose_scale ha eps l]
  simp only [div_pos_iff_of_pos_right ha]

theorem epsLam_scale (ha : 0 < a) (eps : K) : epsLam (eps / a) = (epsLam eps).map (a * ·) := by
  unfold epsLam
  simp only [div_pos_iff_of_pos_right ha]
  split
  · rw [Option.map_some, one_div_div, mul_one_div]
  · rfl

end Select

section Simplify
variable {K : Type*} [Field K] [LinearOrder K] [IsStrictOrderedRing K] {a : K}

/-- The state with scaled lambdas. -/
def SimpState.scale (a : K) (st : SimpState K) : SimpState K := ⟨st.leaf, fun c => a * st.births c, st.pmap, fun c => (st.lmap c).map (a * ·)⟩

omit [LinearOrder K] [IsStrictOrderedRing K] in
theorem update_scale (a : K) (b : ℕ → K) (c : ℕ) (x : K) : (fun d => a * Function.update b c x d) = Function.update (fun d => a * b d) c (a * x) := by
  funext d
  by_cases h : d = c
  · rw [h, Function.update_self, Function.update_self]
  · rw [Function.update_of_ne h, Function.update_of_ne h]

theorem simpStep_scale (ha : 0 < a) (thr : K) (st : SimpState K) (r1 r2 : CRow K S) :
    simpStep (a * thr) (st.scale a) (r1.mapLam (a * ·)) (r2.mapLam (a * ·)) = (simpStep thr st r1 r2).scale a := by
  have hmin : ∀ x y : K, min (a * x) (a * y) = a * min x y := fun x y => (mul_min_of_nonneg _ _ ha.le).symm
  have hmax : ∀ x y : K, max (a * x) (a * y) = a * max x y := fun x y => (mul_max_of_nonneg _ _ ha.le).symm
  have hle : ∀ x y : K, a * x ≤ a * y ↔ x ≤ y := fun x y => mul_le_mul_iff_of_pos_left ha
  have hlm : ∀ (b : ℕ → Option K) (c : ℕ) (x : K), (fun d => (Function.update b c (some x) d).map (a * ·)) =
      Function.update (fun d => (b d).map (a * ·)) c (some (a * x)) := by
    intro b c x
    funext d
    by_cases h : d = c
    · rw [h, Function.update_self, Function.update_self]; rfl
    · rw [Function.update_of_ne h, Function.update_of_ne h]
  unfold simpStep
  simp only [SimpState.scale, CRow.mapLam, hmin, hmax, ← mul_sub, hle]
  split
  · simp only [update_scale]
  · split
    · split
      · simp only [update_scale]
      · simp only [update_scale, hlm]
    · split
      · simp only [update_scale]
      · simp only [update_scale, hlm]

theorem simpLoop_scale (ha : 0 < a) (thr : K) (l : List (CRow K S)) (st : SimpState K) :
    simpLoop (a * thr) (st.scale a) (l.map (CRow.mapLam (a * ·))) = (simpLoop thr st l).scale a := by
  match l with
  | [] => rfl
  | [_] => rfl
  | r2 :: r1 :: rest =>
    simp only [List.map_cons, simpLoop]
    rw [simpStep_scale ha, simpLoop_scale ha thr rest]

theorem simplifyHierarchy_scale [One S] [LT S] [DecidableLT S] (ha : 0 < a) (thr : K) (rows : List (CRow K S)) :
    simplifyHierarchy (a * thr) (rows.map (CRow.mapLam (a * ·))) = (simplifyHierarchy thr rows).map (List.map (CRow.mapLam (a * ·))) := by
  have hbirths : ∀ (l : List (CRow K S)) (b : ℕ → K), (l.map (CRow.mapLam (a * ·))).foldl (fun b row => Function.update b row.parent row.lam) (fun c => a * b c) =
      fun c => a * (l.foldl (fun b row => Function.update b row.parent row.lam) b) c := by
    intro l
    induction l with
    | nil => exact fun _ => rfl
    | cons r l ih =>
      intro b
      rw [List.map_cons, List.foldl_cons, List.foldl_cons, ← ih]
      congr 1
      exact (update_scale a b r.parent r.lam).symm
  have hinit : simpInit (rows.map (CRow.mapLam (a * ·))) ((clusterTree rows).map (CRow.mapLam (a * ·))) = (simpInit rows (clusterTree rows)).scale a := by
    have hb0 := hbirths rows (fun _ => 0)
    simp only [mul_zero] at hb0
    unfold simpInit SimpState.scale
    simp only [hb0]
    congr 1
    funext c
    simp [CRow.mapLam]
  unfold simplifyHierarchy
  simp only [clusterTree_mapLam, List.getLast?_map]
  rw [hinit, ← List.map_reverse, simpLoop_scale ha]
  cases (clusterTree rows).getLast? with
  | none => rfl
  | some last =>
    cases rows with
    | nil => rfl
    | cons row0 rest =>
      simp only [Option.map_some, List.map_cons]
      generalize simpLoop thr (simpInit (row0 :: rest) (clusterTree (row0 :: rest))) (clusterTree (row0 :: rest)).reverse = st
      rw [show row0.mapLam (a * ·) :: rest.map (CRow.mapLam (a * ·)) = (row0 :: rest).map (CRow.mapLam (a * ·)) from rfl, List.filterMap_map, List.map_filterMap]
      congr 1
      apply List.filterMap_congr
      intro row _
      have key : ∀ (r : (ℕ → ℕ) × (ℕ → Bool)) (m : Option K),
          (if r.2 (max row.child row0.parent) then none
            else some (⟨r.1 row.parent, if row0.parent ≤ row.child then r.1 row.child else row.child, (m.map (a * ·)).getD (a * row.lam), row.size⟩ : CRow K S)) =
          (if r.2 (max row.child row0.parent) then none
            else some (⟨r.1 row.parent, if row0.parent ≤ row.child then r.1 row.child else row.child, m.getD row.lam, row.size⟩ : CRow K S)).map
              (CRow.mapLam (a * ·)) := by
        intro r m
        split
        · rfl
        · cases m <;> rfl
      exact key _ _

theorem simplifyIf_scale (ha : 0 < a) (thr : K) (rows : List (CRow K K)) :
    simplifyIf (a * thr) (rows.map (CRow.mapLam (a * ·))) = (simplifyIf thr rows).map (List.map (CRow.mapLam (a * ·))) := by
  unfold simplifyIf
  rw [simplifyHierarchy_scale ha, List.length_map]
  simp only [mul_pos_iff_of_pos_left ha]
  split <;> rfl

end Simplify

section Labels

/-- Labels depend on the order of the lambdas, and on which of them are zero. -/
theorem labelVector_mapLam [LinearOrder L] [Zero L] [LinearOrder M] [Zero M] {g : L → M} {s : Set L} (hg : StrictMonoOn g s) (h0 : ∀ l ∈ s, g l = 0 ↔ l = 0)
    (rows : List (CRow L S)) (hs : ∀ row ∈ rows, row.lam ∈ s) (sel : List ℕ) (e : Option L) (he : ∀ l ∈ e, l ∈ s) (ns : ℕ) :
    labelVector (rows.map (CRow.mapLam g)) sel (e.map g) ns = labelVector rows sel e ns := by
  have hN : labelN (rows.map (CRow.mapLam g)) = labelN rows := by unfold labelN; rw [parents_mapLam, childs_mapLam]
  have hDS : labelDS (rows.map (CRow.mapLam g)) sel ns = labelDS rows sel ns := by
    unfold labelDS
    rw [hN, List.foldl_map]
    refine List.foldl_ext _ _ _ fun d row hr => ?_
    simp only [CRow.mapLam, h0 _ (hs row hr)]
  have hmaxOn : ∀ x ∈ s, ∀ y ∈ s, max (g x) (g y) = g (max x y) := fun x hx y hy => (hg.monotoneOn.map_max hx hy).symm
  have hone : ∀ rootId rep x, labelOne (rows.map (CRow.mapLam g)) sel (e.map g) rootId rep x = labelOne rows sel e rootId rep x := by
    intro rootId rep x
    have hmax : (((rows.map (CRow.mapLam g)).filter fun row => decide (row.parent = rep)).map CRow.lam).max? =
        (((rows.filter fun row => decide (row.parent = rep)).map CRow.lam).max?).map g ∧
        ∀ l ∈ ((rows.filter fun row => decide (row.parent = rep)).map CRow.lam).max?, l ∈ s := by
      rw [List.filter_map, List.map_map]
      have : ((fun row : CRow M S => decide (row.parent = rep)) ∘ CRow.mapLam g) = fun row : CRow L S => decide (row.parent = rep) := rfl
      rw [this]
      have hsl : ∀ row ∈ rows.filter (fun row : CRow L S => decide (row.parent = rep)), row.lam ∈ s := fun row hr => hs row (List.mem_filter.1 hr).1
      generalize rows.filter (fun row : CRow L S => decide (row.parent = rep)) = l at hsl
      cases l with
      | nil => exact ⟨rfl, fun l hl => by simp at hl⟩
      | cons r l =>
        simp only [List.map_cons, List.max?_cons', Option.map_some, Option.some.injEq, Option.mem_def]
        rw [forall_eq']
        change (l.map fun r => g r.lam).foldl max (g r.lam) = _ ∧ _
        have hr := hsl r (by simp)
        have hl : ∀ row ∈ l, row.lam ∈ s := fun row h => hsl row (by simp [h])
        generalize r.lam = m at hr
        clear hsl
        induction l generalizing m with
        | nil => exact ⟨rfl, hr⟩
        | cons r l ih =>
          have h1 := hl r (by simp)
          simp only [List.map_cons, List.foldl_cons, hmaxOn _ hr _ h1]
          exact ih (fun row h => hl row (by simp [h])) _ (by rcases max_choice m r.lam with e | e <;> rw [e] <;> assumption)
    obtain ⟨hm1, hm2⟩ := hmax
    unfold labelOne
    rw [hm1, List.find?_map]
    have : ((fun row : CRow M S => decide (row.child = x)) ∘ CRow.mapLam g) = fun row : CRow L S => decide (row.child = x) := rfl
    rw [this]
    have hr2 : ∀ r, rows.find? (fun row => decide (row.child = x)) = some r → r.lam ∈ s := fun r h => hs r (List.mem_of_find?_eq_some h)
    generalize ((rows.filter fun row => decide (row.parent = rep)).map CRow.lam).max? = m at hm2
    generalize rows.find? (fun row => decide (row.child = x)) = r at hr2
    cases m with
    | none => cases r <;> cases e <;> rfl
    | some m =>
      have h1 := hm2 m rfl
      cases r with
      | none => cases e <;> rfl
      | some r =>
        have h2 := hr2 r rfl
        cases e with
        | none => simp only [Option.map_some, Option.map_none, CRow.mapLam, hg.le_iff_le h1 h2]
        | some e => 
          have h3 := he e rfl
          simp only [Option.map_some, CRow.mapLam, hg.le_iff_le h3 h2]
  unfold labelVector
  rw [List.length_map, parents_mapLam, hN, hDS]
  split
  · rfl
  · simp only [hone]

variable {K : Type*} [Field K] [LinearOrder K] [IsStrictOrderedRing K] {a : K}

theorem strengthVector_scale [One S] [DecidableEq S] (ha : 0 < a) (rows : List (CRow K S)) (sel : List ℕ) (labels : List ℤ) :
    strengthVector ((rows.map (CRow.mapLam (a * ·))).map fun row => ⟨row.parent, row.child, (row.lam : WithTop K), row.size⟩) sel labels =
      strengthVector (rows.map fun row => ⟨row.parent, row.child, (row.lam : WithTop K), row.size⟩) sel labels := by
  set R := rows.map fun row : CRow K S => (⟨row.parent, row.child, (row.lam : WithTop K), row.size⟩ : CRow (WithTop K) S) with hR
  set R' := (rows.map (CRow.mapLam (a * ·))).map fun row : CRow K S => (⟨row.parent, row.child, (row.lam : WithTop K), row.size⟩ : CRow (WithTop K) S) with hR'
  have hmax : ∀ c, ∃ m : K, maxLambda R c = (m : WithTop K) ∧ maxLambda R' c = ((a * m : K) : WithTop K) := by
    intro c
    have key : ∀ (l : List (CRow K S)) (m : K), ∃ m' : K,
        (l.map fun row : CRow K S => (⟨row.parent, row.child, (row.lam : WithTop K), row.size⟩ : CRow (WithTop K) S)).foldl
          (fun m row => if row.parent = c ∧ row.size = 1 then max m row.lam else m) (m : WithTop K) = (m' : WithTop K) ∧
        ((l.map (CRow.mapLam (a * ·))).map fun row : CRow K S => (⟨row.parent, row.child, (row.lam : WithTop K), row.size⟩ : CRow (WithTop K) S)).foldl
          (fun m row => if row.parent = c ∧ row.size = 1 then max m row.lam else m) ((a * m : K) : WithTop K) = ((a * m' : K) : WithTop K) := by
      intro l
      induction l with
      | nil => intro m; exact ⟨m, rfl, rfl⟩
      | cons r l ih =>
        intro m
        simp only [List.map_cons, List.foldl_cons, CRow.mapLam]
        by_cases h : r.parent = c ∧ r.size = 1
        · simp only [h, and_self, if_true]
          rw [← WithTop.coe_max, ← WithTop.coe_max, ← mul_max_of_nonneg _ _ ha.le]
          exact ih _
        · simp only [h, if_false]
          exact ih _
    have := key rows 0
    rw [mul_zero] at this
    exact this
  have hstr : ∀ (l m : K), strengthOf ((a * l : K) : WithTop K) ((a * m : K) : WithTop K) = strengthOf (l : WithTop K) (m : WithTop K) := by
    intro l m
    have hz : ((a * m : K) : WithTop K) = 0 ↔ (m : WithTop K) = 0 := by
      rw [← WithTop.coe_zero, WithTop.coe_inj, WithTop.coe_inj]
      constructor
      · intro h; exact (mul_eq_zero.1 h).resolve_left ha.ne'
      · intro h; rw [h, mul_zero]
    unfold strengthOf
    by_cases hm : (m : WithTop K) = 0
    · rw [if_pos (Or.inl hm), if_pos (Or.inl (hz.2 hm))]
    · have h1 : ¬ ((m : WithTop K) = 0 ∨ (l : WithTop K) = ⊤) := by simp [hm]
      have h2 : ¬ (((a * m : K) : WithTop K) = 0 ∨ ((a * l : K) : WithTop K) = ⊤) := by
        rw [hz]; simp only [WithTop.coe_ne_top, or_false]; exact hm
      rw [if_neg h1, if_neg h2, ← WithTop.coe_min, ← WithTop.coe_min, ← mul_min_of_nonneg _ _ ha.le]
      exact mul_div_mul_left _ _ ha.ne'
  have hp : R'.map CRow.parent = R.map CRow.parent := by
    rw [hR, hR', List.map_map, List.map_map, List.map_map]; rfl
  have hlen : R'.length = R.length := by rw [hR, hR']; simp
  unfold strengthVector
  rw [hlen, hp]
  split
  · rfl
  · have hR2 : R' = rows.map fun row : CRow K S => (⟨row.parent, row.child, ((a * row.lam : K) : WithTop K), row.size⟩ : CRow (WithTop K) S) := by
      rw [hR', List.map_map]; rfl
    generalize (R.map CRow.parent).foldl min ((R.map CRow.parent).headD 0) = rootId
    have hfold : ∀ (l : List (CRow K S)) (res : ℕ → K),
        (l.map fun row : CRow K S => (⟨row.parent, row.child, ((a * row.lam : K) : WithTop K), row.size⟩ : CRow (WithTop K) S)).foldlM (strengthStep R' sel labels rootId) res =
        (l.map fun row : CRow K S => (⟨row.parent, row.child, (row.lam : WithTop K), row.size⟩ : CRow (WithTop K) S)).foldlM (strengthStep R sel labels rootId) res := by
      intro l
      induction l with
      | nil => exact fun _ => rfl
      | cons r l ih =>
        intro res
        rw [List.map_cons, List.map_cons, List.foldlM_cons, List.foldlM_cons]
        have : strengthStep R' sel labels rootId res ⟨r.parent, r.child, ((a * r.lam : K) : WithTop K), r.size⟩ =
            strengthStep R sel labels rootId res ⟨r.parent, r.child, (r.lam : WithTop K), r.size⟩ := by
          unfold strengthStep
          simp only
          split
          · rfl
          · split
            · rfl
            · split
              · rfl
              · split
                · rfl
                · rename_i c _
                  obtain ⟨m, e1, e2⟩ := hmax c
                  rw [e1, e2, hstr]
        rw [this]
        congr 1
        funext res'
        exact ih res'
    have := hfold rows (fun _ => 0)
    rw [← hR2, ← hR] at this
    exact this

end Labels

section Kruskal

/-- The state with other weights. -/
def KState.mapW (φ : W → V) (s : KState W) : KState V := ⟨s.pred, s.rank, s.mst.map (Edge.mapW φ)⟩

theorem sortEdges_mapW [LinearOrder W] [LinearOrder V] {φ : W → V} (hφ : StrictMono φ) (es : List (Edge W)) :
    sortEdges (es.map (Edge.mapW φ)) = (sortEdges es).map (Edge.mapW φ) :=
  (List.map_insertionSort (fun a b : Edge W => a.w ≤ b.w) (fun a b : Edge V => a.w ≤ b.w) (Edge.mapW φ) es fun _ _ _ _ => hφ.le_iff_le.symm).symm

theorem kruskalCore_mapW (φ : W → V) (n : ℕ) (es : List (Edge W)) : kruskalCore n (es.map (Edge.mapW φ)) = (kruskalCore n es).mapW φ := by
  have key : ∀ (es : List (Edge W)) (s : KState W), (es.map (Edge.mapW φ)).foldl (kruskalStep n) (s.mapW φ) = (es.foldl (kruskalStep n) s).mapW φ := by
    intro es
    induction es with
    | nil => exact fun _ => rfl
    | cons e es ih =>
      intro s
      rw [List.map_cons, List.foldl_cons, List.foldl_cons, ← ih]
      congr 1
      unfold kruskalStep
      simp only [KState.mapW, Edge.mapW, List.length_map]
      by_cases h1 : s.mst.length = n - 1
      · simp only [h1, if_true]
      · by_cases h2 : e.u = e.v
        · simp only [h1, h2, if_true, if_false]
        · by_cases h3 : (findCompress n s.pred e.u).2 ≠ (findCompress n (findCompress n s.pred e.u).1 e.v).2
          · simp [h1, h2, h3, Edge.mapW]
          · simp [h1, h2, h3]
  exact key es ⟨fun x => x, fun _ => 0, []⟩

theorem constrainedCore_mapW (φ : W → V) (n : ℕ) (cl : ℕ → List ℕ) (es : List (Edge W)) :
    (constrainedCore n cl (es.map (Edge.mapW φ))).toKState = (constrainedCore n cl es).toKState.mapW φ := by
  have key : ∀ (es : List (Edge W)) (s : CState W), (es.map (Edge.mapW φ)).foldl (constrainedStep n) ⟨s.toKState.mapW φ, s.pool⟩ =
      ⟨(es.foldl (constrainedStep n) s).toKState.mapW φ, (es.foldl (constrainedStep n) s).pool⟩ := by
    intro es
    induction es with
    | nil => exact fun _ => rfl
    | cons e es ih =>
      intro s
      rw [List.map_cons, List.foldl_cons, List.foldl_cons, ← ih]
      congr 1
      unfold constrainedStep
      simp only [KState.mapW, Edge.mapW, List.length_map]
      by_cases h1 : s.mst.length = n - 1
      · simp [h1]
      · by_cases h2 : e.u = e.v
        · simp [h1, h2]
        · by_cases h3 : (findCompress n s.pred e.u).2 = (findCompress n (findCompress n s.pred e.u).1 e.v).2
          · simp [h1, h2, h3]
          · by_cases h4 : s.pool.conflict n (findCompress n (findCompress n s.pred e.u).1 e.v).1 (findCompress n s.pred e.u).2 (findCompress n (findCompress n s.pred e.u).1 e.v).2 = true
            · simp [h1, h2, h3, h4]
            · simp [h1, h2, h3, h4, Edge.mapW]
  exact congrArg CState.toKState (key es ⟨⟨fun x => x, fun _ => 0, []⟩, Pool.init n cl⟩)

theorem groupCore_mapW (φ : W → V) (n : ℕ) (g : ℕ → ℤ) (k : ℕ) (es : List (Edge W)) :
    (groupCore n g k (es.map (Edge.mapW φ))).toKState = (groupCore n g k es).toKState.mapW φ := by
  have key : ∀ (m : ℕ) (es : List (Edge W)) (s : GState W), (es.map (Edge.mapW φ)).foldl (groupStep n m) ⟨s.toKState.mapW φ, s.mask⟩ =
      ⟨(es.foldl (groupStep n m) s).toKState.mapW φ, (es.foldl (groupStep n m) s).mask⟩ := by
    intro m es
    induction es with
    | nil => exact fun _ => rfl
    | cons e es ih =>
      intro s
      rw [List.map_cons, List.foldl_cons, List.foldl_cons, ← ih]
      congr 1
      unfold groupStep
      simp only [KState.mapW, Edge.mapW, List.length_map]
      by_cases h1 : s.mst.length = n - 1
      · simp [h1]
      · by_cases h2 : e.u = e.v
        · simp [h1, h2]
        · by_cases h3 : (findCompress n s.pred e.u).2 = (findCompress n (findCompress n s.pred e.u).1 e.v).2
          · simp [h1, h2, h3]
          · by_cases h4 : groupConflict m s.mask (findCompress n s.pred e.u).2 (findCompress n (findCompress n s.pred e.u).1 e.v).2 = true
            · simp [h1, h2, h3, h4]
            · simp [h1, h2, h3, h4, Edge.mapW]
              rfl
  exact congrArg GState.toKState (key _ es ⟨⟨fun x => x, fun _ => 0, []⟩, groupMaskInit n g⟩)

theorem runKruskalCore_mapW (φ : W → V) (n : ℕ) (cl : CLParams) (es : List (Edge W)) :
    runKruskalCore n cl (es.map (Edge.mapW φ)) = (runKruskalCore n cl es).mapW φ := by
  unfold runKruskalCore
  cases cl.csr <;> cases cl.groups <;> simp only [kruskalCore_mapW, constrainedCore_mapW, groupCore_mapW] <;> split_ifs <;> rfl

theorem finishMst_mapW [LE W] [OrderTop W] [LE V] [OrderTop V] {φ : W → V} (ht : φ ⊤ = ⊤) (s : KState W) (n : ℕ) :
    finishMst (s.mapW φ) n = (finishMst s n).map (Edge.mapW φ) := by
  have hb : ∀ reps, (bridgeEdges reps : List (Edge V)) = (bridgeEdges reps : List (Edge W)).map (Edge.mapW φ) := by
    intro reps
    unfold bridgeEdges
    rw [List.map_map]
    refine List.map_congr_left fun p _ => ?_
    simp only [Function.comp_apply, Edge.mapW, ht]
  unfold finishMst bridgeForest
  simp only [KState.mapW, List.length_map, hb]
  split
  · split
    · rfl
    · split
      · rfl
      · rw [List.map_append]
  · rfl

theorem mrdW_mapW [LinearOrder W] [LinearOrder V] {φ : W → V} (hφ : StrictMono φ) (a b c : W) : mrdW (φ a) (φ b) (φ c) = φ (mrdW a b c) := by
  unfold mrdW
  simp only [gt_iff_lt, hφ.lt_iff_lt, ← apply_ite φ]

theorem bruteCore_mapW [LinearOrder W] [OrderTop W] [Zero W] [LinearOrder V] [OrderTop V] [Zero V] {φ : W → V} (hφ : StrictMono φ) (h0 : φ 0 = 0)
    (ht : φ ⊤ = ⊤) (n ms : ℕ) (D : ℕ → ℕ → W) (i : ℕ) : bruteCore n ms (fun i j => φ (D i j)) i = φ (bruteCore n ms D i) := by
  unfold bruteCore
  have : (List.range n).map (fun j => φ (D i j)) = ((List.range n).map (D i)).map φ := by rw [List.map_map]; rfl
  rw [this, ← List.map_insertionSort (· ≤ ·) (· ≤ ·) φ _ fun _ _ _ _ => hφ.le_iff_le.symm]
  split
  · exact h0.symm
  · split
    · rw [List.getD_eq_getElem?_getD, List.getD_eq_getElem?_getD, List.getElem?_map]
      cases (((List.range n).map (D i)).insertionSort (· ≤ ·))[ms]? with
      | none => exact ht.symm
      | some x => rfl
    · exact ht.symm

/-- Kruskal's algorithm on all pairs, on stretched distances: the same edges in the same order. -/
theorem kruskalBrute_mapW [LinearOrder W] [OrderTop W] [Zero W] [LinearOrder V] [OrderTop V] [Zero V] {φ : W → V} (hφ : StrictMono φ) (h0 : φ 0 = 0)
    (ht : φ ⊤ = ⊤) (n ms : ℕ) (D : ℕ → ℕ → W) (cl : CLParams) :
    kruskalBrute n ms (fun i j => φ (D i j)) cl = (kruskalBrute n ms D cl).map (Edge.mapW φ) := by
  have ht' : triuEdges n (fun i j => φ (D i j)) (bruteCore n ms fun i j => φ (D i j)) = (triuEdges n D (bruteCore n ms D)).map (Edge.mapW φ) := by
    unfold triuEdges
    rw [List.map_flatMap]
    simp only [List.map_map]
    congr 1
    funext i
    refine List.map_congr_left fun j _ => ?_
    simp only [Function.comp_apply, Edge.mapW, bruteCore_mapW hφ h0 ht, mrdW_mapW hφ]
  unfold kruskalBrute
  rw [ht', sortEdges_mapW hφ, runKruskalCore_mapW, finishMst_mapW ht]

end Kruskal

end Verif
