import Verif.Lemmas.Scale
import Verif.Lemmas.Twins
import Verif.Props.RawFit
import Verif.Props.Rename
import Verif.Props.SemiSupervised

/-!
# C103: identical rows
-/

namespace Verif
variable {W K α β : Type*}

section
variable [Field K] [LinearOrder K] [IsStrictOrderedRing K]

/-- Samples that leave the same cluster at the same lambda get the same label and the same strength. -/
theorem CondTree.same_label {n k : ℕ} {rows : List (CRow K K)} (h : CondTree n k rows) {sel : List ℕ} (hrg : ∀ c ∈ sel, n ≤ c) {epsLam : Option K} {labels : List ℤ}
    (hm : LabelsMean n rows sel epsLam labels) {str : ℕ → K} {f : K → WithTop K}
    (hs : strengthVector (rows.map fun row => ⟨row.parent, row.child, f row.lam, row.size⟩) sel labels = some str)
    {rx ry : CRow K K} (hrx : rx ∈ rows) (hry : ry ∈ rows) (hx : rx.child < n) (hy : ry.child < n) (hp : rx.parent = ry.parent) (hl : rx.lam = ry.lam) :
    labels[rx.child]? = labels[ry.child]? ∧ str rx.child = str ry.child := by
  have hdesc : ∀ {ra rb : CRow K K}, ra ∈ rows → rb ∈ rows → ra.child < n → ra.parent = rb.parent → ∀ {s}, s ∈ sel → CDesc rows s ra.child → CDesc rows s rb.child := by
    intro ra rb hra hrb ha hpp s hss hd
    have hsn := hrg s hss
    rcases Relation.ReflTransGen.cases_tail hd with h1 | ⟨c, h1, q, hq, h2, h3⟩
    · omega
    · have hqa := List.inj_on_of_nodup_map h.nodup hq hra h3
      subst hqa
      rw [← h2, hpp] at h1
      exact h1.tail ⟨rb, hrb, rfl, rfl⟩
  have hlabx : ∀ {ra rb : CRow K K}, ra ∈ rows → rb ∈ rows → ra.child < n → rb.child < n → ra.parent = rb.parent → ra.lam = rb.lam →
      ∀ i : ℕ, labels[ra.child]? = some (i : ℤ) → labels[rb.child]? = some (i : ℤ) := by
    intro ra rb hra hrb ha hb hpp hll i hi
    by_cases htop : n ∈ sel
    · obtain ⟨h1, h2, h3⟩ := ((hm.2 ra hra ha).2.1 htop i).1 hi
      refine ((hm.2 rb hrb hb).2.1 htop i).2 ⟨h1, hll ▸ h2, ?_⟩
      unfold DenseEnough at h3 ⊢
      rw [← hll]; exact h3
    · obtain ⟨h1, s, h2, h3⟩ := ((hm.2 ra hra ha).1 htop i).1 hi
      refine ((hm.2 rb hrb hb).1 htop i).2 ⟨hll ▸ h1, s, h2, hdesc hra hrb ha hpp ?_ h3⟩
      exact (List.perm_insertionSort (· ≤ ·) sel).mem_iff.1 (List.mem_of_getElem? h2)
  have hget : ∀ {x}, x < n → ∃ l, labels[x]? = some l := fun {x} hxn => ⟨_, List.getElem?_eq_getElem (by rw [hm.1]; exact hxn)⟩
  have hlab : labels[rx.child]? = labels[ry.child]? := by
    obtain ⟨lx, hlx⟩ := hget hx
    obtain ⟨ly, hly⟩ := hget hy
    have g1 := (hm.2 rx hrx hx).2.2 lx hlx
    have g2 := (hm.2 ry hry hy).2.2 ly hly
    by_cases hx0 : 0 ≤ lx
    · obtain ⟨i, rfl⟩ := Int.eq_ofNat_of_zero_le hx0
      rw [hlx, hlabx hrx hry hx hy hp hl i hlx]
    · by_cases hy0 : 0 ≤ ly
      · obtain ⟨i, rfl⟩ := Int.eq_ofNat_of_zero_le hy0
        rw [hly, hlabx hry hrx hy hx hp.symm hl.symm i hly]
      · rw [hlx, hly, show lx = ly by omega]
  refine ⟨hlab, ?_⟩
  have hne : rows ≠ [] := List.ne_nil_of_mem hrx
  have hlt : ∀ l ∈ labels, l < sel.length := by
    intro l hl
    obtain ⟨x, hxl⟩ := List.mem_iff_getElem?.1 hl
    have hxn : x < n := by rw [← hm.1]; exact (List.getElem?_eq_some_iff.1 hxl).1
    obtain ⟨row, hrow, rfl⟩ := List.mem_map.1 ((h.children x).2 (.inl hxn))
    by_cases h0 : 0 ≤ l
    · obtain ⟨i, rfl⟩ := Int.eq_ofNat_of_zero_le h0
      by_cases htop : n ∈ sel
      · have h1 := (((hm.2 row hrow hxn).2.1 htop i).1 hxl).1
        have := List.length_pos_of_mem htop
        omega
      · obtain ⟨_, s, h2, _⟩ := ((hm.2 row hrow hxn).1 htop i).1 hxl
        have := (List.getElem?_eq_some_iff.1 h2).1
        rw [List.length_insertionSort] at this
        omega
    · omega
  have hRt : CondTree n k (rows.map (CRow.mapLam f)) := h.mapLam f
  obtain ⟨res, e1, e2⟩ := strengthVector_eq (K := K) (rows.map (CRow.mapLam f)) hRt (by simpa using hne) sel labels hm.1 hlt
  have hsr : str = res := Option.some.inj (hs.symm.trans e1)
  subst hsr
  have e3 := e2 (rx.mapLam f) (List.mem_map_of_mem hrx) hx
  have e4 := e2 (ry.mapLam f) (List.mem_map_of_mem hry) hy
  obtain ⟨lx, hlx⟩ := hget hx
  have hly := hlab ▸ hlx
  by_cases hx0 : 0 ≤ lx
  · obtain ⟨i, rfl⟩ := Int.eq_ofNat_of_zero_le hx0
    have hi := hlt _ (List.mem_of_getElem? hlx)
    have hi' : i < (sortIds sel).length := by
      have : (sortIds sel).length = sel.length := (List.perm_insertionSort _ sel).length_eq
      omega
    have g1 := e3.2 i _ hlx (List.getElem?_eq_getElem hi')
    have g2 := e4.2 i _ hly (List.getElem?_eq_getElem hi')
    have g3 : (rx.mapLam f).lam = (ry.mapLam f).lam := by simp only [CRow.mapLam]; rw [hl]
    rw [g3] at g1
    exact g1.trans g2.symm
  · exact (e3.1 lx hlx (by omega)).trans (e4.1 lx hly (by omega)).symm

end

section
variable [Field K] [LinearOrder K] [IsStrictOrderedRing K] [LinearOrder W] [Inhabited W] [Inhabited K]

/-- The optional simplification keeps together samples that leave the same cluster at the same lambda. -/
theorem simplifyIf_same {n : ℕ} (hn : 2 ≤ n) {wt : ℕ → K} {t : List (Edge W)} (ht : SpanningTree n t)
    {o : ClusterOpts K} (h1 : 1 < o.minClusterSize) (h0 : ∀ x, x < n → 0 ≤ wt x)
    (hl : ∀ x, x < n → wt x < o.minClusterSize) {lam : W → K} (hlam : Antitone lam) {rows : List (CRow K K)}
    (hs : simplifyIf o.persistence (condenseTree (Hier.ofRows (mstToLinkage wt (lexsortMst t))) wt o.minClusterSize none lam) = some rows)
    {x y : ℕ} (hx : x < n) (hy : y < n)
    (hsame : ∀ rx ∈ condenseTree (Hier.ofRows (mstToLinkage wt (lexsortMst t))) wt o.minClusterSize none lam,
      ∀ ry ∈ condenseTree (Hier.ofRows (mstToLinkage wt (lexsortMst t))) wt o.minClusterSize none lam,
      rx.child = x → ry.child = y → rx.parent = ry.parent ∧ rx.lam = ry.lam)
    {rx ry : CRow K K} (hrx : rx ∈ rows) (hry : ry ∈ rows) (hcx : rx.child = x) (hcy : ry.child = y) : rx.parent = ry.parent ∧ rx.lam = ry.lam := by
  have ht' := ht.perm (lexsortMst_perm t)
  obtain ⟨k0, hct0, hbin0, hmono0, hkind0, hfull0, _⟩ :=
    C54_applies n hn wt _ ht' (lexsortMst_sorted t) o.minClusterSize h1 h0 hl lam hlam
  set T := condenseTree (Hier.ofRows (mstToLinkage wt (lexsortMst t))) wt o.minClusterSize none lam with hT
  unfold simplifyIf at hs
  by_cases hp : 0 < o.persistence ∧ 0 < T.length
  · rw [if_pos hp] at hs
    by_cases hk0 : 1 < k0
    · obtain ⟨ps, F, g, _, _, ho⟩ := simplify_unfold o.persistence hct0 hbin0 hmono0 hkind0 hfull0 hk0
      have hsim := Option.some.inj (ho.symm.trans hs)
      rw [← hsim] at hrx hry
      have hold : ∀ {row : CRow K K} {z : ℕ}, z < n → row ∈ simpOut n g F T → row.child = z →
          ∃ q ∈ T, q.child = z ∧ row = newRow n g F q := by
        intro row z hz hr hc
        obtain ⟨q, hq, _, rfl⟩ := mem_simpOut.1 hr
        refine ⟨q, hq, ?_, rfl⟩
        simp only [newRow] at hc
        by_cases hge : n ≤ q.child
        · rw [if_pos hge] at hc
          unfold newId at hc
          omega
        · rw [if_neg hge] at hc; exact hc
      obtain ⟨qx, hqx, hqcx, rfl⟩ := hold hx hrx hcx
      obtain ⟨qy, hqy, hqcy, rfl⟩ := hold hy hry hcy
      obtain ⟨e1, e2⟩ := hsame qx hqx qy hqy hqcx hqcy
      simp only [newRow, e1, e2, and_self]
    · exfalso
      have hk1 : k0 = 1 := by have := hct0.pos; omega
      subst hk1
      have := C54_undefined o.persistence n T hct0 hkind0
      rw [hs] at this
      cases this
  · rw [if_neg hp, Option.some.injEq] at hs
    subst hs
    exact hsame rx hrx ry hry hcx hcy

variable [OrderTop W]

/-- In the spanning tree found by brute force, samples at the smallest distance get the same label and strength. -/
theorem Clustered.kruskal_same [Zero W] {n ms : ℕ} (hn : 2 ≤ n) {D : ℕ → ℕ → W} (hD : ∀ i j, D i j = D j i) (hms : ms ≤ 1) (h0D : ∀ i j, 0 ≤ D i j)
    (htr : ∀ i j l, i < n → j < n → l < n → D i j = 0 → D j l = 0 → D i l = 0) {wt : ℕ → K}
    {o : ClusterOpts K} (h1 : 1 < o.minClusterSize) (h0 : ∀ x, x < n → 0 ≤ wt x)
    (hl : ∀ x, x < n → wt x < o.minClusterSize) {lam : W → K} (hlam : Antitone lam)
    {r : ClusterResult W K} (hr : Clustered n lam wt o (kruskalBrute n ms D CLParams.none) r) {x y : ℕ} (hx : x < n) (hy : y < n) (hxy : D x y = 0) :
    r.labels[x]? = r.labels[y]? ∧ r.strengths x = r.strengths y := by
  by_cases hne : x = y
  · subst hne; exact ⟨rfl, rfl⟩
  obtain ⟨ht, hmsf⟩ := kruskalBrute_msf (ms := ms) (show 0 < n by omega) hD
  have hcore : ∀ i, bruteCore n ms D i = 0 := fun i => by unfold bruteCore; rw [if_pos hms]
  have hw : ∀ i j, D i j = max (max (bruteCore n ms D i) (bruteCore n ms D j)) (D i j) := fun i j => by
    rw [hcore, hcore, max_self, max_eq_right (h0D i j)]
  have hstar := fun {e f : Edge W} => kruskalBrute_star (ms := ms) (D := D) (w := D) hw hD htr (e := e) (f := f)
  set t := kruskalBrute n ms D CLParams.none with htdef
  set es := lexsortMst t with hes
  have hperm : es.Perm t := lexsortMst_perm t
  have hsort : es.Pairwise fun a b => a.w ≤ b.w := lexsortMst_sorted t
  have ht' : SpanningTree n es := ht.perm hperm
  have hwt : ∀ e ∈ es, 0 ≤ e.w := by
    intro e he
    have := (mem_completeGraph.1 (hmsf.forest.sub.subset (hperm.mem_iff.1 he))).2.2.2
    rw [this]
    exact (h0D _ _).trans ((le_max_left _ _).trans (le_max_left _ _))
  -- the edges of weight zero come first
  have hconn : Conn (upTo 0 es) x y := by
    have h2 : Conn (upTo (0 : W) (completeGraph n fun i j => max (max (D i j) (bruteCore n ms D i)) (bruteCore n ms D j))) x y :=
      Conn.edge (e := ⟨x, y, 0⟩) (mem_upTo.2 ⟨mem_completeGraph.2 ⟨hx, hy, hne, by simp only; rw [hcore, hcore, hxy, max_self, max_self]⟩, le_rfl⟩)
    rw [← hmsf.conn_upTo] at h2
    refine h2.mono fun e he => ?_
    obtain ⟨h3, h4⟩ := mem_upTo.1 he
    exact mem_upTo.2 ⟨hperm.mem_iff.2 h3, h4⟩
  have hsame := tree_same hn wt ht' hsort hwt (fun e he f hf => hstar (hperm.mem_iff.1 he) (hperm.mem_iff.1 hf)) hx hy hne hconn (mcs := o.minClusterSize) h0 hl lam
  obtain ⟨k', hct', -, -, hrg, -, -, hmean, -⟩ := hr.tree
  obtain ⟨rx, hrx, hcx⟩ := List.mem_map.1 ((hct'.children x).2 (.inl hx))
  obtain ⟨ry, hry, hcy⟩ := List.mem_map.1 ((hct'.children y).2 (.inl hy))
  obtain ⟨e1, e2⟩ := simplifyIf_same hn ht h1 h0 hl hlam hr.simp hx hy hsame hrx hry hcx hcy
  obtain ⟨f, hstr⟩ := hr.strength
  have := hct'.same_label (fun c hc => (hrg c hc).1) hmean hstr hrx hry (by omega) (by omega) e1 e2
  rw [hcx, hcy] at this
  exact this

/-- Whatever selects the clusters: `fit` with brute force Kruskal and without core distances gives identical rows the same label and strength. -/
theorem fit_same_with [Zero W] {lam : W → K} (hlam : Antitone lam) {finite : α → Bool} {dist : α → α → W} (hsym : ∀ x y, dist x y = dist y x)
    (hnn : ∀ x y, 0 ≤ dist x y) (htr : ∀ x y z, dist x y = 0 → dist y z = 0 → dist x z = 0) {ms : ℕ} (hms : ms ≤ 1)
    {X : List α} {side : List β} (hside : side.length = X.length) (h2 : 2 ≤ (X.filter finite).length) {wt : β → K} {o : ClusterOpts K} (h1 : 1 < o.minClusterSize)
    (hw0 : ∀ b ∈ side, 0 ≤ wt b ∧ wt b < o.minClusterSize)
    {outliers : List ℕ} (hout : outliers.Perm ((List.range X.length).filter fun i => !(X[i]?.map finite).getD false))
    {cluster : List α → List β → Option (ClusterResult W K)}
    (hcl : ∀ r1, cluster (X.filter finite) (((X.zip side).filter fun p => finite p.1).map Prod.snd) = some r1 →
      Clustered (X.filter finite).length lam (fun i => ((((X.zip side).filter fun p => finite p.1).map Prod.snd)[i]?.map wt).getD 1) o
        (kruskalRows dist ms (X.filter finite) (((X.zip side).filter fun p => finite p.1).map Prod.snd)) r1)
    {r : FitResult W K} (hr : fitModel finite (fastWith cluster) outliers X side = .ok r)
    {a b : ℕ} {x y : α} (ha : X[a]? = some x) (hb : X[b]? = some y) (hfa : finite x = true) (hfb : finite y = true) (hxy : dist x y = 0) :
    r.labels[a]? = r.labels[b]? ∧ r.strengths[a]? = r.strengths[b]? := by
  obtain ⟨P, hP⟩ : ∃ P, P = X.filter finite := ⟨_, rfl⟩
  obtain ⟨sideP, hsP⟩ : ∃ s, s = ((X.zip side).filter fun p => finite p.1).map Prod.snd := ⟨_, rfl⟩
  have hcore : ∀ r0, fastWith cluster (X.filter finite) (((X.zip side).filter fun p => finite p.1).map Prod.snd) = .ok r0 →
      ∃ r1, cluster (X.filter finite) (((X.zip side).filter fun p => finite p.1).map Prod.snd) = some r1 ∧
        r0 = ⟨r1.labels, (List.range (X.filter finite).length).map r1.strengths, r1.linkage, r1.condensed⟩ := by
    intro r0 hr0
    unfold fastWith at hr0
    rw [if_neg (not_lt.2 h2)] at hr0
    cases hc : cluster (X.filter finite) (((X.zip side).filter fun p => finite p.1).map Prod.snd) with
    | none => rw [hc] at hr0; cases hr0
    | some r1 =>
      rw [hc] at hr0
      exact ⟨r1, rfl, (Except.ok.inj hr0).symm⟩
  obtain ⟨r0, hr0, hlen0, hlen1, hlen2, hrows⟩ := nonfinite_rows hside (fun r0 h => by
    obtain ⟨r1, h3, rfl⟩ := hcore r0 h
    obtain ⟨k, _, _, _, _, _, _, hmean, _⟩ := (hcl r1 h3).tree
    exact ⟨hmean.1, by simp⟩) hout hr
  obtain ⟨r1, hr1, rfl⟩ := hcore r0 hr0
  have hcl1 := hcl r1 hr1
  have hpa := finite_pos ha hfa
  have hpb := finite_pos hb hfb
  rw [((hrows a x ha).2 hfa).1, ((hrows a x ha).2 hfa).2, ((hrows b y hb).2 hfb).1, ((hrows b y hb).2 hfb).2]
  simp only
  have hla := (List.getElem?_eq_some_iff.1 hpa).1
  have hlb := (List.getElem?_eq_some_iff.1 hpb).1
  rw [List.getElem?_map, List.getElem?_map, List.getElem?_range hla, List.getElem?_range hlb, Option.map_some, Option.map_some, Option.some.injEq]
  rw [← hP, ← hsP] at hcl1
  rw [← hP] at hla hlb h2 hpa hpb
  have hside' : ∀ b ∈ sideP, b ∈ side := by
    intro b hb
    rw [hsP] at hb
    obtain ⟨q, hq, rfl⟩ := List.mem_map.1 hb
    exact (List.of_mem_zip (show (q.1, q.2) ∈ _ from (List.mem_filter.1 hq).1)).2
  have hwt : ∀ i : ℕ, 0 ≤ (sideP[i]?.map wt).getD 1 ∧ (sideP[i]?.map wt).getD 1 < o.minClusterSize := by
    intro i
    cases hi : sideP[i]? with
    | none => exact ⟨zero_le_one, h1⟩
    | some b => exact hw0 b (hside' b (List.mem_of_getElem? hi))
  have hD : ∀ i j, rowDist dist P i j = rowDist dist P j i := by
    intro i j
    unfold rowDist
    cases P[i]? <;> cases P[j]? <;> simp [hsym]
  have h0D : ∀ i j, 0 ≤ rowDist dist P i j := by
    intro i j
    unfold rowDist
    cases P[i]? <;> cases P[j]? <;> simp [hnn]
  unfold kruskalRows at hcl1
  refine hcl1.kruskal_same h2 hD hms h0D (fun i j l hi hj hl e1 e2 => ?_) h1 (fun x _ => (hwt x).1) (fun x _ => (hwt x).2) hlam hla hlb ?_
  · rw [rowDist_eq (List.getElem?_eq_getElem hi) (List.getElem?_eq_getElem hj)] at e1
    rw [rowDist_eq (List.getElem?_eq_getElem hj) (List.getElem?_eq_getElem hl)] at e2
    rw [rowDist_eq (List.getElem?_eq_getElem hi) (List.getElem?_eq_getElem hl)]
    exact htr _ _ _ e1 e2
  · rw [rowDist_eq hpa hpb]; exact hxy

/-- **C103** (partial), `algorithm='kruskal'` without `knn_k`, `min_samples` at most 1: whenever `fit` returns, rows without missing values at distance 0 of
each other get the same label and the same strength, for any sample weights below `min_cluster_size` and all selection options.
Missing: larger `min_samples` (`C103_core_distances`), other spanning trees (`C103_other_tree`, but see `C103_same_label_partial`). -/
theorem C103_kruskal_partial [Zero W] (lam : W → K) (hlam : Antitone lam) (hpos : ∀ d, 0 ≤ lam d) (finite : α → Bool) (dist : α → α → W)
    (hsym : ∀ x y, dist x y = dist y x) (hnn : ∀ x y, 0 ≤ dist x y) (htr : ∀ x y z, dist x y = 0 → dist y z = 0 → dist x z = 0) (ms : ℕ) (hms : ms ≤ 1)
    (X : List α) (side : List β) (hside : side.length = X.length) (h2 : 2 ≤ (X.filter finite).length) (wt : β → K) (o : ClusterOpts K) (h1 : 1 < o.minClusterSize)
    (hw0 : ∀ b ∈ side, 0 ≤ wt b ∧ wt b < o.minClusterSize)
    (outliers : List ℕ) (hout : outliers.Perm ((List.range X.length).filter fun i => !(X[i]?.map finite).getD false))
    (r : FitResult W K) (hr : fitModel finite (fastHdbscan lam (kruskalRows dist ms) wt o) outliers X side = .ok r)
    (a b : ℕ) (x y : α) (ha : X[a]? = some x) (hb : X[b]? = some y) (hfa : finite x = true) (hfb : finite y = true) (hxy : dist x y = 0) :
    r.labels[a]? = r.labels[b]? ∧ r.strengths[a]? = r.strengths[b]? := by
  obtain ⟨sideP, hsP⟩ : ∃ s, s = ((X.zip side).filter fun p => finite p.1).map Prod.snd := ⟨_, rfl⟩
  have hside' : ∀ b ∈ sideP, b ∈ side := by
    intro b hb
    rw [hsP] at hb
    obtain ⟨q, hq, rfl⟩ := List.mem_map.1 hb
    exact (List.of_mem_zip (show (q.1, q.2) ∈ _ from (List.mem_filter.1 hq).1)).2
  have hwt : ∀ i : ℕ, 0 ≤ (sideP[i]?.map wt).getD 1 ∧ (sideP[i]?.map wt).getD 1 < o.minClusterSize := by
    intro i
    cases hi : sideP[i]? with
    | none => exact ⟨zero_le_one, h1⟩
    | some b => exact hw0 b (hside' b (List.mem_of_getElem? hi))
  refine fit_same_with (wt := wt) (o := o) hlam hsym hnn htr hms hside h2 h1 hw0 hout (fun r1 h3 => ?_) hr ha hb hfa hfb hxy
  beta_reduce at h3
  rw [← hsP] at h3 ⊢
  exact clustered_of_mst h2 (kruskalRows_tree dist hsym ms _ h2 _).1 h1 (fun x _ => (hwt x).1) (fun x _ => (hwt x).2) hlam hpos h3

/-- **C103** (partial) for semi-supervised runs, whatever classes are given with the rows. -/
theorem C103_kruskal_ss_partial [Zero W] (lam : W → K) (hlam : Antitone lam) (hpos : ∀ d, 0 ≤ lam d) (finite : α → Bool) (dist : α → α → W)
    (hsym : ∀ x y, dist x y = dist y x) (hnn : ∀ x y, 0 ≤ dist x y) (htr : ∀ x y z, dist x y = 0 → dist y z = 0 → dist x z = 0) (ms : ℕ) (hms : ms ≤ 1)
    (X : List α) (side : List β) (hside : side.length = X.length) (h2 : 2 ≤ (X.filter finite).length) (wt : β → K) (lab : β → ℤ) (v : Bool) (o : ClusterOpts K)
    (h1 : 1 < o.minClusterSize) (hw0 : ∀ b ∈ side, 0 ≤ wt b ∧ wt b < o.minClusterSize)
    (outliers : List ℕ) (hout : outliers.Perm ((List.range X.length).filter fun i => !(X[i]?.map finite).getD false))
    (r : FitResult W K) (hr : fitModel finite (fastHdbscanSS lam (kruskalRows dist ms) wt lab v o) outliers X side = .ok r)
    (a b : ℕ) (x y : α) (ha : X[a]? = some x) (hb : X[b]? = some y) (hfa : finite x = true) (hfb : finite y = true) (hxy : dist x y = 0) :
    r.labels[a]? = r.labels[b]? ∧ r.strengths[a]? = r.strengths[b]? := by
  obtain ⟨sideP, hsP⟩ : ∃ s, s = ((X.zip side).filter fun p => finite p.1).map Prod.snd := ⟨_, rfl⟩
  have hlenP : sideP.length = (X.filter finite).length := by rw [hsP]; exact side_length hside
  have hside' : ∀ b ∈ sideP, b ∈ side := by
    intro b hb
    rw [hsP] at hb
    obtain ⟨q, hq, rfl⟩ := List.mem_map.1 hb
    exact (List.of_mem_zip (show (q.1, q.2) ∈ _ from (List.mem_filter.1 hq).1)).2
  have hwt : ∀ i : ℕ, 0 ≤ (sideP[i]?.map wt).getD 1 ∧ (sideP[i]?.map wt).getD 1 < o.minClusterSize := by
    intro i
    cases hi : sideP[i]? with
    | none => exact ⟨zero_le_one, h1⟩
    | some b => exact hw0 b (hside' b (List.mem_of_getElem? hi))
  refine fit_same_with (wt := wt) (o := o) hlam hsym hnn htr hms hside h2 h1 hw0 hout (fun r1 h3 => ?_) hr ha hb hfa hfb hxy
  beta_reduce at h3
  rw [← hsP] at h3 ⊢
  exact clustered_of_ss h2 (kruskalRows_tree dist hsym ms _ h2 _).1 h1 (fun x _ => (hwt x).1) (fun x _ => (hwt x).2) hlam hpos hlenP.le h3

end

/-- **C103** (partial), any algorithm and `min_samples`: if two rows of a sound clustering are labelled differently and the first is in a cluster, then
all of that cluster is joined by steps no longer than the mutual reachability distance of the two rows. -/
theorem C103_apart_partial [LinearOrder W] [OrderTop W] [Zero W] [Zero K] [One K] [LE K] (finite : α → Bool) (dist : α → α → W) (ms mcs : ℕ) (X : List α)
    (labels : List ℤ) (strengths : List K) (h : SoundClustering finite dist ms mcs X labels strengths) (a b : ℕ) (x y : α) (ha : X[a]? = some x)
    (hb : X[b]? = some y) (hfa : finite x = true) (hfb : finite y = true) (l : ℤ) (hl0 : l ≠ -1) (hla : labels[a]? = some l) (hlb : labels[b]? ≠ some l)
    (i j : ℕ) (hi : labels[i]? = some l) (hj : labels[j]? = some l) :
    Relation.ReflTransGen (fun c d : ℕ => labels[c]? = some l ∧ labels[d]? = some l ∧
      Within finite dist ms X (· ≤ rowReach dist (X.filter finite) ms x y) c d) i j := by
  obtain ⟨τ, h1, h2⟩ := h.cluster l (List.mem_of_getElem? hla) hl0
  have hτ : τ ≤ rowReach dist (X.filter finite) ms x y := by
    by_contra hc
    exact hlb (h2 a b hla ⟨x, y, ha, hb, hfa, hfb, not_le.1 hc⟩)
  refine Relation.ReflTransGen.mono (fun c d hcd => And.intro hcd.1 (And.intro hcd.2.1 ?_)) _ _ (h1 i j hi hj)
  obtain ⟨x', y', h3, h4, h5, h6, h7⟩ := hcd.2.2
  exact ⟨x', y', h3, h4, h5, h6, h7.trans hτ⟩

/-- **C103** (partial), any algorithm, `min_samples` at most 1: in a sound clustering, identical rows get the same label, unless the cluster of one of them
consists only of copies of that row. -/
theorem C103_same_label_partial [LinearOrder W] [OrderTop W] [Zero W] [Zero K] [One K] [LE K] (finite : α → Bool) (dist : α → α → W)
    (hnn : ∀ x y, 0 ≤ dist x y) (hself : ∀ x, dist x x = 0) (htr : ∀ x y z, dist x y = 0 → dist y z = 0 → dist x z = 0) (ms mcs : ℕ) (hms : ms ≤ 1) (X : List α)
    (labels : List ℤ) (strengths : List K) (h : SoundClustering finite dist ms mcs X labels strengths) (a b : ℕ) (x y : α) (ha : X[a]? = some x)
    (hb : X[b]? = some y) (hfa : finite x = true) (hfb : finite y = true) (hxy : dist x y = 0) (l : ℤ) (hl0 : l ≠ -1) (hla : labels[a]? = some l) :
    labels[b]? = some l ∨ ∀ (c : ℕ) z, X[c]? = some z → labels[c]? = some l → dist x z = 0 := by
  by_cases hlb : labels[b]? = some l
  · exact .inl hlb
  refine .inr fun c z hc hlc => ?_
  have hr : rowReach dist (X.filter finite) ms x y = 0 := by
    unfold rowReach coreOf
    rw [if_pos hms, if_pos hms, hxy, max_self, max_self]
  have hchain := C103_apart_partial finite dist ms mcs X labels strengths h a b x y ha hb hfa hfb l hl0 hla hlb a c hla hlc
  rw [hr] at hchain
  have key : ∀ d, Relation.ReflTransGen (fun c d : ℕ => labels[c]? = some l ∧ labels[d]? = some l ∧ Within finite dist ms X (· ≤ 0) c d) a d →
      ∀ z, X[d]? = some z → dist x z = 0 := by
    intro d hd
    induction hd with
    | refl =>
      intro z hz
      rw [ha, Option.some.injEq] at hz
      rw [← hz]; exact hself x
    | @tail d e _ hs ih =>
      intro z hz
      obtain ⟨_, _, x', y', g1, g2, _, _, g5⟩ := hs
      rw [hz, Option.some.injEq] at g2
      subst g2
      refine htr x x' z (ih x' g1) (le_antisymm (le_trans ?_ g5) (hnn _ _))
      exact (le_max_left _ _).trans (le_max_left _ _)
  exact key c hchain z hc

/-! ### Cases -/

/-- Two copies of the row 0 between two groups of three rows. -/
def twinRows : List (Option ℚ) := [some 0, some (-4), some (-5), some (-6), some 4, some 5, some 6, some 0]

theorem rowLine_nonneg (x y : Option ℚ) : 0 ≤ rowLine x y := WithTop.coe_nonneg.2 (abs_nonneg _)

theorem rowLine_zero {x y : Option ℚ} : rowLine x y = 0 ↔ x.getD 0 = y.getD 0 := by
  unfold rowLine
  rw [← WithTop.coe_zero, WithTop.coe_inj, abs_eq_zero, sub_eq_zero]

/-- **C103** fails with `min_samples=2`: of the two identical rows, the first is in a cluster with strength 1/2 and the second is noise. -/
theorem C103_core_distances : ∃ r, fitModel Option.isSome (fastHdbscan lamq (kruskalRows rowLine 2) (fun _ => 1) (exOpts .eom 0)) [] twinRows
      (twinRows.map fun _ => ()) = .ok r ∧
    twinRows[0]? = twinRows[7]? ∧ r.labels = [0, 0, 0, 0, 1, 1, 1, -1] ∧ r.strengths[0]? = some (1 / 2) ∧ r.strengths[7]? = some 0 := by
  have hl : (match fitModel Option.isSome (fastHdbscan lamq (kruskalRows rowLine 2) (fun _ => 1) (exOpts .eom 0)) [] twinRows (twinRows.map fun _ => ()) with
    | .ok r => decide (r.labels = [0, 0, 0, 0, 1, 1, 1, -1] ∧ r.strengths[0]? = some (1 / 2) ∧ r.strengths[7]? = some 0)
    | .error _ => false) = true := by decide +kernel
  cases hr : fitModel Option.isSome (fastHdbscan lamq (kruskalRows rowLine 2) (fun _ => 1) (exOpts .eom 0)) [] twinRows (twinRows.map fun _ => ()) with
  | error e => rw [hr] at hl; cases hl
  | ok r =>
    rw [hr] at hl
    exact ⟨r, rfl, rfl, of_decide_eq_true hl⟩

/-- A spanning tree of four copies of a row. -/
def copyTree : List (Edge (WithTop ℚ)) := [⟨0, 3, 0⟩, ⟨1, 2, 0⟩, ⟨2, 3, 0⟩]

theorem copyTree_spanning : SpanningTree 4 copyTree := by
  have hconn : ∀ a b, a < 4 → b < 4 → Conn copyTree a b := by
    have h0 : ∀ a, a < 4 → Conn copyTree a 3 := by
      have e03 : Conn copyTree 0 3 := Conn.edge (e := ⟨0, 3, 0⟩) (by decide)
      have e12 : Conn copyTree 1 2 := Conn.edge (e := ⟨1, 2, 0⟩) (by decide)
      have e23 : Conn copyTree 2 3 := Conn.edge (e := ⟨2, 3, 0⟩) (by decide)
      intro a ha
      interval_cases a
      · exact e03
      · exact e12.trans e23
      · exact e23
      · exact Conn.refl _ _
    exact fun a b ha hb => (h0 a ha).trans (h0 b hb).symm
  have hr : InRange 4 copyTree := by decide
  exact ⟨hr, acyclic_of_connected hr hconn (by decide), hconn⟩

/-- **C103** fails for another minimum spanning tree, even without core distances: four identical rows are split into two clusters by the method `leaf`. -/
theorem C103_other_tree : MinSpanningForest (triuEdges 4 (rowDist rowLine [some 0, some 0, some 0, some 0]) (fun _ => 0)) copyTree ∧
    (clustersFromMst lamq (fun _ => 1) (exOpts .leaf 0) copyTree).map (fun r => r.labels) = some [1, 0, 0, 1] := by
  constructor
  · have hg : ∀ e ∈ triuEdges 4 (rowDist rowLine [some 0, some 0, some 0, some 0]) (fun _ => 0), e.u < 4 ∧ e.v < 4 ∧ 0 ≤ e.w := by decide +kernel
    have hc : ∀ e ∈ triuEdges 4 (rowDist rowLine [some 0, some 0, some 0, some 0]) (fun _ => 0), Conn (upTo e.w copyTree) e.u e.v := by
      intro e he
      obtain ⟨h1, h2, h3⟩ := hg e he
      have : upTo e.w copyTree = copyTree := by
        unfold upTo
        rw [List.filter_eq_self]
        intro d hd
        have : ∀ d ∈ copyTree, d.w = 0 := by decide
        rw [this d hd]; exact decide_eq_true h3
      rw [this]
      exact copyTree_spanning.conn _ _ h1 h2
    have hs : ∀ e ∈ copyTree, e ∈ triuEdges 4 (rowDist rowLine [some 0, some 0, some 0, some 0]) (fun _ => 0) := by decide +kernel
    refine minSpanningForest_of_threshold ⟨List.subperm_of_subset (by decide) (fun e he => hs e he), copyTree_spanning.acyclic,
      fun a b => ⟨Conn.mono hs, Conn.of_forall fun e he => copyTree_spanning.conn _ _ (hg e he).1 (hg e he).2.1⟩⟩ hc
  · decide +kernel

/-- The hypotheses of `C103_kruskal_partial` hold for the rows of `C103_core_distances` without core distances: both copies get the same label. -/
example (r : FitResult (WithTop ℚ) ℚ)
    (hr : fitModel Option.isSome (fastHdbscan lamq (kruskalRows rowLine 1) (fun _ => 1) (exOpts .eom 0)) [] twinRows (twinRows.map fun _ => ()) = .ok r) :
    r.labels[0]? = r.labels[7]? ∧ r.strengths[0]? = r.strengths[7]? :=
  C103_kruskal_partial lamq lamq_antitone lamq_nonneg Option.isSome rowLine rowLine_comm rowLine_nonneg
    (fun x y z h1 h2 => rowLine_zero.2 ((rowLine_zero.1 h1).trans (rowLine_zero.1 h2))) 1 (by decide) twinRows _ (by simp) (by decide +kernel) (fun _ => 1)
    (exOpts .eom 0) (by decide +kernel) (fun _ _ => by decide +kernel) [] (by decide +kernel) r hr 0 7 (some 0) (some 0) rfl rfl rfl rfl (by decide +kernel)

/-- The hypotheses of `C103_kruskal_ss_partial` hold for these rows with class 0 given to the first and class 1 to the last. -/
example (r : FitResult (WithTop ℚ) ℚ)
    (hr : fitModel Option.isSome (fastHdbscanSS lamq (kruskalRows rowLine 1) (fun _ => 1) id true (exOpts .eom 0)) [] twinRows [0, -1, -1, -1, -1, -1, -1, 1] = .ok r) :
    r.labels[0]? = r.labels[7]? ∧ r.strengths[0]? = r.strengths[7]? :=
  C103_kruskal_ss_partial lamq lamq_antitone lamq_nonneg Option.isSome rowLine rowLine_comm rowLine_nonneg
    (fun x y z h1 h2 => rowLine_zero.2 ((rowLine_zero.1 h1).trans (rowLine_zero.1 h2))) 1 (by decide) twinRows _ (by simp [twinRows]) (by decide +kernel) (fun _ => 1)
    id true (exOpts .eom 0) (by decide +kernel) (fun _ _ => by decide +kernel) [] (by decide +kernel) r hr 0 7 (some 0) (some 0) rfl rfl rfl rfl (by decide +kernel)

/-- The hypotheses of `C103_same_label_partial` hold for the result of `fit` on these rows. -/
example : ∃ r, fitModel Option.isSome (fastHdbscan lamq (kruskalRows rowLine 1) (fun _ => 1) (exOpts .eom 0)) [] twinRows (twinRows.map fun _ => ()) = .ok r ∧
    ∀ l : ℤ, l ≠ -1 → r.labels[0]? = some l → r.labels[7]? = some l ∨ ∀ (c : ℕ) z, twinRows[c]? = some z → r.labels[c]? = some l → rowLine (some 0) z = 0 := by
  obtain ⟨r, hr, hs⟩ := C97_fit_kruskal_partial lamq lamq_antitone lamq_nonneg lamq_zero Option.isSome rowLine rowLine_comm 1 2 le_rfl twinRows (by decide) []
    (by decide +kernel) (exOpts .eom 0) rfl rfl rfl le_rfl le_rfl
  exact ⟨r, hr, fun l hl0 hl => C103_same_label_partial Option.isSome rowLine rowLine_nonneg (fun x => rowLine_zero.2 rfl)
    (fun x y z h1 h2 => rowLine_zero.2 ((rowLine_zero.1 h1).trans (rowLine_zero.1 h2))) 1 2 le_rfl twinRows r.labels r.strengths hs 0 7 (some 0) (some 0) rfl rfl rfl rfl
    (by decide +kernel) l hl0 hl⟩

end Verif
