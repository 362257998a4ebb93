import Verif.Lemmas.QProg
import Mathlib.Algebra.Order.BigOperators.Group.Finset

/-!
# The query of the tree-based Borůvka routine
-/

namespace Verif
variable {R W α β : Type*} [LinearOrder R] [LinearOrder W] [OrderTop W]

theorem KdTree.Valid.idx_lt {t : KdTree R} {pts : ℕ → ℕ → R} {dims n nNodes : ℕ} (h : t.Valid pts dims n nNodes) {j : ℕ} (hj : j < n) :
    t.idx j < n := by
  have : t.idx j ∈ entries n t.idx := by unfold entries; exact List.mem_map.2 ⟨j, List.mem_range.2 hj, rfl⟩
  exact List.mem_range.1 (h.perm.mem_iff.1 this)

theorem KdTree.Valid.mem_slice_idx {t : KdTree R} {pts : ℕ → ℕ → R} {dims n nNodes : ℕ} (h : t.Valid pts dims n nNodes) {q : ℕ} (hq : q < n) :
    q ∈ slice t.idx 0 n := by
  rw [slice_eq_entries]; exact h.perm.mem_iff.2 (List.mem_range.2 hq)

/-- What thread `i` has done when it returns. -/
def PointPost (x : QCtx R W) (n i : ℕ) (rs ws : List W) (a : W × Option ℕ) : Prop :=
  RealCand x n i a ∧ (∀ w ∈ ws, a.1 ≤ w) ∧ ∀ q < n, x.comp q ≠ x.comp i → (∀ r ∈ rs, mreach x.ar x.dims x.pts x.core i q < r) →
    a.1 ≤ mreach x.ar x.dims x.pts x.core i q

theorem pointProg_wp (x : QCtx R W) (ha : x.ar.Lawful) {n : ℕ} (ht : x.t.Valid x.pts x.dims n x.nNodes)
    (hsound : NodesSound x.t x.comp x.nodeComp) (i : ℕ) : (pointProg x i).wp (PointPost x n i) [] [] := by
  unfold pointProg
  refine QProg.wp_mono ?_ _ _ _ (nodeProg_wp x ha n i (fun j hj => ht.idx_lt hj) ht.covers (le_refl n) ⟨0, KdTree.Node.root⟩ hsound
    x.nNodes (by omega) (⊤, none) [] [] (Or.inl rfl) (by simp))
  intro rs ws a hp
  exact ⟨hp.real, hp.writes, fun q hq => hp.found q (ht.mem_slice_idx hq)⟩

theorem exact_of_inv (x : QCtx R W) {n : ℕ} {Q : ℕ → List W → List W → α → Prop} {proj : α → W × Option ℕ}
    (hQ : ∀ i rs ws a, Q i rs ws a → PointPost x n i rs ws (proj a)) {c : QConfig W α} {rs ws : ℕ → List W}
    (h : QInv Q x.comp n c rs ws) {cand : ℕ → W × Option ℕ} (hc : ∀ i < n, ∃ a, c.prog i = .ret a ∧ proj a = cand i) :
    ExactCandidates n x.comp (mreach x.ar x.dims x.pts x.core) cand := by
  have hp : ∀ i < n, PointPost x n i (rs i) (ws i) (cand i) := by
    intro i hi
    obtain ⟨a, h1, h2⟩ := hc i hi
    have := h.wp i hi
    rw [h1] at this
    rw [← h2]
    exact hQ i _ _ _ this
  refine ⟨fun i hi => (hp i hi).1, fun p hpn q hq hne htop => ?_⟩
  by_cases hall : ∀ r ∈ rs p, mreach x.ar x.dims x.pts x.core p q < r
  · exact ⟨p, hpn, rfl, (hp p hpn).2.2 q hq (Ne.symm hne) hall⟩
  · push Not at hall
    obtain ⟨r, hr, hle⟩ := hall
    rcases h.seen p hpn r hr with rfl | hr'
    · exact absurd htop (not_lt.2 hle)
    · obtain ⟨j, j1, j2, j3⟩ := h.origin _ r hr'
      exact ⟨j, j1, j2, ((hp j j1).2.1 r j3).trans hle⟩

theorem queryResult_exact (x : QCtx R W) (ha : x.ar.Lawful) {n : ℕ} (ht : x.t.Valid x.pts x.dims n x.nNodes)
    (hsound : NodesSound x.t x.comp x.nodeComp) {cand : ℕ → W × Option ℕ} (hq : QueryResult anyVis x n cand) :
    ExactCandidates n x.comp (mreach x.ar x.dims x.pts x.core) cand := by
  obtain ⟨c, ⟨hs, _⟩, hc⟩ := hq
  have h0 : QInv (PointPost x n) x.comp n ⟨pointProg x, fun _ => []⟩ (fun _ => []) (fun _ => []) :=
    ⟨fun i _ => pointProg_wp x ha ht hsound i, by simp, by simp⟩
  obtain ⟨rs, ws, h⟩ := h0.steps hs (le_refl n)
  exact exact_of_inv x (proj := id) (fun i rs ws a h => h) h fun i hi => ⟨cand i, hc i hi, rfl⟩

/-! ## With `reproducible=True` -/

/-- What thread `i` has done when it returns: as before, and the bound it returns is one it has read. -/
def ReproPost (x : QCtx R W) (n i : ℕ) (rs ws : List W) (a : (W × Option ℕ) × W) : Prop := PointPost x n i rs ws a.1 ∧ a.2 ∈ rs

theorem reproProg_wp (x : QCtx R W) (ha : x.ar.Lawful) {n : ℕ} (ht : x.t.Valid x.pts x.dims n x.nNodes)
    (hsound : NodesSound x.t x.comp x.nodeComp) (i : ℕ) : (reproProg x i).wp (ReproPost x n i) [] [] := by
  unfold reproProg
  rw [QProg.wp_bind]
  refine QProg.wp_mono ?_ _ _ _ (pointProg_wp x ha ht hsound i)
  intro rs ws a hp b
  exact ⟨⟨hp.1, hp.2.1, fun q hq hne hall => hp.2.2 q hq hne fun r hr => hall r (List.mem_cons_of_mem _ hr)⟩, List.mem_cons_self⟩

omit [LinearOrder R] in
theorem publish_inv {Q : ℕ → List W → List W → α → Prop} {slot : ℕ → ℕ} {n : ℕ} {b : ℕ → W} {is : List ℕ} {h h' : ℕ → List W}
    (hp : Publish anyVis slot b is h h') : ∀ {c : QConfig W α} {rs ws : ℕ → List W}, c.hist = h → QInv Q slot n c rs ws →
    (∀ i ∈ is, i < n ∧ b i ∈ rs i) → QInv Q slot n ⟨c.prog, h'⟩ rs ws := by
  induction hp with
  | nil h => intro c rs ws hc hi _; subst hc; exact hi
  | keep i is h h' w hv hb _ ih => intro c rs ws hc hi his; exact ih hc hi fun j hj => his j (List.mem_cons_of_mem _ hj)
  | lower i is h h' w hv hb _ ih =>
    intro c rs ws hc hi his
    subst hc
    obtain ⟨h1, h2⟩ := his i List.mem_cons_self
    have h3 : b i ∈ c.hist (slot i) := by
      rcases hi.seen i h1 _ h2 with h3 | h3
      · rw [h3] at hb; exact absurd hb not_top_lt
      · exact h3
    refine ih (c := ⟨c.prog, Function.update c.hist (slot i) (b i :: c.hist (slot i))⟩) rfl ?_ fun j hj => his j (List.mem_cons_of_mem _ hj)
    refine ⟨hi.wp, fun j hj r hr => ?_, fun s w hw => ?_⟩
    · rcases hi.seen j hj r hr with h4 | h4
      · exact Or.inl h4
      · right
        simp only
        by_cases hss : slot j = slot i
        · rw [hss, Function.update_self]; rw [hss] at h4; exact List.mem_cons_of_mem _ h4
        · rw [Function.update_of_ne hss]; exact h4
    · simp only at hw
      by_cases hss : s = slot i
      · subst hss
        rw [Function.update_self] at hw
        rcases List.mem_cons.1 hw with rfl | hw
        · exact hi.origin _ _ h3
        · exact hi.origin _ _ hw
      · rw [Function.update_of_ne hss] at hw; exact hi.origin _ _ hw

theorem blocks_inv (x : QCtx R W) {n size start : ℕ} {c c' : QConfig W ((W × Option ℕ) × W)}
    (hb : Blocks anyVis x.comp n size start c c') : ∀ {rs ws : ℕ → List W}, QInv (ReproPost x n) x.comp n c rs ws →
    ∃ rs' ws', QInv (ReproPost x n) x.comp n c' rs' ws' := by
  induction hb with
  | done start c _ => intro rs ws h; exact ⟨rs, ws, h⟩
  | block start c c' c'' r h hlt hph hret hpub _ ih =>
    intro rs ws hi
    obtain ⟨rs1, ws1, h1⟩ := hi.steps hph.1 (min_le_right _ _)
    refine ih (rs := rs1) (ws := ws1) ?_
    refine publish_inv hpub rfl h1 fun i hi' => ?_
    rw [List.mem_range'_1] at hi'
    have hlt' : i < min (start + size) n := by omega
    have hin : i < n := lt_of_lt_of_le hlt' (min_le_right _ _)
    have := h1.wp i hin
    rw [hret i hi'.1 hlt'] at this
    exact ⟨hin, this.2⟩

omit [LinearOrder R] in
theorem Publish.weaken {vis : List W → W → Prop} (hvis : ∀ h w, vis h w → anyVis h w) {slot : ℕ → ℕ} {b : ℕ → W} {is : List ℕ}
    {h h' : ℕ → List W} (hp : Publish vis slot b is h h') : Publish anyVis slot b is h h' := by
  induction hp with
  | nil h => exact Publish.nil h
  | lower i is h h' w hv hb _ ih => exact Publish.lower i is h h' w (hvis _ _ hv) hb ih
  | keep i is h h' w hv hb _ ih => exact Publish.keep i is h h' w (hvis _ _ hv) hb ih

omit [LinearOrder R] in
theorem Blocks.weaken {vis : List W → W → Prop} (hvis : ∀ h w, vis h w → anyVis h w) {slot : ℕ → ℕ} {n size start : ℕ}
    {c c' : QConfig W ((W × Option ℕ) × W)} (hb : Blocks vis slot n size start c c') : Blocks anyVis slot n size start c c' := by
  induction hb with
  | done start c h => exact Blocks.done start c h
  | block start c c' c'' r h hlt hph hret hpub _ ih =>
    exact Blocks.block start c c' c'' r h hlt (hph.weaken hvis) hret (hpub.weaken hvis) ih

theorem reproResult_exact (x : QCtx R W) (ha : x.ar.Lawful) {n : ℕ} (ht : x.t.Valid x.pts x.dims n x.nNodes)
    (hsound : NodesSound x.t x.comp x.nodeComp) {size : ℕ} {cand : ℕ → W × Option ℕ} (hq : ReproResult anyVis x n size cand) :
    ExactCandidates n x.comp (mreach x.ar x.dims x.pts x.core) cand := by
  obtain ⟨c, hb, hc⟩ := hq
  have h0 : QInv (ReproPost x n) x.comp n ⟨reproProg x, fun _ => []⟩ (fun _ => []) (fun _ => []) :=
    ⟨fun i _ => reproProg_wp x ha ht hsound i, by simp, by simp⟩
  obtain ⟨rs, ws, h⟩ := blocks_inv x hb h0
  exact exact_of_inv x (proj := Prod.fst) (fun i rs ws a h => h.1) h fun i hi => by
    obtain ⟨b, hb⟩ := hc i hi
    exact ⟨_, hb, rfl⟩

/-! ## Termination -/

/-- The program makes at most so many steps. -/
def QProg.DepthLe : ℕ → QProg W α → Prop
  | _, .ret _ => True
  | 0, .read _ => False
  | 0, .write _ _ => False
  | k + 1, .read f => ∀ w, (f w).DepthLe k
  | k + 1, .write _ p => p.DepthLe k

omit [LinearOrder W] [OrderTop W] [LinearOrder R] in
theorem QProg.DepthLe.ret {a : α} {k : ℕ} : (QProg.ret a : QProg W α).DepthLe k := by cases k <;> trivial

omit [LinearOrder W] [OrderTop W] [LinearOrder R] in
theorem QProg.DepthLe.mono {p : QProg W α} {k k' : ℕ} (h : p.DepthLe k) (hk : k ≤ k') : p.DepthLe k' := by
  induction p generalizing k k' with
  | ret a => cases k' <;> trivial
  | read f ih =>
    cases k with
    | zero => exact h.elim
    | succ k => obtain ⟨k', rfl⟩ : ∃ j, k' = j + 1 := ⟨k' - 1, by omega⟩; exact fun w => ih w (h w) (by omega)
  | write w p ih =>
    cases k with
    | zero => exact h.elim
    | succ k =>
      obtain ⟨k', rfl⟩ : ∃ j, k' = j + 1 := ⟨k' - 1, by omega⟩
      exact ih (k := k) (k' := k') h (by omega)

omit [LinearOrder W] [OrderTop W] [LinearOrder R] in
theorem QProg.DepthLe.bind {p : QProg W α} {f : α → QProg W β} {k l : ℕ} (h : p.DepthLe k) (hf : ∀ a, (f a).DepthLe l) :
    (p.bind f).DepthLe (k + l) := by
  induction p generalizing k with
  | ret a => exact (hf a).mono (by omega)
  | read g ih =>
    cases k with
    | zero => exact h.elim
    | succ k => rw [show k + 1 + l = (k + l) + 1 by omega]; exact fun w => ih w (h w)
  | write w p ih =>
    cases k with
    | zero => exact h.elim
    | succ k => rw [show k + 1 + l = (k + l) + 1 by omega]; exact ih (k := k) h

omit [LinearOrder R] [OrderTop W] in
theorem leafProg_depth (x : QCtx R W) (i : ℕ) (qs : List ℕ) (h : W × Option ℕ) : (leafProg x i qs h).DepthLe (3 * qs.length) := by
  induction qs generalizing h with
  | nil => trivial
  | cons q qs ih =>
    unfold leafProg
    rw [List.length_cons, show 3 * (qs.length + 1) = 3 * qs.length + 2 + 1 by omega]
    split
    · intro b
      beta_reduce
      simp only
      split
      · split
        · intro b'
          beta_reduce
          split
          · exact ih _
          · exact (ih _).mono (by omega)
        · exact (ih _).mono (by omega)
      · exact (ih _).mono (by omega)
    · exact (ih _).mono (by omega)

omit [OrderTop W] in
theorem nodeProg_depth (x : QCtx R W) (i g v : ℕ) : ∃ k, ∀ b h, (nodeProg x i g v b h).DepthLe k := by
  induction g generalizing v with
  | zero => exact ⟨0, fun _ _ => trivial⟩
  | succ g ih =>
    obtain ⟨k1, h1⟩ := ih (2 * v + 1)
    obtain ⟨k2, h2⟩ := ih (2 * v + 1 + 1)
    set L := ((List.range' (x.t.start v) (x.t.stop v - x.t.start v)).map x.t.idx) with hL
    refine ⟨(3 * L.length + k1 + k2) + 1 + 1, fun b h => ?_⟩
    unfold nodeProg
    split
    · trivial
    · intro b1
      beta_reduce
      split
      · trivial
      · intro b2
        beta_reduce
        split
        · exact QProg.DepthLe.ret
        · split
          · exact QProg.DepthLe.ret
          · split
            · exact (leafProg_depth x i L h).mono (by omega)
            · simp only
              split
              · exact ((h1 _ _).bind fun a => h2 _ a).mono (by omega)
              · exact ((h2 _ _).bind fun a => h1 _ a).mono (by omega)

theorem pointProg_depth (x : QCtx R W) (i : ℕ) : ∃ k, (pointProg x i).DepthLe k := by
  obtain ⟨k, h⟩ := nodeProg_depth x i x.nNodes 0
  exact ⟨k, h _ _⟩

theorem reproProg_depth (x : QCtx R W) (i : ℕ) : ∃ k, (reproProg x i).DepthLe k := by
  obtain ⟨k, h⟩ := pointProg_depth x i
  exact ⟨k + 1, h.bind fun a => fun w => QProg.DepthLe.ret⟩

omit [LinearOrder W] [OrderTop W] [LinearOrder R] in
theorem QStep.depth {vis : List W → W → Prop} {slot : ℕ → ℕ} {n : ℕ} {c c' : QConfig W α} (hs : QStep vis slot 0 n c c') {D : ℕ → ℕ}
    (hD : ∀ i < n, (c.prog i).DepthLe (D i)) :
    ∃ D' : ℕ → ℕ, (∀ i < n, (c'.prog i).DepthLe (D' i)) ∧ ∑ i ∈ Finset.range n, D' i < ∑ i ∈ Finset.range n, D i := by
  have key : ∀ (i : ℕ) (p : QProg W α) (hist : ℕ → List W), i < n → 0 < D i → p.DepthLe (D i - 1) →
      ∃ D' : ℕ → ℕ, (∀ j < n, ((⟨Function.update c.prog i p, hist⟩ : QConfig W α).prog j).DepthLe (D' j)) ∧
        ∑ i ∈ Finset.range n, D' i < ∑ i ∈ Finset.range n, D i := by
    intro i p hist hi h0 hp
    refine ⟨Function.update D i (D i - 1), fun j hj => ?_, ?_⟩
    · simp only
      by_cases hij : j = i
      · subst hij; rw [Function.update_self, Function.update_self]; exact hp
      · rw [Function.update_of_ne hij, Function.update_of_ne hij]; exact hD j hj
    · refine Finset.sum_lt_sum (fun j _ => ?_) ⟨i, Finset.mem_range.2 hi, ?_⟩
      · by_cases hij : j = i
        · subst hij; rw [Function.update_self]; omega
        · rw [Function.update_of_ne hij]
      · rw [Function.update_self]; omega
  cases hs with
  | read i k w h1 h2 hp hv =>
    have hd := hD i h2
    rw [hp] at hd
    rcases hk : D i with _ | d
    · rw [hk] at hd; exact hd.elim
    · rw [hk] at hd
      exact key i (k w) c.hist h2 (by omega) (by rw [hk]; exact hd w)
  | write i w k h1 h2 hp =>
    have hd := hD i h2
    rw [hp] at hd
    rcases hk : D i with _ | d
    · rw [hk] at hd; exact hd.elim
    · rw [hk] at hd
      exact key i k _ h2 (by omega) (by rw [hk]; exact hd)

omit [LinearOrder W] [OrderTop W] [LinearOrder R] in
/-- There are no infinite executions. -/
theorem no_infinite {vis : List W → W → Prop} {slot : ℕ → ℕ} {n : ℕ} (c : QConfig W α) (hc : ∀ i < n, ∃ k, (c.prog i).DepthLe k) :
    ∃ N, ∀ (f : ℕ → QConfig W α) (len : ℕ), f 0 = c → (∀ k < len, QStep vis slot 0 n (f k) (f (k + 1))) → len ≤ N := by
  classical
  have hc' : ∀ i, ∃ k, i < n → (c.prog i).DepthLe k := fun i => by
    by_cases hi : i < n
    · obtain ⟨k, h⟩ := hc i hi; exact ⟨k, fun _ => h⟩
    · exact ⟨0, fun h => absurd h hi⟩
  choose D hD using hc'
  refine ⟨∑ i ∈ Finset.range n, D i, fun f len h0 hs => ?_⟩
  have : ∀ k ≤ len, ∃ D' : ℕ → ℕ, (∀ i < n, ((f k).prog i).DepthLe (D' i)) ∧ ∑ i ∈ Finset.range n, D' i + k ≤ ∑ i ∈ Finset.range n, D i := by
    intro k
    induction k with
    | zero => intro _; exact ⟨D, by rw [h0]; exact hD, le_refl _⟩
    | succ k ih =>
      intro hk
      obtain ⟨D', h1, h2⟩ := ih (by omega)
      obtain ⟨D'', h3, h4⟩ := (hs k (by omega)).depth h1
      exact ⟨D'', h3, by omega⟩
  obtain ⟨D', _, h⟩ := this len (le_refl _)
  omega

omit [LinearOrder R] in
/-- A thread that has not returned can make a step. -/
theorem progress {slot : ℕ → ℕ} {n : ℕ} (c : QConfig W α) (h : ¬ ∀ i < n, ∃ a, c.prog i = .ret a) :
    ∃ c', QStep lastVis slot 0 n c c' := by
  push Not at h
  obtain ⟨i, hi, hr⟩ := h
  cases hp : c.prog i with
  | ret a => exact absurd hp (hr a)
  | read k => exact ⟨_, QStep.read c i k _ (by omega) hi hp rfl⟩
  | write w k => exact ⟨_, QStep.write c i w k (by omega) hi hp⟩

end Verif
