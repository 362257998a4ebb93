import Verif.Spec.TreeBoruvka
import Verif.Lemmas.KdQuery

/-!
# Threads: what holds of every interleaving
-/

namespace Verif
variable {R W α β : Type*}

/-- `Q` holds of the values read, the values written and the result, whatever is read. -/
def QProg.wp (Q : List W → List W → α → Prop) : QProg W α → List W → List W → Prop
  | .ret a, rs, ws => Q rs ws a
  | .read k, rs, ws => ∀ w, (k w).wp Q (w :: rs) ws
  | .write w k, rs, ws => k.wp Q rs (w :: ws)

theorem QProg.wp_bind (Q : List W → List W → β → Prop) (p : QProg W α) (f : α → QProg W β) (rs ws : List W) :
    (p.bind f).wp Q rs ws ↔ p.wp (fun rs ws a => (f a).wp Q rs ws) rs ws := by
  induction p generalizing rs ws with
  | ret a => rfl
  | read k ih => exact forall_congr' fun w => ih w _ _
  | write w k ih => exact ih _ _

theorem QProg.wp_mono {Q Q' : List W → List W → α → Prop} (h : ∀ rs ws a, Q rs ws a → Q' rs ws a) (p : QProg W α) (rs ws : List W)
    (hp : p.wp Q rs ws) : p.wp Q' rs ws := by
  induction p generalizing rs ws with
  | ret a => exact h _ _ _ hp
  | read k ih => exact fun w => ih w _ _ (hp w)
  | write w k ih => exact ih _ _ hp

section
variable [LinearOrder W] [OrderTop W]

/-- Invariant of an execution: `rs i` and `ws i` are what thread `i` has read and written. -/
structure QInv (Q : ℕ → List W → List W → α → Prop) (slot : ℕ → ℕ) (n : ℕ) (c : QConfig W α) (rs ws : ℕ → List W) : Prop where
  wp : ∀ i < n, (c.prog i).wp (Q i) (rs i) (ws i)
  seen : ∀ i < n, ∀ r ∈ rs i, r = ⊤ ∨ r ∈ c.hist (slot i)
  origin : ∀ s, ∀ w ∈ c.hist s, ∃ j < n, slot j = s ∧ w ∈ ws j

theorem QInv.step {Q : ℕ → List W → List W → α → Prop} {slot : ℕ → ℕ} {n lo hi : ℕ} {c c' : QConfig W α} {rs ws : ℕ → List W}
    (h : QInv Q slot n c rs ws) (hs : QStep anyVis slot lo hi c c') (hn : hi ≤ n) : ∃ rs' ws', QInv Q slot n c' rs' ws' := by
  cases hs with
  | read i k w h1 h2 hp hv =>
    refine ⟨Function.update rs i (w :: rs i), ws, fun j hj => ?_, fun j hj r hr => ?_, h.origin⟩
    · simp only
      by_cases hij : j = i
      · subst hij
        rw [Function.update_self, Function.update_self]
        have := h.wp j hj
        rw [hp] at this
        exact this w
      · rw [Function.update_of_ne hij, Function.update_of_ne hij]; exact h.wp j hj
    · simp only
      by_cases hij : j = i
      · subst hij
        rw [Function.update_self] at hr
        rcases List.mem_cons.1 hr with rfl | hr
        · exact hv
        · exact h.seen j hj r hr
      · rw [Function.update_of_ne hij] at hr; exact h.seen j hj r hr
  | write i w k h1 h2 hp =>
    refine ⟨rs, Function.update ws i (w :: ws i), fun j hj => ?_, fun j hj r hr => ?_, fun s x hx => ?_⟩
    · simp only
      by_cases hij : j = i
      · subst hij
        rw [Function.update_self, Function.update_self]
        have := h.wp j hj
        rw [hp] at this
        exact this
      · rw [Function.update_of_ne hij, Function.update_of_ne hij]; exact h.wp j hj
    · simp only
      rcases h.seen j hj r hr with h0 | h0
      · exact Or.inl h0
      · right
        by_cases hss : slot j = slot i
        · rw [hss, Function.update_self]
          rw [hss] at h0
          exact List.mem_cons_of_mem _ h0
        · rw [Function.update_of_ne hss]; exact h0
    · simp only at hx
      have old : ∀ y, y ∈ c.hist s → ∃ j < n, slot j = s ∧ y ∈ Function.update ws i (w :: ws i) j := by
        intro y hy
        obtain ⟨j, j1, j2, j3⟩ := h.origin s y hy
        refine ⟨j, j1, j2, ?_⟩
        by_cases hij : j = i
        · subst hij; rw [Function.update_self]; exact List.mem_cons_of_mem _ j3
        · rw [Function.update_of_ne hij]; exact j3
      by_cases hss : s = slot i
      · subst hss
        rw [Function.update_self] at hx
        rcases List.mem_cons.1 hx with rfl | hx
        · exact ⟨i, by omega, rfl, by rw [Function.update_self]; simp⟩
        · exact old x hx
      · rw [Function.update_of_ne hss] at hx; exact old x hx

theorem QInv.steps {Q : ℕ → List W → List W → α → Prop} {slot : ℕ → ℕ} {n lo hi : ℕ} {c c' : QConfig W α} {rs ws : ℕ → List W}
    (h : QInv Q slot n c rs ws) (hs : Relation.ReflTransGen (QStep anyVis slot lo hi) c c') (hn : hi ≤ n) :
    ∃ rs' ws', QInv Q slot n c' rs' ws' := by
  induction hs with
  | refl => exact ⟨rs, ws, h⟩
  | tail _ hstep ih =>
    obtain ⟨rs', ws', h'⟩ := ih
    exact h'.step hstep hn

theorem lastVis_anyVis {h : List W} {w : W} (hv : lastVis h w) : anyVis h w := by
  cases h with
  | nil => exact Or.inl hv
  | cons x l => exact Or.inr (by unfold lastVis at hv; rw [hv]; simp)

theorem QStep.weaken {slot : ℕ → ℕ} {lo hi : ℕ} {c c' : QConfig W α} {vis : List W → W → Prop} (hvis : ∀ h w, vis h w → anyVis h w)
    (h : QStep vis slot lo hi c c') : QStep anyVis slot lo hi c c' := by
  cases h with
  | read i k w h1 h2 hp hv => exact QStep.read c i k w h1 h2 hp (hvis _ _ hv)
  | write i w k h1 h2 hp => exact QStep.write c i w k h1 h2 hp

theorem QPhase.weaken {slot : ℕ → ℕ} {lo hi : ℕ} {c c' : QConfig W α} {vis : List W → W → Prop} (hvis : ∀ h w, vis h w → anyVis h w)
    (h : QPhase vis slot lo hi c c') : QPhase anyVis slot lo hi c c' :=
  ⟨Relation.ReflTransGen.mono (fun _ _ hs => QStep.weaken hvis hs) _ _ h.1, h.2⟩

/-! ## What one thread does -/

/-- The heap of thread `i` holds an edge to another component, or nothing. -/
def RealCand (x : QCtx R W) (n i : ℕ) (h : W × Option ℕ) : Prop :=
  h = (⊤, none) ∨ ∃ q < n, x.comp q ≠ x.comp i ∧ h = (mreach x.ar x.dims x.pts x.core i q, some q)

variable [LinearOrder R]

/-- What holds after looking through the points `qs`, starting with `h` and `rs` read. -/
structure ThreadPost (x : QCtx R W) (n i : ℕ) (qs : List ℕ) (h : W × Option ℕ) (rs0 : List W) (rs ws : List W) (a : W × Option ℕ) :
    Prop where
  real : RealCand x n i a
  le : a.1 ≤ h.1
  writes : ∀ w ∈ ws, a.1 ≤ w
  reads : ∀ r ∈ rs0, r ∈ rs
  found : ∀ q ∈ qs, x.comp q ≠ x.comp i → (∀ r ∈ rs, mreach x.ar x.dims x.pts x.core i q < r) →
    a.1 ≤ mreach x.ar x.dims x.pts x.core i q

omit [LinearOrder R] in
theorem leafProg_wp (x : QCtx R W) (n i : ℕ) (qs : List ℕ) (hqs : ∀ q ∈ qs, q < n) (h : W × Option ℕ) (rs ws : List W)
    (hr : RealCand x n i h) (hw : ∀ w ∈ ws, h.1 ≤ w) :
    (leafProg x i qs h).wp (ThreadPost x n i qs h rs) rs ws := by
  induction qs generalizing h rs ws with
  | nil => exact ⟨hr, le_refl _, hw, fun _ h => h, by simp⟩
  | cons q qs ih =>
    have hqs' : ∀ q ∈ qs, q < n := fun p hp => hqs p (List.mem_cons_of_mem _ hp)
    have skip : ∀ rs', (∀ r ∈ rs, r ∈ rs') →
        (x.comp q ≠ x.comp i → (∀ r ∈ rs', mreach x.ar x.dims x.pts x.core i q < r) →
          h.1 ≤ mreach x.ar x.dims x.pts x.core i q) →
        (leafProg x i qs h).wp (ThreadPost x n i (q :: qs) h rs) rs' ws := by
      intro rs' hsub hq
      refine QProg.wp_mono ?_ _ _ _ (ih hqs' h rs' ws hr hw)
      intro rs'' ws'' a ha
      refine ⟨ha.real, ha.le, ha.writes, fun r hr => ha.reads r (hsub r hr), fun p hp hc hall => ?_⟩
      rcases List.mem_cons.1 hp with rfl | hp
      · exact ha.le.trans (hq hc fun r hr => hall r (ha.reads r hr))
      · exact ha.found p hp hc hall
    unfold leafProg
    by_cases hc : x.comp q ≠ x.comp i
    · rw [if_pos hc]
      intro b
      beta_reduce
      by_cases hb : x.core q < b
      · simp only [if_pos hb]
        have hm : max (max (rdist x.ar x.dims (x.pts i) (x.pts q)) (x.core i)) (x.core q) =
          mreach x.ar x.dims x.pts x.core i q := rfl
        rw [hm]
        by_cases hd : mreach x.ar x.dims x.pts x.core i q < h.1
        · rw [if_pos hd]
          have go : ∀ rs' ws', (∀ r ∈ rs, r ∈ rs') → (∀ w ∈ ws', mreach x.ar x.dims x.pts x.core i q ≤ w) →
              (leafProg x i qs (mreach x.ar x.dims x.pts x.core i q, some q)).wp (ThreadPost x n i (q :: qs) h rs) rs' ws' := by
            intro rs' ws' hsub hws'
            refine QProg.wp_mono ?_ _ _ _ (ih hqs' _ rs' ws' (Or.inr ⟨q, hqs q List.mem_cons_self, hc, rfl⟩) hws')
            intro rs'' ws'' a ha
            refine ⟨ha.real, ha.le.trans hd.le, ha.writes, fun r hr => ha.reads r (hsub r hr), fun p hp hc hall => ?_⟩
            rcases List.mem_cons.1 hp with rfl | hp
            · exact ha.le
            · exact ha.found p hp hc hall
          intro b'
          beta_reduce
          have hsub : ∀ r ∈ rs, r ∈ b' :: b :: rs := fun r hr => List.mem_cons_of_mem _ (List.mem_cons_of_mem _ hr)
          by_cases hb' : mreach x.ar x.dims x.pts x.core i q < b'
          · rw [if_pos hb']
            refine go _ _ hsub fun w hw' => ?_
            rcases List.mem_cons.1 hw' with rfl | hw'
            · exact le_refl _
            · exact hd.le.trans (hw w hw')
          · rw [if_neg hb']
            exact go _ _ hsub fun w hw' => hd.le.trans (hw w hw')
        · rw [if_neg hd]
          exact skip _ (fun r hr => List.mem_cons_of_mem _ hr) fun _ _ => not_lt.1 hd
      · simp only [if_neg hb]
        refine skip _ (fun r hr => List.mem_cons_of_mem _ hr) fun _ hall => ?_
        exact absurd (lt_of_le_of_lt (le_max_right _ _) (hall b List.mem_cons_self)) hb
    · rw [if_neg hc]
      exact skip rs (fun _ h => h) fun h => absurd h hc

theorem nodeProg_wp (x : QCtx R W) (ha : x.ar.Lawful) (n i : ℕ) (hidx : ∀ j < n, x.t.idx j < n) {v s e : ℕ}
    (hc : x.t.Covers x.pts x.dims x.nNodes v s e) (he : e ≤ n) (hnode : ∃ d, x.t.Node v d) (hsound : NodesSound x.t x.comp x.nodeComp)
    (g : ℕ) (hg : x.nNodes ≤ g + v) (h : W × Option ℕ) (rs ws : List W) (hr : RealCand x n i h) (hw : ∀ w ∈ ws, h.1 ≤ w) :
    (nodeProg x i g v (boxDist x.ar x.dims (x.t.lo v) (x.t.hi v) (x.pts i)) h).wp (ThreadPost x n i (slice x.t.idx s e) h rs) rs ws := by
  -- the first tests of the recursion, common to leaves and inner nodes
  have start : ∀ (v s e : ℕ) (hv : ∃ d, x.t.Node v d) (hst : x.t.start v = s) (hsp : x.t.stop v = e) (hbox : x.t.Box x.pts x.dims v s e) (g : ℕ) (h : W × Option ℕ)
      (rs ws : List W) (hr : RealCand x n i h) (hw : ∀ w ∈ ws, h.1 ≤ w)
      (body : QProg W (W × Option ℕ)),
      (∀ rs', (∀ r ∈ rs, r ∈ rs') → body.wp (ThreadPost x n i (slice x.t.idx s e) h rs) rs' ws) →
      (if boxDist x.ar x.dims (x.t.lo v) (x.t.hi v) (x.pts i) > h.1 then QProg.ret h
        else .read fun b => if boxDist x.ar x.dims (x.t.lo v) (x.t.hi v) (x.pts i) > b then .ret h
          else .read fun b' => if x.core i > b' then .ret h else if x.nodeComp v = some (x.comp i) then .ret h else body).wp
        (ThreadPost x n i (slice x.t.idx s e) h rs) rs ws := by
    intro v s e hv hst hsp hbox g h rs ws hr hw body hbody
    have hlow : ∀ q ∈ slice x.t.idx s e, boxDist x.ar x.dims (x.t.lo v) (x.t.hi v) (x.pts i) ≤ mreach x.ar x.dims x.pts x.core i q := by
      intro q hq
      obtain ⟨j, j1, j2, rfl⟩ := mem_slice.1 hq
      exact (boxDist_le_rdist ha x.dims _ _ (x.pts i) _ (hbox.inside j j1 j2)).trans ((le_max_left _ _).trans (le_max_left _ _))
    have stop : ∀ rs', (∀ r ∈ rs, r ∈ rs') →
        (∀ q ∈ slice x.t.idx s e, x.comp q ≠ x.comp i → (∀ r ∈ rs', mreach x.ar x.dims x.pts x.core i q < r) →
          h.1 ≤ mreach x.ar x.dims x.pts x.core i q) →
        (QProg.ret h).wp (ThreadPost x n i (slice x.t.idx s e) h rs) rs' ws :=
      fun rs' h1 h2 => ⟨hr, le_refl _, hw, h1, h2⟩
    by_cases h1 : boxDist x.ar x.dims (x.t.lo v) (x.t.hi v) (x.pts i) > h.1
    · rw [if_pos h1]
      exact stop rs (fun _ h => h) fun q hq _ _ => h1.le.trans (hlow q hq)
    · rw [if_neg h1]
      intro b
      beta_reduce
      by_cases h2 : boxDist x.ar x.dims (x.t.lo v) (x.t.hi v) (x.pts i) > b
      · rw [if_pos h2]
        refine stop _ (fun r hr => List.mem_cons_of_mem _ hr) fun q hq _ hall => ?_
        exact absurd ((hlow q hq).trans_lt (hall b List.mem_cons_self)) (not_lt.2 h2.le)
      · rw [if_neg h2]
        intro b'
        beta_reduce
        by_cases h3 : x.core i > b'
        · rw [if_pos h3]
          refine stop _ (fun r hr => List.mem_cons_of_mem _ (List.mem_cons_of_mem _ hr)) fun q hq _ hall => ?_
          have h4 : x.core i ≤ mreach x.ar x.dims x.pts x.core i q := (le_max_right _ _).trans (le_max_left _ _)
          exact absurd (h4.trans_lt (hall b' List.mem_cons_self)) (not_lt.2 h3.le)
        · rw [if_neg h3]
          by_cases h4 : x.nodeComp v = some (x.comp i)
          · rw [if_pos h4]
            refine stop _ (fun r hr => List.mem_cons_of_mem _ (List.mem_cons_of_mem _ hr)) fun q hq hne _ => ?_
            obtain ⟨j, j1, j2, rfl⟩ := mem_slice.1 hq
            obtain ⟨d, hd⟩ := hv
            exact absurd (hsound v d hd _ h4 j (by omega) (by omega)) hne
          · rw [if_neg h4]
            exact hbody _ fun r hr => List.mem_cons_of_mem _ (List.mem_cons_of_mem _ hr)
  induction hc generalizing g h rs ws with
  | leaf v s e hv hse hst hsp hl hbox hroom =>
    obtain ⟨g, rfl⟩ : ∃ g', g = g' + 1 := ⟨g - 1, by omega⟩
    unfold nodeProg
    refine start v s e hnode hst hsp hbox g h rs ws hr hw _ ?_
    intro rs' hsub
    rw [if_pos hl, hst, hsp]
    refine QProg.wp_mono ?_ _ _ _ (leafProg_wp x n i (slice x.t.idx s e) ?_ h rs' ws hr hw)
    · intro rs'' ws'' a hp
      exact ⟨hp.real, hp.le, hp.writes, fun r hr => hp.reads r (hsub r hr), hp.found⟩
    · intro q hq
      obtain ⟨j, j1, j2, rfl⟩ := mem_slice.1 hq
      exact hidx j (by omega)
  | node v s m e hv hst hsp hl hbox hm hsplit c1 c2 ih1 ih2 =>
    obtain ⟨g, rfl⟩ : ∃ g', g = g' + 1 := ⟨g - 1, by omega⟩
    have l1 := c1.lt
    have l2 := c2.lt
    have n1 : ∃ d, x.t.Node (2 * v + 1) d := by obtain ⟨d, hd⟩ := hnode; exact ⟨_, KdTree.Node.left v d hd hl⟩
    have n2 : ∃ d, x.t.Node (2 * v + 2) d := by obtain ⟨d, hd⟩ := hnode; exact ⟨_, KdTree.Node.right v d hd hl⟩
    unfold nodeProg
    refine start v s e hnode hst hsp hbox g h rs ws hr hw _ ?_
    intro rs' hsub
    rw [if_neg (by simp [hl])]
    simp only
    have hmem : ∀ q, q ∈ slice x.t.idx s e ↔ q ∈ slice x.t.idx s m ∨ q ∈ slice x.t.idx m e := by
      intro q; rw [slice_append x.t.idx l1.le l2.le, List.mem_append]
    split
    · rw [QProg.wp_bind]
      refine QProg.wp_mono ?_ _ _ _ (ih1 (by omega) n1 g (by omega) h rs' ws hr hw)
      intro r1 w1 a1 p1
      refine QProg.wp_mono ?_ _ _ _ (ih2 he n2 g (by omega) a1 r1 w1 p1.real p1.writes)
      intro r2 w2 a2 p2
      refine ⟨p2.real, p2.le.trans p1.le, p2.writes, fun r hr => p2.reads _ (p1.reads _ (hsub r hr)), fun q hq hne hall => ?_⟩
      rcases (hmem q).1 hq with hq | hq
      · exact p2.le.trans (p1.found q hq hne fun r hr => hall r (p2.reads r hr))
      · exact p2.found q hq hne hall
    · rw [QProg.wp_bind]
      refine QProg.wp_mono ?_ _ _ _ (ih2 he n2 g (by omega) h rs' ws hr hw)
      intro r1 w1 a1 p1
      refine QProg.wp_mono ?_ _ _ _ (ih1 (by omega) n1 g (by omega) a1 r1 w1 p1.real p1.writes)
      intro r2 w2 a2 p2
      refine ⟨p2.real, p2.le.trans p1.le, p2.writes, fun r hr => p2.reads _ (p1.reads _ (hsub r hr)), fun q hq hne hall => ?_⟩
      rcases (hmem q).1 hq with hq | hq
      · exact p2.found q hq hne hall
      · exact p2.le.trans (p1.found q hq hne fun r hr => hall r (p2.reads r hr))

end

end Verif
