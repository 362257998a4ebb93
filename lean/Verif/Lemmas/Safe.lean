import Verif.Lemmas.Graph
import Verif.Spec.Boruvka

/-!
# Growing a minimum spanning forest by arbitrary safe edges

`Safe g f`: every edge of `f` is irreplaceable given the edges of `g` lighter than it and the other edges of `f` that are
not heavier.  Adding a lightest edge out of a set that `f` does not leave keeps `f` safe; a safe forest that spans is a
minimum spanning forest.
-/

namespace Verif
variable {W : Type*} [LinearOrder W] {g f : List (Edge W)} {e d : Edge W}

/-- Partial minimum spanning forest. -/
structure Safe (g f : List (Edge W)) : Prop where
  mem : ∀ e ∈ f, e ∈ g
  acyclic : Acyclic f
  cut : ∀ l₁ e l₂, f = l₁ ++ e :: l₂ → ¬ Conn (below e.w g ++ upTo e.w (l₁ ++ l₂)) e.u e.v

theorem Safe.nil (g : List (Edge W)) : Safe g [] :=
  ⟨fun _ h => by simp at h, Acyclic.nil, fun l₁ e l₂ h => by simp at h⟩

/-- The cut step: `e` leaves the set `{x | I x}`, no edge of `f` and no lighter edge of `g` does. -/
theorem Safe.add (h : Safe g f) (he : e ∈ g) (I : ℕ → Prop) (hf : ∀ d ∈ f, (I d.u ↔ I d.v))
    (hg : ∀ d ∈ g, ¬ (I d.u ↔ I d.v) → e.w ≤ d.w) (hI : ¬ (I e.u ↔ I e.v)) : Safe g (f ++ [e]) := by
  have key : ¬ Conn (below e.w g ++ upTo e.w f) e.u e.v := by
    intro hc
    refine hI (iff_of_eq (conn_invariant I (fun d hd => propext ?_) hc))
    rcases List.mem_append.1 hd with hd | hd
    · rw [mem_below] at hd
      by_contra hn
      exact absurd (hg d hd.1 hn) (not_le.2 hd.2)
    · exact hf d (mem_upTo.1 hd).1
  have hnc : ¬ Conn f e.u e.v := fun hc => hI (iff_of_eq (conn_invariant I (fun d hd => propext (hf d hd)) hc))
  refine ⟨?_, Acyclic.snoc_iff.2 ⟨h.acyclic, hnc⟩, ?_⟩
  · intro d hd
    rcases List.mem_append.1 hd with hd | hd
    · exact h.mem d hd
    · rw [List.mem_singleton.1 hd]; exact he
  · intro l₁ d l₂ heq hc
    rcases List.eq_nil_or_concat l₂ with rfl | ⟨l₂', x, rfl⟩
    · have := List.append_inj_right' heq rfl
      have h2 := List.append_inj_left' heq rfl
      simp only [List.cons.injEq, and_true] at this
      subst this; subst h2
      exact key (by simpa using hc)
    · rw [show l₁ ++ d :: l₂'.concat x = (l₁ ++ d :: l₂') ++ [x] by simp] at heq
      have h1 := List.append_inj_right' heq rfl
      have h2 := List.append_inj_left' heq rfl
      simp only [List.cons.injEq, and_true] at h1
      subst h1
      have hd : d ∈ f := by rw [h2]; simp
      rcases lt_trichotomy e.w d.w with hlt | heq' | hgt
      · refine h.cut l₁ d l₂' h2 (hc.mono fun x hx => ?_)
        simp only [List.concat_eq_append, List.mem_append, mem_below, mem_upTo, List.mem_singleton] at hx ⊢
        rcases hx with hx | ⟨hx | hx | hx, hw⟩
        · exact Or.inl hx
        · exact Or.inr ⟨Or.inl hx, hw⟩
        · exact Or.inr ⟨Or.inr hx, hw⟩
        · subst hx; exact Or.inl ⟨he, hlt⟩
      · have hA : Conn ((below d.w g ++ upTo d.w (l₁ ++ l₂')) ++ [e]) d.u d.v := by
          refine hc.mono fun x hx => ?_
          simp only [List.concat_eq_append, List.mem_append, mem_below, mem_upTo, List.mem_singleton] at hx ⊢
          rcases hx with hx | ⟨hx | hx | hx, hw⟩
          · exact Or.inl (Or.inl hx)
          · exact Or.inl (Or.inr ⟨Or.inl hx, hw⟩)
          · exact Or.inl (Or.inr ⟨Or.inr hx, hw⟩)
          · exact Or.inr hx
        have hsub : ∀ {a b}, Conn (below d.w g ++ upTo d.w (l₁ ++ l₂')) a b → Conn (below e.w g ++ upTo e.w f) a b := by
          intro a b hab
          refine hab.mono fun x hx => ?_
          rw [heq', h2]
          simp only [List.mem_append, mem_below, mem_upTo, List.mem_cons] at hx ⊢
          rcases hx with hx | ⟨hx | hx, hw⟩
          · exact Or.inl hx
          · exact Or.inr ⟨Or.inl hx, hw⟩
          · exact Or.inr ⟨Or.inr (Or.inr hx), hw⟩
        have hdd : Conn (below e.w g ++ upTo e.w f) d.u d.v :=
          Conn.edge (List.mem_append_right _ (mem_upTo.2 ⟨hd, heq'.ge⟩))
        rcases Conn.snoc_iff.1 hA with hA | ⟨h3, h4⟩ | ⟨h3, h4⟩
        · exact h.cut l₁ d l₂' h2 hA
        · exact key ((hsub h3).symm.trans (hdd.trans (hsub h4).symm))
        · exact key ((hsub h4).trans (hdd.symm.trans (hsub h3)))
      · refine h.cut l₁ d l₂' h2 (hc.mono fun x hx => ?_)
        simp only [List.concat_eq_append, List.mem_append, mem_below, mem_upTo, List.mem_singleton] at hx ⊢
        rcases hx with hx | ⟨hx | hx | hx, hw⟩
        · exact Or.inl hx
        · exact Or.inr ⟨Or.inl hx, hw⟩
        · exact Or.inr ⟨Or.inr hx, hw⟩
        · subst hx; exact absurd hw (not_le.2 hgt)

omit [LinearOrder W] in
theorem Acyclic.nodup (h : Acyclic f) : f.Nodup := by
  induction f with
  | nil => simp
  | cons e f ih =>
    rw [Acyclic.cons_iff] at h
    exact List.nodup_cons.2 ⟨fun hm => h.2 (Conn.edge hm), ih h.1⟩

/-- Adding a list of edges one by one to a graph that does not connect `a` and `b` until it does: some edge is the last
straw. -/
theorem exists_last_straw (A E : List (Edge W)) {a b : ℕ} (h0 : ¬ Conn A a b) (h1 : Conn (A ++ E) a b) :
    ∃ l₁ d l₂, E = l₁ ++ d :: l₂ ∧ ¬ Conn (A ++ l₁) a b ∧ Conn (A ++ l₁ ++ [d]) a b := by
  induction E using List.reverseRecOn with
  | nil => exact absurd (by simpa using h1) h0
  | append_singleton E d ih =>
    by_cases hc : Conn (A ++ E) a b
    · obtain ⟨l₁, d', l₂, rfl, h2, h3⟩ := ih hc
      exact ⟨l₁, d', l₂ ++ [d], by simp, h2, h3⟩
    · exact ⟨E, d, [], rfl, hc, by simpa using h1⟩

/-- A safe forest connects the endpoints of every edge it connects at all by edges that are not heavier. -/
theorem Safe.threshold (h : Safe g f) (he : e ∈ g) (hc : Conn f e.u e.v) : Conn (upTo e.w f) e.u e.v := by
  by_contra hn
  -- edges of `f` heavier than `e`, in ascending order
  set E := (f.filter fun d => decide (e.w < d.w)).insertionSort (fun a b : Edge W => a.w ≤ b.w) with hE
  have hEp : E.Perm (f.filter fun d => decide (e.w < d.w)) := List.perm_insertionSort _ _
  have hmE : ∀ d, d ∈ E ↔ d ∈ f ∧ e.w < d.w := fun d => by rw [hEp.mem_iff]; simp
  have hall : Conn (upTo e.w f ++ E) e.u e.v := by
    refine hc.mono fun x hx => ?_
    rcases le_or_gt x.w e.w with hw | hw
    · exact List.mem_append_left _ (mem_upTo.2 ⟨hx, hw⟩)
    · exact List.mem_append_right _ ((hmE x).2 ⟨hx, hw⟩)
  obtain ⟨l₁, d, l₂, hsplit, hno, hyes⟩ := exists_last_straw _ _ hn hall
  have hdE : d ∈ E := by rw [hsplit]; simp
  have hd := (hmE d).1 hdE
  obtain ⟨m₁, m₂, hm⟩ := List.append_of_mem hd.1
  have hnd := h.acyclic.nodup
  have hnE : E.Nodup := hEp.nodup_iff.2 (hnd.filter _)
  have hsorted : E.Pairwise (fun a b => a.w ≤ b.w) := by
    have : Std.Total fun a b : Edge W => a.w ≤ b.w := ⟨fun a b => le_total _ _⟩
    have : IsTrans (Edge W) fun a b => a.w ≤ b.w := ⟨fun _ _ _ h1 h2 => le_trans h1 h2⟩
    exact List.pairwise_insertionSort _ _
  rw [hsplit] at hsorted hnE
  have hle : ∀ x ∈ l₁, x.w ≤ d.w := fun x hx => (List.pairwise_append.1 hsorted).2.2 x hx d (by simp)
  have hdl : d ∉ l₁ := fun hx => (List.nodup_append.1 hnE).2.2 d hx d (by simp) rfl
  have hsub : ∀ {a b}, Conn (upTo e.w f ++ l₁) a b → Conn (below d.w g ++ upTo d.w (m₁ ++ m₂)) a b := by
    intro a b hab
    refine hab.mono fun x hx => ?_
    have hxf : x ∈ f ∧ x.w ≤ d.w ∧ x ≠ d := by
      rcases List.mem_append.1 hx with hx | hx
      · have := mem_upTo.1 hx
        exact ⟨this.1, this.2.trans hd.2.le, fun hxd => absurd (hxd ▸ this.2) (not_le.2 hd.2)⟩
      · exact ⟨((hmE x).1 (by rw [hsplit]; simp [hx])).1, hle x hx, fun hxd => hdl (hxd ▸ hx)⟩
    refine List.mem_append_right _ (mem_upTo.2 ⟨?_, hxf.2.1⟩)
    have := hxf.1
    rw [hm] at this
    simp only [List.mem_append, List.mem_cons] at this ⊢
    rcases this with h1 | h1 | h1
    · exact Or.inl h1
    · exact absurd h1 hxf.2.2
    · exact Or.inr h1
  have hee : Conn (below d.w g ++ upTo d.w (m₁ ++ m₂)) e.u e.v :=
    Conn.edge (List.mem_append_left _ (mem_below.2 ⟨he, hd.2⟩))
  refine h.cut m₁ d m₂ hm ?_
  rcases Conn.snoc_iff.1 hyes with h1 | ⟨h1, h2⟩ | ⟨h1, h2⟩
  · exact absurd h1 hno
  · exact (hsub h1).symm.trans (hee.trans (hsub h2).symm)
  · exact (hsub h2).trans (hee.symm.trans (hsub h1))

theorem Safe.subperm (h : Safe g f) : List.Subperm f g := List.subperm_of_subset h.acyclic.nodup h.mem

/-- A safe forest that spans is a minimum spanning forest. -/
theorem Safe.minSpanningForest (h : Safe g f) (hc : ∀ e ∈ g, Conn f e.u e.v) : MinSpanningForest g f :=
  minSpanningForest_of_threshold
    ⟨h.subperm, h.acyclic, fun _ _ => ⟨Conn.mono h.mem, Conn.of_forall hc⟩⟩
    fun e he => h.threshold he (hc e he)

/-! ### Borůvka rounds -/

/-- The pending candidates of a round: pairs of a vertex (naming the component of `f` it lies in) and the edge chosen for
that component.  Different candidates belong to different components and every candidate is a lightest edge leaving its
component, if it leaves it at all. -/
structure Pending (g f : List (Edge W)) (P : List (ℕ × Edge W)) : Prop where
  apart : P.Pairwise fun a b => ¬ Conn f a.1 b.1
  mem : ∀ p ∈ P, p.2 ∈ g
  src : ∀ p ∈ P, Conn f p.1 p.2.u
  light : ∀ p ∈ P, ∀ d ∈ g, ¬ (Conn f p.1 d.u ↔ Conn f p.1 d.v) → p.2.w ≤ d.w

omit [LinearOrder W] in
theorem not_iff_of_conn {f : List (Edge W)} {c a b : ℕ} (h : ¬ Conn f a b) (ha : Conn f c a) :
    ¬ (Conn f c a ↔ Conn f c b) := fun hi => h (ha.symm.trans (hi.1 ha))

/-- One round keeps the forest safe. -/
theorem MergeRound.safe {P : List (ℕ × Edge W)} {f' : List (Edge W)} (hr : MergeRound f P f') (hs : Safe g f)
    (hp : Pending g f P) : Safe g f' := by
  induction hr with
  | nil f => exact hs
  | skip _ _ ih =>
    exact ih hs ⟨hp.apart.of_cons, fun p h => hp.mem p (by simp [h]), fun p h => hp.src p (by simp [h]),
      fun p h => hp.light p (by simp [h])⟩
  | @take f p P f' hn _ ih =>
    have hin : ∀ q, q ∈ p :: P → ∀ d ∈ f, (Conn f q.1 d.u ↔ Conn f q.1 d.v) := fun q _ d hd =>
      ⟨fun h => h.trans (Conn.edge hd), fun h => h.trans (Conn.edge hd).symm⟩
    have hps := hp.src p (by simp)
    refine ih (hs.add (hp.mem p (by simp)) (fun x => Conn f p.1 x) (hin p (by simp))
      (hp.light p (by simp)) (not_iff_of_conn hn hps)) ?_
    have hap := List.pairwise_cons.1 hp.apart
    refine ⟨?_, fun q h => hp.mem q (by simp [h]), fun q h => (hp.src q (by simp [h])).append_left, ?_⟩
    · refine hap.2.imp_of_mem fun {a b} ha hb hab hc => ?_
      rcases Conn.snoc_iff.1 hc with h | ⟨h1, _⟩ | ⟨_, h2⟩
      · exact hab h
      · exact hap.1 a ha (hps.trans h1.symm)
      · exact hap.1 b hb (hps.trans h2)
    · intro q hq d hd hcut
      have hqp : ¬ Conn f p.1 q.1 := hap.1 q hq
      have hlq := hp.light q (by simp [hq])
      have hlp := hp.light p (by simp)
      -- component of `q` afterwards
      by_cases ht : Conn f q.1 p.2.v
      · have hmem : ∀ x, Conn (f ++ [p.2]) q.1 x ↔ Conn f q.1 x ∨ Conn f p.1 x := by
          intro x
          rw [Conn.snoc_iff]
          constructor
          · rintro (h | ⟨h1, _⟩ | ⟨_, h2⟩)
            · exact Or.inl h
            · exact absurd (hps.trans h1.symm) hqp
            · exact Or.inr (hps.trans h2)
          · rintro (h | h)
            · exact Or.inl h
            · exact Or.inr (Or.inr ⟨ht, hps.symm.trans h⟩)
        have hle : q.2.w ≤ p.2.w := by
          refine hlq p.2 (hp.mem p (by simp)) fun hi => hqp ?_
          exact hps.trans (hi.2 ht).symm
        rw [hmem, hmem] at hcut
        by_cases h1 : Conn f q.1 d.u ↔ Conn f q.1 d.v
        · refine hle.trans (hlp d hd fun h2 => hcut ?_)
          rw [h1, h2]
        · exact hlq d hd h1
      · have hmem : ∀ x, Conn (f ++ [p.2]) q.1 x ↔ Conn f q.1 x := by
          intro x
          rw [Conn.snoc_iff]
          constructor
          · rintro (h | ⟨h1, _⟩ | ⟨h1, _⟩)
            · exact h
            · exact absurd (hps.trans h1.symm) hqp
            · exact absurd h1 ht
          · exact Or.inl
        rw [hmem, hmem] at hcut
        exact hlq d hd hcut

omit [LinearOrder W] in
theorem MergeRound.prefix {P : List (ℕ × Edge W)} {f f' : List (Edge W)} (hr : MergeRound f P f') :
    ∃ b, f' = f ++ b ∧ ∀ e ∈ b, e ∈ P.map Prod.snd := by
  induction hr with
  | nil f => exact ⟨[], by simp, by simp⟩
  | skip _ _ ih =>
    obtain ⟨b, h1, h2⟩ := ih
    exact ⟨b, h1, fun e he => by simp [List.mem_map] at h2 ⊢; exact Or.inr (h2 e he)⟩
  | @take f p P f' _ _ ih =>
    obtain ⟨b, h1, h2⟩ := ih
    refine ⟨p.2 :: b, by rw [h1]; simp, fun e he => ?_⟩
    rcases List.mem_cons.1 he with rfl | he
    · simp
    · exact List.mem_cons_of_mem _ (h2 e he)

omit [LinearOrder W] in
theorem MergeRound.length_le {P : List (ℕ × Edge W)} {f f' : List (Edge W)} (hr : MergeRound f P f') :
    f'.length ≤ f.length + P.length := by
  induction hr with
  | nil f => simp
  | skip _ _ ih => simp only [List.length_cons]; omega
  | take _ _ ih => simp only [List.length_cons, List.length_append, List.length_nil] at ih ⊢; omega

theorem Pending.of_lightest {P : List (ℕ × Edge W)} (ha : P.Pairwise fun a b => ¬ Conn f a.1 b.1)
    (h : ∀ p ∈ P, LightestOut g f p.1 p.2) : Pending g f P :=
  ⟨ha, fun p hp => (h p hp).mem, fun p hp => (h p hp).inside, fun p hp => (h p hp).least⟩

theorem BoruvkaRun.safe (h : BoruvkaRun g f) : Safe g f := by
  induction h with
  | start => exact Safe.nil g
  | round _ ha hl hm ih => exact hm.safe ih (Pending.of_lightest ha hl)

end Verif
