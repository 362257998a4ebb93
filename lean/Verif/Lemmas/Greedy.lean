import Verif.Spec.Greedy
import Verif.Lemmas.Graph

namespace Verif
variable {W : Type*} {cl : ℕ → ℕ → Prop} {es acc : List (Edge W)}

theorem Permitted.congr {cl cl' : ℕ → ℕ → Prop} (h : ∀ x y, x ≠ y → (cl x y ↔ cl' x y))
    (e : Edge W) : Permitted cl acc e ↔ Permitted cl' acc e := by
  unfold Permitted
  constructor
  · rintro ⟨h1, h2⟩
    refine ⟨h1, fun x y hx hy hc => h2 x y hx hy ((h x y ?_).2 hc)⟩
    rintro rfl; exact h1 (hx.trans hy.symm)
  · rintro ⟨h1, h2⟩
    refine ⟨h1, fun x y hx hy hc => h2 x y hx hy ((h x y ?_).1 hc)⟩
    rintro rfl; exact h1 (hx.trans hy.symm)

theorem Greedy.congr {cl cl' : ℕ → ℕ → Prop} (h : ∀ x y, x ≠ y → (cl x y ↔ cl' x y))
    (hg : Greedy cl es acc) : Greedy cl' es acc := by
  induction hg with
  | nil => exact Greedy.nil
  | take _ hp ih => exact Greedy.take ih ((Permitted.congr h _).1 hp)
  | skip _ hp ih => exact Greedy.skip ih fun h' => hp ((Permitted.congr h _).2 h')

theorem Greedy.deterministic {acc' : List (Edge W)} (h : Greedy cl es acc)
    (h' : Greedy cl es acc') : acc = acc' := by
  induction h generalizing acc' with
  | nil =>
    generalize hx : ([] : List (Edge W)) = x at h'
    cases h' with
    | nil => rfl
    | take => simp at hx
    | skip => simp at hx
  | @take es acc e _ hp ih =>
    generalize hx : es ++ [e] = x at h'
    cases h' with
    | nil => simp at hx
    | @take _ _ e' h2 hp2 =>
      obtain ⟨rfl, he⟩ := List.append_inj' hx rfl
      simp only [List.cons.injEq, and_true] at he
      subst he
      rw [ih h2]
    | @skip _ _ e' h2 hp2 =>
      obtain ⟨rfl, he⟩ := List.append_inj' hx rfl
      simp only [List.cons.injEq, and_true] at he
      subst he
      rw [← ih h2] at hp2
      exact absurd hp hp2
  | @skip es acc e _ hp ih =>
    generalize hx : es ++ [e] = x at h'
    cases h' with
    | nil => simp at hx
    | @take _ _ e' h2 hp2 =>
      obtain ⟨rfl, he⟩ := List.append_inj' hx rfl
      simp only [List.cons.injEq, and_true] at he
      subst he
      rw [← ih h2] at hp2
      exact absurd hp2 hp
    | @skip _ _ e' h2 hp2 =>
      obtain ⟨rfl, he⟩ := List.append_inj' hx rfl
      exact ih h2

theorem Greedy.sublist (h : Greedy cl es acc) : acc.Sublist es := by
  induction h with
  | nil => exact List.Sublist.refl _
  | take _ _ ih => exact ih.append (List.Sublist.refl _)
  | skip _ _ ih => exact ih.trans (List.sublist_append_left _ _)

theorem Greedy.acyclic (h : Greedy cl es acc) : Acyclic acc := by
  induction h with
  | nil => exact Acyclic.nil
  | take _ hp ih => exact Acyclic.snoc_iff.2 ⟨ih, hp.1⟩
  | skip _ _ ih => exact ih

/-- No forbidden pair is ever connected. -/
theorem Greedy.no_conflict (h : Greedy cl es acc) (hs : ∀ x y, cl x y → cl y x) {x y : ℕ}
    (hxy : x ≠ y) (hcl : cl x y) : ¬ Conn acc x y := by
  induction h with
  | nil => simpa using hxy
  | @take es acc e _ hp ih =>
    rw [Conn.snoc_iff]
    rintro (h | ⟨h1, h2⟩ | ⟨h1, h2⟩)
    · exact ih h
    · exact hp.2 x y h1.symm h2 hcl
    · exact hp.2 y x h2 h1.symm (hs _ _ hcl)
  | skip _ _ ih => exact ih

/-- An input edge that joins two components of the result is blocked by a forbidden pair. -/
theorem Greedy.maximal (h : Greedy cl es acc) {e : Edge W} (he : e ∈ es)
    (hne : ¬ Conn acc e.u e.v) : ∃ x y, Conn acc e.u x ∧ Conn acc e.v y ∧ cl x y := by
  induction h with
  | nil => simp at he
  | @take es acc f _ hp ih =>
    rcases List.mem_append.1 he with he | he
    · obtain ⟨x, y, hx, hy, hc⟩ := ih he fun h => hne h.append_left
      exact ⟨x, y, hx.append_left, hy.append_left, hc⟩
    · simp only [List.mem_singleton] at he
      subst he
      exact absurd (Conn.edge (by simp)) hne
  | @skip es acc f _ hp ih =>
    rcases List.mem_append.1 he with he | he
    · exact ih he hne
    · simp only [List.mem_singleton] at he
      subst he
      unfold Permitted at hp
      push Not at hp
      obtain ⟨x, y, hx, hy, hc⟩ := hp hne
      exact ⟨x, y, hx, hy, hc⟩

theorem Greedy.conn_iff (h : Greedy (fun _ _ => False) es acc) (a b : ℕ) :
    Conn acc a b ↔ Conn es a b := by
  constructor
  · exact Conn.mono fun e he => h.sublist.subset he
  · refine Conn.of_forall fun e he => ?_
    by_contra hne
    obtain ⟨_, _, _, _, hf⟩ := h.maximal he hne
    exact hf

theorem Greedy.spanningForest (h : Greedy (fun _ _ => False) es acc) : SpanningForest es acc :=
  ⟨h.sublist.subperm, h.acyclic, h.conn_iff⟩

/-- Splitting a greedy run at the first edges heavier than a threshold. -/
theorem Greedy.append (hg : Greedy cl es acc) :
    ∀ es₁ es₂, es = es₁ ++ es₂ → ∃ acc₁ acc₂, Greedy cl es₁ acc₁ ∧ acc = acc₁ ++ acc₂ ∧
      acc₂.Sublist es₂ := by
  induction hg with
  | nil =>
    intro es₁ es₂ h
    obtain ⟨rfl, rfl⟩ := List.nil_eq_append_iff.1 h
    exact ⟨[], [], Greedy.nil, rfl, List.Sublist.refl _⟩
  | @take es acc e hg hp ih =>
    intro es₁ es₂ h
    rcases List.eq_nil_or_concat es₂ with rfl | ⟨es₂', e', rfl⟩
    · rw [List.append_nil] at h
      subst h
      exact ⟨acc ++ [e], [], Greedy.take hg hp, by simp, List.Sublist.refl _⟩
    · rw [List.concat_eq_append, ← List.append_assoc] at h
      obtain ⟨rfl, he⟩ := List.append_inj' h rfl
      simp only [List.cons.injEq, and_true] at he
      subst he
      obtain ⟨a1, a2, h1, rfl, h3⟩ := ih es₁ es₂' rfl
      refine ⟨a1, a2 ++ [e], h1, by simp, ?_⟩
      rw [List.concat_eq_append]
      exact h3.append (List.Sublist.refl _)
  | @skip es acc e hg hp ih =>
    intro es₁ es₂ h
    rcases List.eq_nil_or_concat es₂ with rfl | ⟨es₂', e', rfl⟩
    · rw [List.append_nil] at h
      subst h
      exact ⟨acc, [], Greedy.skip hg hp, by simp, List.Sublist.refl _⟩
    · rw [List.concat_eq_append, ← List.append_assoc] at h
      obtain ⟨rfl, he⟩ := List.append_inj' h rfl
      obtain ⟨a1, a2, h1, rfl, h3⟩ := ih es₁ es₂' rfl
      refine ⟨a1, a2, h1, rfl, ?_⟩
      rw [List.concat_eq_append]
      exact h3.trans (List.sublist_append_left _ _)

/-- With sorted input, the result preserves connectivity at every threshold. -/
theorem Greedy.threshold [LinearOrder W] (h : Greedy (fun _ _ => False) es acc)
    (hs : es.Pairwise (fun a b => a.w ≤ b.w)) {e : Edge W} (he : e ∈ es) :
    Conn (upTo e.w acc) e.u e.v := by
  obtain ⟨l₁, l₂, rfl⟩ := List.append_of_mem he
  obtain ⟨a1, a2, h1, rfl, _⟩ := h.append (l₁ ++ [e]) l₂ (by simp)
  have hc : Conn a1 e.u e.v := (h1.conn_iff _ _).2 (Conn.edge (by simp))
  refine hc.mono fun x hx => ?_
  rw [mem_upTo]
  refine ⟨by simp [hx], ?_⟩
  have hx' := h1.sublist.subset hx
  rcases List.mem_append.1 hx' with hx' | hx'
  · exact (List.pairwise_append.1 hs).2.2 x hx' e (by simp)
  · simp only [List.mem_singleton] at hx'; subst hx'; exact le_refl _

end Verif
