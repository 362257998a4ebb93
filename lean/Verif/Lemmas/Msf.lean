import Verif.Lemmas.KruskalApi

namespace Verif
variable {W : Type*}

theorem conn_of_compCount_eq {n : ℕ} {f g : List (Edge W)} (h : ∀ a b, Conn f a b → Conn g a b)
    (hc : compCount n f = compCount n g) {a b : ℕ} (ha : a < n) (hb : b < n) (hab : Conn g a b) :
    Conn f a b := by
  classical
  have hsub : ((Finset.range n).filter fun x => ∀ y, y < x → ¬ Conn g x y) ⊆
      (Finset.range n).filter fun x => ∀ y, y < x → ¬ Conn f x y := by
    intro x hx
    simp only [Finset.mem_filter] at hx ⊢
    exact ⟨hx.1, fun y hy hc => hx.2 y hy (h _ _ hc)⟩
  have heq := Finset.eq_of_subset_of_card_le hsub (by
    unfold compCount at hc
    exact le_of_eq hc)
  have hleast : ∀ x, x < n → ∃ m, Conn f x m ∧ m < n ∧ ∀ y, y < m → ¬ Conn g m y := by
    intro x hx
    obtain ⟨m, h1, h2, h3⟩ := exists_least f x
    have : m ∈ (Finset.range n).filter fun x => ∀ y, y < x → ¬ Conn f x y := by
      simp only [Finset.mem_filter, Finset.mem_range]
      refine ⟨by omega, fun y hy hc => ?_⟩
      have := h3 y (h1.trans hc); omega
    rw [← heq] at this
    simp only [Finset.mem_filter, Finset.mem_range] at this
    exact ⟨m, h1, this.1, this.2⟩
  obtain ⟨m, h1, _, h2⟩ := hleast a ha
  obtain ⟨m', h1', _, h2'⟩ := hleast b hb
  have hmm : Conn g m m' := ((h _ _ h1).symm.trans hab).trans (h _ _ h1')
  have : m = m' := by
    rcases Nat.lt_trichotomy m m' with hlt | heq | hlt
    · exact absurd hmm.symm (h2' m hlt)
    · exact heq
    · exact absurd hmm (h2 m' hlt)
  subst this
  exact h1.trans h1'.symm

theorem kruskal_msf [LinearOrder W] {n : ℕ} {g : List (Edge W)} (hr : InRange n g) :
    MinSpanningForest g (kruskalCore n (sortEdges g)).mst ∧
      ∀ e ∈ g, Conn (upTo e.w (kruskalCore n (sortEdges g)).mst) e.u e.v := by
  have hinv := kruskalCore_inv (sortEdges_inRange hr)
  have hsf : SpanningForest g (kruskalCore n (sortEdges g)).mst :=
    hinv.greedy.spanningForest.perm (sortEdges_perm g)
  have hth : ∀ e ∈ g, Conn (upTo e.w (kruskalCore n (sortEdges g)).mst) e.u e.v := fun e he =>
    hinv.greedy.threshold (sortEdges_sorted g) ((sortEdges_perm g).mem_iff.2 he)
  exact ⟨minSpanningForest_of_threshold hsf hth, hth⟩

theorem upTo_conn_of_threshold [LinearOrder W] {g f : List (Edge W)}
    (hth : ∀ e ∈ g, Conn (upTo e.w f) e.u e.v) {t : W} {a b : ℕ} (h : Conn (upTo t g) a b) :
    Conn (upTo t f) a b := by
  refine Conn.of_forall (fun e he => ?_) h
  rw [mem_upTo] at he
  refine (hth e he.1).mono fun x hx => ?_
  rw [mem_upTo] at hx ⊢
  exact ⟨hx.1, hx.2.trans he.2⟩

/-- Every minimum spanning forest preserves connectivity at every threshold. -/
theorem MinSpanningForest.threshold [LinearOrder W] {g f : List (Edge W)} (h : MinSpanningForest g f) :
    ∀ e ∈ g, Conn (upTo e.w f) e.u e.v := by
  intro e he
  obtain ⟨n, hn⟩ := exists_inRange g
  obtain ⟨hk, hth⟩ := kruskal_msf hn
  set f0 := (kruskalCore n (sortEdges g)).mst
  have hp := h.weights_perm hk
  have hlen : (upTo e.w f).length = (upTo e.w f0).length := by
    have h1 := (hp.filter (fun w => decide (w ≤ e.w))).length_eq
    simp only [weights, List.filter_map, List.length_map] at h1
    exact h1
  have c1 := (h.forest.acyclic.filter (fun x => decide (x.w ≤ e.w))).length_add_compCount
    ((hn.subperm h.forest.sub).subperm List.filter_sublist.subperm)
  have c2 := (hk.forest.acyclic.filter (fun x => decide (x.w ≤ e.w))).length_add_compCount
    ((hn.subperm hk.forest.sub).subperm List.filter_sublist.subperm)
  refine conn_of_compCount_eq (n := n) (g := upTo e.w f0) (fun a b hab => ?_) ?_ (hn e he).1 (hn e he).2
    (hth e he)
  · apply upTo_conn_of_threshold hth
    refine hab.mono fun x hx => ?_
    rw [mem_upTo] at hx ⊢
    exact ⟨h.forest.sub.subset hx.1, hx.2⟩
  · unfold upTo at hlen ⊢
    omega

theorem MinSpanningForest.conn_upTo [LinearOrder W] {g f : List (Edge W)} (h : MinSpanningForest g f) (t : W)
    (a b : ℕ) : Conn (upTo t f) a b ↔ Conn (upTo t g) a b := by
  constructor
  · refine Conn.mono fun e he => ?_
    rw [mem_upTo] at he ⊢
    exact ⟨h.forest.sub.subset he.1, he.2⟩
  · exact upTo_conn_of_threshold h.threshold

theorem MinSpanningForest.conn_below [LinearOrder W] {g f : List (Edge W)} (h : MinSpanningForest g f) (t : W)
    (a b : ℕ) : Conn (below t f) a b ↔ Conn (below t g) a b := by
  constructor
  · refine Conn.mono fun e he => ?_
    rw [mem_below] at he ⊢
    exact ⟨h.forest.sub.subset he.1, he.2⟩
  · refine Conn.of_forall fun e he => ?_
    rw [mem_below] at he
    refine (h.threshold e he.1).mono fun x hx => ?_
    rw [mem_upTo] at hx
    rw [mem_below]
    exact ⟨hx.1, hx.2.trans_lt he.2⟩

end Verif
