import Verif.Spec.CoreGraph
import Verif.Lemmas.UnionFind
import Verif.Lemmas.Safe
import Mathlib.Data.List.Nodup

namespace Verif
variable {W : Type*}

/-! ### Rows of the working arrays -/

/-- The part `[start, stop)` of the arrays holds the entries `L` followed by `-1`. -/
structure LiveRow (a : WorkArrays W) (start stop : ℕ) (L : List (ℕ × W)) : Prop where
  len : start + L.length ≤ stop
  idx : ∀ j, start + j < stop → a.idx (start + j) = (L[j]?).map Prod.fst
  dst : ∀ j x, L[j]? = some x → a.dst (start + j) = x.2

section
variable {comp : ℕ → ℕ} {point start stop : ℕ} {a : WorkArrays W} {L : List (ℕ × W)}

/-- Entries kept by the compaction. -/
def keepEntry (comp : ℕ → ℕ) (point : ℕ) (x : ℕ × W) : Bool := decide (comp x.1 ≠ comp point)

theorem compact_loop (h : LiveRow a start stop L) (k : ℕ) (hk : start + k ≤ stop) :
    let s := (List.range' start k).foldl (compactStep comp point start) ⟨a, 0, false⟩
    let K := (L.take k).filter (keepEntry comp point)
    s.counter = K.length ∧ (s.stop = true ↔ L.length < k) ∧
      (∀ j x, K[j]? = some x → s.arr.idx (start + j) = some x.1 ∧ s.arr.dst (start + j) = x.2) ∧
      (∀ p, (p < start ∨ start + k ≤ p) → s.arr.idx p = a.idx p ∧ s.arr.dst p = a.dst p) := by
  induction k with
  | zero => simp
  | succ k ih =>
    obtain ⟨h1, h2, h3, h4⟩ := ih (by omega)
    simp only at h1 h2 h3 h4 ⊢
    rw [List.range'_concat, List.foldl_append]
    simp only [List.foldl_cons, List.foldl_nil, one_mul]
    generalize hs : (List.range' start k).foldl (compactStep comp point start) ⟨a, 0, false⟩ = s at *
    have hidx : s.arr.idx (start + k) = (L[k]?).map Prod.fst := by
      rw [(h4 (start + k) (Or.inr (le_refl _))).1, h.idx k (by omega)]
    have hKlen : ((L.take k).filter (keepEntry comp point)).length ≤ k :=
      (List.length_filter_le _ _).trans (by simp)
    unfold compactStep
    by_cases hst : s.stop = true
    · have hlt := h2.1 hst
      simp only [hst, if_true]
      rw [List.take_of_length_le (show L.length ≤ k by omega)] at h1 h3
      rw [List.take_of_length_le (show L.length ≤ k + 1 by omega)]
      exact ⟨h1, ⟨fun _ => by omega, fun _ => trivial⟩, h3, fun p hp => h4 p (by omega)⟩
    · have hge : k ≤ L.length := by by_contra hc; exact hst (h2.2 (by omega))
      rw [if_neg hst]
      rcases hge.lt_or_eq with hlt | heq
      · have hx : L[k]? = some L[k] := List.getElem?_eq_getElem hlt
        rw [hx] at hidx
        simp only [hidx, Option.map_some]
        have htake : (L.take (k + 1)).filter (keepEntry comp point) =
            (L.take k).filter (keepEntry comp point) ++ (if comp L[k].1 ≠ comp point then [L[k]] else []) := by
          rw [List.take_add_one, hx, List.filter_append]
          congr 1
          by_cases hc : comp L[k].1 = comp point <;> simp [keepEntry, hc]
        by_cases hc : comp L[k].1 ≠ comp point
        · simp only [hc, not_false_eq_true, if_true, ne_eq]
          rw [htake, if_pos hc]
          have hdst : s.arr.dst (start + k) = L[k].2 := by
            rw [(h4 (start + k) (Or.inr (le_refl _))).2, h.dst k _ hx]
          refine ⟨by simp [h1], ⟨fun hf => absurd hf (by simp [hst]), fun hf => by omega⟩, ?_, ?_⟩
          · intro j x hj
            rcases Nat.lt_trichotomy j s.counter with hjc | hjc | hjc
            · rw [List.getElem?_append_left (by omega)] at hj
              obtain ⟨h5, h6⟩ := h3 j x hj
              rw [Function.update_of_ne (by omega), Function.update_of_ne (by omega)]
              exact ⟨h5, h6⟩
            · subst hjc
              rw [List.getElem?_append_right (by omega), h1] at hj
              simp only [Nat.sub_self, List.getElem?_cons_zero, Option.some.injEq] at hj
              subst hj
              simp [hdst]
            · rw [List.getElem?_append_right (by omega), List.getElem?_eq_none (by simp; omega)] at hj
              exact absurd hj (by simp)
          · intro p hp
            rw [Function.update_of_ne (by omega), Function.update_of_ne (by omega)]
            exact h4 p (by omega)
        · push Not at hc
          simp only [hc, ne_eq, not_true, if_false]
          rw [htake, if_neg (show ¬ comp L[k].1 ≠ comp point from fun hn => hn hc), List.append_nil]
          exact ⟨h1, ⟨fun hf => absurd hf hst, fun hf => by omega⟩, h3, fun p hp => h4 p (by omega)⟩
      · have hx : L[k]? = none := List.getElem?_eq_none (by omega)
        rw [hx] at hidx
        simp only [hidx, Option.map_none]
        rw [List.take_of_length_le (show L.length ≤ k by omega)] at h1 h3
        rw [List.take_of_length_le (show L.length ≤ k + 1 by omega)]
        exact ⟨h1, ⟨fun _ => by omega, fun _ => trivial⟩, h3, fun p hp => h4 p (by omega)⟩

theorem compactRow_spec [LE W] [OrderTop W] {indptr : ℕ → ℕ} (hm : indptr point ≤ indptr (point + 1))
    (h : LiveRow a (indptr point) (indptr (point + 1)) L) :
    LiveRow (compactRow indptr comp a point) (indptr point) (indptr (point + 1)) (L.filter (keepEntry comp point)) ∧
      ∀ p, (p < indptr point ∨ indptr (point + 1) ≤ p) →
        (compactRow indptr comp a point).idx p = a.idx p ∧ (compactRow indptr comp a point).dst p = a.dst p := by
  have hl := h.len
  obtain ⟨h1, _, h3, h4⟩ := compact_loop (comp := comp) (point := point) h (indptr (point + 1) - indptr point) (by omega)
  rw [List.take_of_length_le (by omega)] at h1 h3
  have hfl : (L.filter (keepEntry comp point)).length ≤ L.length := List.length_filter_le _ _
  unfold compactRow
  simp only
  generalize (List.range' (indptr point) (indptr (point + 1) - indptr point)).foldl
    (compactStep comp point (indptr point)) ⟨a, 0, false⟩ = s at *
  refine ⟨⟨by omega, ?_, ?_⟩, ?_⟩
  · intro j hj
    simp only
    by_cases hc : j < (L.filter (keepEntry comp point)).length
    · rw [if_neg (by omega), List.getElem?_eq_getElem hc]
      exact (h3 j _ (List.getElem?_eq_getElem hc)).1
    · rw [if_pos (by omega), List.getElem?_eq_none (by omega)]; rfl
  · intro j x hj
    have hc : j < (L.filter (keepEntry comp point)).length := by
      by_contra hc
      rw [List.getElem?_eq_none (by omega)] at hj
      exact absurd hj (by simp)
    show (if _ then _ else _) = _
    rw [if_neg (by omega)]
    exact (h3 j x hj).2
  · intro p hp
    show (if _ then _ else _) = _ ∧ (if _ then _ else _) = _
    rw [if_neg (by omega), if_neg (by omega)]
    exact h4 p (by omega)

end

theorem compactAll_spec [LE W] [OrderTop W] {indptr : ℕ → ℕ} (hm : Monotone indptr) (comp : ℕ → ℕ) {n : ℕ}
    {a : WorkArrays W} {L : ℕ → List (ℕ × W)}
    (h : ∀ i < n, LiveRow a (indptr i) (indptr (i + 1)) (L i)) :
    ∀ i < n, LiveRow (compactAll n indptr comp a) (indptr i) (indptr (i + 1)) ((L i).filter (keepEntry comp i)) := by
  have main : ∀ k ≤ n, (∀ i < k, LiveRow ((List.range k).foldl (compactRow indptr comp) a) (indptr i) (indptr (i + 1))
      ((L i).filter (keepEntry comp i))) ∧ ∀ p, indptr k ≤ p →
        ((List.range k).foldl (compactRow indptr comp) a).idx p = a.idx p ∧
        ((List.range k).foldl (compactRow indptr comp) a).dst p = a.dst p := by
    intro k
    induction k with
    | zero => intro _; exact ⟨fun i hi => absurd hi (by omega), fun p _ => ⟨rfl, rfl⟩⟩
    | succ k ih =>
      intro hk
      obtain ⟨h1, h2⟩ := ih (by omega)
      rw [List.range_succ, List.foldl_append]
      simp only [List.foldl_cons, List.foldl_nil]
      generalize (List.range k).foldl (compactRow indptr comp) a = b at *
      have hb : LiveRow b (indptr k) (indptr (k + 1)) (L k) := by
        have hk' := h k (by omega)
        refine ⟨hk'.len, fun j hj => ?_, fun j x hj => ?_⟩
        · rw [(h2 _ (by omega)).1]; exact hk'.idx j hj
        · rw [(h2 _ (by omega)).2]; exact hk'.dst j x hj
      obtain ⟨h3, h4⟩ := compactRow_spec (comp := comp) (hm (Nat.le_succ k)) hb
      refine ⟨fun i hi => ?_, fun p hp => ?_⟩
      · rcases Nat.lt_succ_iff_lt_or_eq.1 hi with hi | rfl
        · have h5 := h1 i hi
          have hle : indptr (i + 1) ≤ indptr k := hm hi
          refine ⟨h5.len, fun j hj => ?_, fun j x hj => ?_⟩
          · rw [(h4 _ (by omega)).1]; exact h5.idx j hj
          · have hjl : j < ((L i).filter (keepEntry comp i)).length := by
              by_contra hc
              rw [List.getElem?_eq_none (by omega)] at hj
              exact absurd hj (by simp)
            have := h5.len
            rw [(h4 _ (by omega)).2]; exact h5.dst j x hj
        · exact h3
      · have : indptr k ≤ indptr (k + 1) := hm (Nat.le_succ k)
        rw [(h4 p (Or.inr hp)).1, (h4 p (Or.inr hp)).2]
        exact h2 p (by omega)
  exact (main n (le_refl _)).1

/-! ### Selecting candidates -/

section
variable [LinearOrder W]

theorem dictMin_keys (D : List (ℕ × Edge W)) (k : ℕ) (e : Edge W) (hD : (D.map Prod.fst).Nodup) :
    ((dictMin D k e).map Prod.fst).Nodup ∧ (∀ x, x ∈ (dictMin D k e).map Prod.fst ↔ x ∈ D.map Prod.fst ∨ x = k) := by
  induction D with
  | nil => simp [dictMin]
  | cons p D ih =>
    simp only [List.map_cons, List.nodup_cons] at hD
    obtain ⟨h1, h2⟩ := ih hD.2
    unfold dictMin
    by_cases hp : p.1 = k
    · rw [if_pos hp]
      split
      · simp only [List.map_cons, List.nodup_cons, List.mem_cons]
        subst hp
        exact ⟨hD, fun x => by tauto⟩
      · simp only [List.map_cons, List.nodup_cons, List.mem_cons]
        refine ⟨hD, fun x => ?_⟩
        subst hp; tauto
    · rw [if_neg hp]
      simp only [List.map_cons, List.nodup_cons, List.mem_cons]
      refine ⟨⟨fun hm => ?_, h1⟩, fun x => by rw [h2]; tauto⟩
      rcases (h2 _).1 hm with hm | hm
      · exact hD.1 hm
      · exact hp hm

theorem dictMin_mem (D : List (ℕ × Edge W)) (k : ℕ) (e : Edge W) {q : ℕ × Edge W} (hq : q ∈ dictMin D k e) :
    q ∈ D ∨ q = (k, e) := by
  induction D with
  | nil => simpa [dictMin] using hq
  | cons p D ih =>
    unfold dictMin at hq
    by_cases hp : p.1 = k
    · rw [if_pos hp] at hq
      split at hq
      · rcases List.mem_cons.1 hq with rfl | hq
        · exact Or.inr rfl
        · exact Or.inl (List.mem_cons_of_mem _ hq)
      · exact Or.inl hq
    · rw [if_neg hp] at hq
      rcases List.mem_cons.1 hq with rfl | hq
      · exact Or.inl (by simp)
      · rcases ih hq with h | h
        · exact Or.inl (List.mem_cons_of_mem _ h)
        · exact Or.inr h

/-- Entries only get lighter, and the new one is accounted for. -/
theorem dictMin_le (D : List (ℕ × Edge W)) (k : ℕ) (e : Edge W) :
    (∃ q ∈ dictMin D k e, q.1 = k ∧ q.2.w ≤ e.w) ∧
      ∀ p ∈ D, ∃ q ∈ dictMin D k e, q.1 = p.1 ∧ q.2.w ≤ p.2.w := by
  induction D with
  | nil => exact ⟨⟨(k, e), by simp [dictMin], rfl, le_refl _⟩, by simp⟩
  | cons p D ih =>
    unfold dictMin
    by_cases hp : p.1 = k
    · rw [if_pos hp]
      split
      · rename_i hlt
        refine ⟨⟨(k, e), by simp, rfl, le_refl _⟩, fun x hx => ?_⟩
        rcases List.mem_cons.1 hx with rfl | hx
        · exact ⟨(k, e), by simp, hp.symm, hlt.le⟩
        · exact ⟨x, by simp [hx], rfl, le_refl _⟩
      · rename_i hlt
        exact ⟨⟨p, by simp, hp, not_lt.1 hlt⟩, fun x hx => ⟨x, hx, rfl, le_refl _⟩⟩
    · rw [if_neg hp]
      obtain ⟨⟨q, h1, h2, h3⟩, h4⟩ := ih
      refine ⟨⟨q, by simp [h1], h2, h3⟩, fun x hx => ?_⟩
      rcases List.mem_cons.1 hx with rfl | hx
      · exact ⟨x, by simp, rfl, le_refl _⟩
      · obtain ⟨q, h5, h6⟩ := h4 x hx
        exact ⟨q, by simp [h5], h6⟩

/-- What `select_components` returns, in terms of the entry read for every vertex (`cand`). -/
theorem select_spec (n nnz : ℕ) (indptr : ℕ → ℕ) (a : WorkArrays W) (comp : ℕ → ℕ) :
    let D := selectComponents n nnz indptr a comp
    let cand := fun i => if indptr i = nnz then none else (a.idx (indptr i)).map fun nb => (⟨i, nb, a.dst (indptr i)⟩ : Edge W)
    (D.map Prod.fst).Nodup ∧ (∀ q ∈ D, q.1 = comp q.2.u ∧ q.2.u < n ∧ cand q.2.u = some q.2) ∧
      ∀ i < n, ∀ e, cand i = some e → ∃ q ∈ D, q.1 = comp i ∧ q.2.w ≤ e.w := by
  unfold selectComponents
  induction n with
  | zero => simp
  | succ n ih =>
    obtain ⟨h1, h2, h3⟩ := ih
    simp only at h1 h2 h3 ⊢
    rw [List.range_succ, List.foldl_append]
    simp only [List.foldl_cons, List.foldl_nil]
    generalize (List.range n).foldl (selectStep nnz indptr a comp) [] = D at *
    unfold selectStep
    simp only
    by_cases hs : indptr n = nnz
    · rw [if_pos hs]
      refine ⟨h1, fun q hq => ⟨(h2 q hq).1, by have := (h2 q hq).2.1; omega, (h2 q hq).2.2⟩, fun i hi e he => ?_⟩
      rcases Nat.lt_succ_iff_lt_or_eq.1 hi with hi | rfl
      · exact h3 i hi e he
      · rw [if_pos hs] at he; exact absurd he (by simp)
    · rw [if_neg hs]
      cases hidx : a.idx (indptr n) with
      | none =>
        simp only
        refine ⟨h1, fun q hq => ⟨(h2 q hq).1, by have := (h2 q hq).2.1; omega, (h2 q hq).2.2⟩, fun i hi e he => ?_⟩
        rcases Nat.lt_succ_iff_lt_or_eq.1 hi with hi | rfl
        · exact h3 i hi e he
        · rw [if_neg hs, hidx] at he; exact absurd he (by simp)
      | some nb =>
        simp only
        refine ⟨(dictMin_keys D _ _ h1).1, fun q hq => ?_, fun i hi e he => ?_⟩
        · rcases dictMin_mem _ _ _ hq with hq | rfl
          · exact ⟨(h2 q hq).1, by have := (h2 q hq).2.1; omega, (h2 q hq).2.2⟩
          · exact ⟨rfl, by simp, by simp [hs, hidx]⟩
        · rcases Nat.lt_succ_iff_lt_or_eq.1 hi with hi | rfl
          · obtain ⟨q, h5, h6, h7⟩ := h3 i hi e he
            obtain ⟨q', h8, h9, h10⟩ := (dictMin_le D (comp n) ⟨n, nb, a.dst (indptr n)⟩).2 q h5
            exact ⟨q', h8, h9.trans h6, h10.trans h7⟩
          · rw [if_neg hs, hidx] at he
            simp only [Option.map_some, Option.some.injEq] at he
            obtain ⟨q, h5, h6, h7⟩ := (dictMin_le D (comp i) ⟨i, nb, a.dst (indptr i)⟩).1
            exact ⟨q, h5, h6, by rw [← he]; exact h7⟩

end

/-! ### Merging -/

theorem Represents.unionRoots {n : ℕ} {d : RankDS} {f : List (Edge W)} (h : Represents n d.parent f) {e : Edge W}
    (hu : e.u < n) (hv : e.v < n) (hne : root n d.parent e.u ≠ root n d.parent e.v) :
    Represents n (dsUnionByRank n d (root n d.parent e.u) (root n d.parent e.v)).parent (f ++ [e]) := by
  unfold dsUnionByRank
  simp only [dsFind_eq, h.forest.root_root]
  rw [if_neg hne]
  simp only
  apply h.link hu hv hne
  split
  · exact Or.inr ⟨rfl, rfl⟩
  · exact Or.inl ⟨rfl, rfl⟩

theorem mergeStep_eq (n : ℕ) (d : RankDS) (acc : List (Edge W)) (p : ℕ × Edge W) :
    mergeStep n (d, acc) p = if root n d.parent p.2.u = root n d.parent p.2.v then (d, acc)
      else (dsUnionByRank n d (root n d.parent p.2.u) (root n d.parent p.2.v), acc ++ [p.2]) := by
  unfold mergeStep
  simp only [dsFind_eq, ne_eq, ite_not]

theorem merge_spec {n : ℕ} (D : List (ℕ × Edge W)) (hD : ∀ q ∈ D, q.2.u < n ∧ q.2.v < n) (d : RankDS)
    {f acc : List (Edge W)} (h : Represents n d.parent (f ++ acc)) :
    ∃ b, (D.foldl (mergeStep n) (d, acc)).2 = acc ++ b ∧ MergeRound (f ++ acc) D (f ++ acc ++ b) ∧
      Represents n (D.foldl (mergeStep n) (d, acc)).1.parent (f ++ acc ++ b) := by
  induction D generalizing d acc with
  | nil => exact ⟨[], by simp, by simpa using MergeRound.nil _, by simpa using h⟩
  | cons p D ih =>
    simp only [List.foldl_cons]
    have hp := hD p (by simp)
    have hD' : ∀ q ∈ D, q.2.u < n ∧ q.2.v < n := fun q hq => hD q (by simp [hq])
    rw [mergeStep_eq]
    by_cases hc : root n d.parent p.2.u = root n d.parent p.2.v
    · rw [if_pos hc]
      obtain ⟨b, h1, h2, h3⟩ := ih hD' d h
      exact ⟨b, h1, MergeRound.skip ((h.conn _ _).1 hc) h2, h3⟩
    · rw [if_neg hc]
      have hr := h.unionRoots hp.1 hp.2 hc
      rw [List.append_assoc] at hr
      obtain ⟨b, h1, h2, h3⟩ := ih hD' _ hr
      refine ⟨p.2 :: b, ?_, ?_, ?_⟩
      · rw [h1]; simp
      · refine MergeRound.take (fun hx => hc ((h.conn _ _).2 hx)) ?_
        simpa using h2
      · simpa using h3

/-! ### The whole routine -/

section
variable [LinearOrder W] [OrderTop W]

omit [LinearOrder W] [OrderTop W] in
theorem Csr.mem_graph {n : ℕ} {c : Csr W} {e : Edge W} : e ∈ c.graph n ↔ e.u < n ∧ (e.v, e.w) ∈ c.row e.u := by
  unfold Csr.graph
  simp only [List.mem_flatMap, List.mem_range, List.mem_map]
  constructor
  · rintro ⟨i, hi, p, hp, rfl⟩; exact ⟨hi, hp⟩
  · rintro ⟨h1, h2⟩; exact ⟨e.u, h1, _, h2, rfl⟩

omit [LinearOrder W] [OrderTop W] in
theorem Csr.row_length {n : ℕ} {c : Csr W} (hm : Monotone c.indptr) (hl : c.indptr n = c.ent.length) {i : ℕ} (hi : i < n) :
    (c.row i).length = c.indptr (i + 1) - c.indptr i := by
  have h1 : c.indptr (i + 1) ≤ c.indptr n := hm hi
  have h2 : c.indptr i ≤ c.indptr (i + 1) := hm (Nat.le_succ i)
  unfold Csr.row
  rw [List.length_take, List.length_drop]
  omega

theorem Csr.work_live {n : ℕ} {c : Csr W} (hm : Monotone c.indptr) (hl : c.indptr n = c.ent.length) :
    ∀ i < n, LiveRow c.work (c.indptr i) (c.indptr (i + 1)) (c.row i) := by
  intro i hi
  have h2 : c.indptr i ≤ c.indptr (i + 1) := hm (Nat.le_succ i)
  have hlen := Csr.row_length hm hl hi
  have hget : ∀ j, c.indptr i + j < c.indptr (i + 1) → (c.row i)[j]? = c.ent[c.indptr i + j]? := by
    intro j hj
    unfold Csr.row
    rw [List.getElem?_take_of_lt (by omega), List.getElem?_drop]
  refine ⟨by omega, fun j hj => ?_, fun j x hj => ?_⟩
  · rw [hget j hj]; rfl
  · have hjl : j < (c.row i).length := by
      by_contra hc
      rw [List.getElem?_eq_none (by omega)] at hj
      exact absurd hj (by simp)
    rw [hget j (by omega)] at hj
    unfold Csr.work
    simp [hj]

/-- Invariant of the loop of `boruvka_mst`. -/
structure BInv (n : ℕ) (c : Csr W) (s : BState W) : Prop where
  run : BoruvkaRun (c.graph n) s.edges
  rep : Represents n s.ds.parent s.edges
  comp : ∀ i, s.comp i = root n s.ds.parent i
  count : s.nComp + s.edges.length = n
  live : ∀ i < n, LiveRow s.arr (c.indptr i) (c.indptr (i + 1)) ((c.row i).filter (keepEntry s.comp i))

/-- The entry `select_components` looks at for vertex `i` is the lightest remaining entry of its row. -/
theorem BInv.cand {n : ℕ} {c : Csr W} {s : BState W} (h : BInv n c s) (hc : c.SortedSym n) (hg : c.NoGaps n) {i : ℕ}
    (hi : i < n) :
    (if c.indptr i = c.ent.length then none else
      (s.arr.idx (c.indptr i)).map fun nb => (⟨i, nb, s.arr.dst (c.indptr i)⟩ : Edge W)) =
    (((c.row i).filter (keepEntry s.comp i)).head?).map fun p => ⟨i, p.1, p.2⟩ := by
  have hlen := Csr.row_length hc.mono hc.last hi
  have hlast : c.indptr (i + 1) ≤ c.ent.length := by rw [← hc.last]; exact hc.mono hi
  by_cases he : c.row i = []
  · rw [if_pos (hg i hi he), he]; rfl
  · have hpos : 0 < (c.row i).length := List.length_pos_iff.2 he
    rw [if_neg (by omega)]
    have hl := h.live i hi
    have h0 := hl.idx 0 (by omega)
    rw [Nat.add_zero] at h0
    cases hf : (c.row i).filter (keepEntry s.comp i) with
    | nil => rw [hf] at h0; rw [h0]; rfl
    | cons x l =>
      rw [hf] at h0 hl
      have := hl.dst 0 x rfl
      rw [Nat.add_zero] at this
      rw [h0, this]; rfl

theorem BInv.candidates {n : ℕ} {c : Csr W} {s : BState W} (h : BInv n c s) (hc : c.SortedSym n) (hg : c.NoGaps n) :
    let D := selectComponents n c.ent.length c.indptr s.arr s.comp
    D.Pairwise (fun a b : ℕ × Edge W => ¬ Conn s.edges a.1 b.1) ∧ (∀ q ∈ D, LightestOut (c.graph n) s.edges q.1 q.2) ∧
      (∀ q ∈ D, q.2.u < n ∧ q.2.v < n) ∧ (D = [] → ∀ e ∈ c.graph n, Conn s.edges e.u e.v) := by
  obtain ⟨h1, h2, h3⟩ := select_spec n c.ent.length c.indptr s.arr s.comp
  simp only at h1 h2 h3 ⊢
  set D := selectComponents n c.ent.length c.indptr s.arr s.comp
  have hrep := h.rep
  have hcr : ∀ x y, s.comp x = s.comp y ↔ Conn s.edges x y := fun x y => by rw [h.comp, h.comp]; exact hrep.conn x y
  have hcc : ∀ x y, Conn s.edges (s.comp x) y ↔ Conn s.edges x y := by
    intro x y
    have hx : Conn s.edges (s.comp x) x := (hrep.conn _ _).1 (by rw [h.comp, hrep.forest.root_root])
    exact ⟨fun hh => hx.symm.trans hh, fun hh => hx.trans hh⟩
  have hq : ∀ q ∈ D, ∃ l, (c.row q.2.u).filter (keepEntry s.comp q.2.u) = (q.2.v, q.2.w) :: l := by
    intro q hq
    obtain ⟨_, hlt, hcand⟩ := h2 q hq
    rw [h.cand hc hg hlt] at hcand
    obtain ⟨p, hp, hpe⟩ := Option.map_eq_some_iff.1 hcand
    cases hf : (c.row q.2.u).filter (keepEntry s.comp q.2.u) with
    | nil => rw [hf] at hp; exact absurd hp (by simp)
    | cons x l =>
      rw [hf] at hp
      simp only [List.head?_cons, Option.some.injEq] at hp
      subst hp
      refine ⟨l, ?_⟩
      rw [← hpe]
  have hmem : ∀ q ∈ D, (q.2.v, q.2.w) ∈ c.row q.2.u ∧ s.comp q.2.v ≠ s.comp q.2.u := by
    intro q hqD
    obtain ⟨l, hl⟩ := hq q hqD
    have hm : (q.2.v, q.2.w) ∈ (c.row q.2.u).filter (keepEntry s.comp q.2.u) := by rw [hl]; simp
    rw [List.mem_filter] at hm
    exact ⟨hm.1, by simpa [keepEntry] using hm.2⟩
  -- every edge leaving the component of its source is matched by a candidate
  have hmatch : ∀ d ∈ c.graph n, ¬ Conn s.edges d.u d.v → ∃ q ∈ D, q.1 = s.comp d.u ∧ q.2.w ≤ d.w := by
    intro d hd hnc
    rw [Csr.mem_graph] at hd
    have hk : (d.v, d.w) ∈ (c.row d.u).filter (keepEntry s.comp d.u) := by
      rw [List.mem_filter]
      refine ⟨hd.2, ?_⟩
      simp only [keepEntry, decide_eq_true_eq]
      exact fun hh => hnc ((hcr _ _).1 hh.symm)
    have hs : ((c.row d.u).filter (keepEntry s.comp d.u)).Pairwise fun a b => a.2 ≤ b.2 := (hc.sorted _ hd.1).filter _
    cases hf : (c.row d.u).filter (keepEntry s.comp d.u) with
    | nil => rw [hf] at hk; exact absurd hk (by simp)
    | cons x l =>
      have hcand := h.cand hc hg hd.1
      rw [hf] at hcand hk hs
      obtain ⟨q, h5, h6, h7⟩ := h3 d.u hd.1 _ hcand
      refine ⟨q, h5, h6, h7.trans ?_⟩
      rcases List.mem_cons.1 hk with hx | hx
      · simp [← hx]
      · exact (List.pairwise_cons.1 hs).1 _ hx
  refine ⟨?_, ?_, ?_, ?_⟩
  · have hnd : D.Pairwise fun a b => a.1 ≠ b.1 := by
      rw [List.nodup_iff_pairwise_ne, List.pairwise_map] at h1
      exact h1
    refine hnd.imp_of_mem fun {a b} ha hb hne hconn => hne ?_
    rw [(h2 a ha).1, (h2 b hb).1, hcc] at hconn
    rw [(h2 a ha).1, (h2 b hb).1, hcr]
    exact hconn.trans ((hcc b.2.u b.2.u).2 (Conn.refl _ _))
  · intro q hqD
    have hm := hmem q hqD
    have hk := h2 q hqD
    refine ⟨Csr.mem_graph.2 ⟨hk.2.1, hm.1⟩, ?_, ?_, ?_⟩
    · rw [hk.1, hcc]; exact Conn.refl _ _
    · rw [hk.1, hcc, ← hcr]; exact fun hh => hm.2 hh.symm
    · intro d hd hcut
      rw [hk.1, hcc, hcc] at hcut
      have huniq : ∀ q' ∈ D, q'.1 = q.1 → q' = q := fun q' hq' he => List.inj_on_of_nodup_map h1 hq' hqD he
      by_cases hu : Conn s.edges q.2.u d.u
      · have hv : ¬ Conn s.edges d.u d.v := fun hh => hcut ⟨fun _ => hu.trans hh, fun _ => hu⟩
        obtain ⟨q', h5, h6, h7⟩ := hmatch d hd hv
        rw [huniq q' h5 (by rw [h6, hk.1]; exact (hcr _ _).2 hu.symm)] at h7
        exact h7
      · have hv : Conn s.edges q.2.u d.v := by
          by_contra hv
          exact hcut ⟨fun hh => absurd hh hu, fun hh => absurd hh hv⟩
        rw [Csr.mem_graph] at hd
        have hsym : (⟨d.v, d.u, d.w⟩ : Edge W) ∈ c.graph n :=
          Csr.mem_graph.2 ⟨(hc.target _ hd.1 _ hd.2).1, hc.sym _ hd.1 _ hd.2⟩
        obtain ⟨q', h5, h6, h7⟩ := hmatch _ hsym (fun hh => hu (hv.trans hh))
        rw [huniq q' h5 (by rw [h6, hk.1]; exact (hcr _ _).2 hv.symm)] at h7
        exact h7
  · intro q hqD
    exact ⟨(h2 q hqD).2.1, (hc.target _ (h2 q hqD).2.1 _ (hmem q hqD).1).1⟩
  · intro hnil e he
    by_contra hnc
    obtain ⟨q, hq', _⟩ := hmatch e he hnc
    rw [hnil] at hq'
    exact absurd hq' (by simp)

omit [LinearOrder W] [OrderTop W] in
theorem keepEntry_trans {comp comp' : ℕ → ℕ} (h : ∀ x y, comp x = comp y → comp' x = comp' y) (i : ℕ)
    (L : List (ℕ × W)) :
    (L.filter (keepEntry comp i)).filter (keepEntry comp' i) = L.filter (keepEntry comp' i) := by
  rw [List.filter_filter]
  apply List.filter_congr
  intro x _
  by_cases hx : comp' x.1 = comp' i
  · simp [keepEntry, hx]
  · have : comp x.1 ≠ comp i := fun hh => hx (h _ _ hh)
    simp [keepEntry, hx, this]

theorem boruvkaLoop_spec {n : ℕ} {c : Csr W} (hc : c.SortedSym n) (hg : c.NoGaps n) (f : ℕ) :
    ∀ s : BState W, BInv n c s → s.nComp ≤ f →
      let r := boruvkaLoop n c.ent.length c.indptr f s
      BInv n c r ∧ (r.nComp ≤ 1 ∨ ∀ e ∈ c.graph n, Conn r.edges e.u e.v) := by
  induction f with
  | zero => intro s h hf; exact ⟨h, Or.inl (by simp only [boruvkaLoop]; omega)⟩
  | succ f ih =>
    intro s h hf
    simp only
    unfold boruvkaLoop
    by_cases hn : 1 < s.nComp
    · rw [if_pos hn]
      obtain ⟨h1, h2, h3, h4⟩ := h.candidates hc hg
      set D := selectComponents n c.ent.length c.indptr s.arr s.comp
      obtain ⟨b, hb, hround, hrep⟩ := merge_spec D h3 s.ds (f := s.edges) (acc := []) (by simpa using h.rep)
      simp only [List.append_nil, List.nil_append] at hb hround hrep
      have hr2 : (mergeComponents n s.ds D).2 = b := hb
      have hr1 : Represents n (mergeComponents n s.ds D).1.parent (s.edges ++ b) := hrep
      have hrun : BoruvkaRun (c.graph n) (s.edges ++ b) := BoruvkaRun.round h.run h1 h2 hround
      by_cases hb0 : (mergeComponents n s.ds D).2.length = 0
      · rw [if_pos hb0]
        have hbn : b = [] := by rw [← hr2]; exact List.length_eq_zero_iff.1 hb0
        subst hbn
        rw [List.append_nil] at hr1 hround
        have hDn : D = [] := by
          rcases hD : D with _ | ⟨q, D'⟩
          · rfl
          · exfalso
            rw [hD] at hround
            have hq := h2 q (by rw [hD]; simp)
            have hnc : ¬ Conn s.edges q.2.u q.2.v := fun hh => hq.outside (hq.inside.trans hh)
            cases hround with
            | take _ hm =>
              obtain ⟨b', hb', _⟩ := hm.prefix
              have := congrArg List.length hb'
              simp at this
            | skip hs _ => exact hnc hs
        have hsafe := h.rep
        refine ⟨⟨h.run, hr1, fun i => ?_, h.count, h.live⟩, Or.inr (h4 hDn)⟩
        -- the parent array is unchanged when nothing is merged
        have : (mergeComponents n s.ds D).1 = s.ds := by rw [hDn]; rfl
        rw [h.comp]; simp only [this]
      · rw [if_neg hb0]
        have hinr : InRange n (s.edges ++ b) := hr1.inRange
        have hac : Acyclic (s.edges ++ b) := hrun.safe.acyclic
        have hcnt : (s.edges ++ b).length ≤ n := by
          have := hac.length_add_compCount hinr; omega
        rw [List.length_append] at hcnt
        have hcount := h.count
        rw [hr2] at hb0 ⊢
        apply ih
        · refine ⟨hrun, hr1, fun i => by simp only [dsFind_eq], ?_, ?_⟩
          · simp only [List.length_append]; omega
          · intro i hi
            have hl := compactAll_spec hc.mono (fun i => (dsFind n (mergeComponents n s.ds D).1.parent i).2) h.live i hi
            rw [keepEntry_trans] at hl
            · exact hl
            · intro x y hxy
              simp only [dsFind_eq]
              rw [hr1.conn]
              rw [h.comp, h.comp, h.rep.conn] at hxy
              exact hxy.append_left
        · simp only; omega
    · rw [if_neg hn]
      exact ⟨h, Or.inl (by omega)⟩

/-- Everything about the result of `boruvka_mst` on a well-formed graph without gaps. -/
theorem boruvkaMst_spec {n : ℕ} {c : Csr W} (hc : c.SortedSym n) (hg : c.NoGaps n) :
    let r := boruvkaMst n c
    BoruvkaRun (c.graph n) r.2.2 ∧ (∀ e ∈ c.graph n, Conn r.2.2 e.u e.v) ∧ InRange n r.2.2 ∧
      (∀ i j, r.2.1 i = r.2.1 j ↔ Conn r.2.2 i j) ∧ r.1 = compCount n r.2.2 := by
  have h0 : BInv n c ⟨dsRankCreate, fun i => i, n, c.work, []⟩ := by
    refine ⟨BoruvkaRun.start, Represents.id n, fun i => ?_, by simp, fun i hi => ?_⟩
    · simp only [dsRankCreate]; rw [(PForest.id n).root_of_fixed rfl]
    · have : (c.row i).filter (keepEntry (fun i => i) i) = c.row i := by
        rw [List.filter_eq_self]
        intro p hp
        simpa [keepEntry] using (hc.target i hi p hp).2
      rw [this]
      exact Csr.work_live hc.mono hc.last i hi
  obtain ⟨h1, h2⟩ := boruvkaLoop_spec hc hg n _ h0 (le_refl _)
  unfold boruvkaMst
  generalize boruvkaLoop n c.ent.length c.indptr n ⟨dsRankCreate, fun i => i, n, c.work, []⟩ = s at *
  have hcc := h1.run.safe.acyclic.length_add_compCount h1.rep.inRange
  have hcount := h1.count
  show BoruvkaRun _ s.edges ∧ (∀ e ∈ c.graph n, Conn s.edges e.u e.v) ∧ InRange n s.edges ∧
    (∀ i j, s.comp i = s.comp j ↔ Conn s.edges i j) ∧ s.nComp = compCount n s.edges
  refine ⟨h1.run, ?_, h1.rep.inRange, fun i j => ?_, by omega⟩
  · rcases h2 with h2 | h2
    · intro e he
      have := (Csr.mem_graph.1 he)
      exact conn_of_compCount_le_one (n := n) (by omega) this.1 (hc.target _ this.1 _ this.2).1
    · exact h2
  · rw [h1.comp, h1.comp]; exact h1.rep.conn i j

end

end Verif
