import Verif.Lemmas.FitTree
import Verif.Lemmas.Labels

/-!
# Finite rows and the values given to all rows
-/

namespace Verif
variable {W K S L α β : Type*}

theorem filter_range_asc (p : ℕ → Bool) (n : ℕ) : ((List.range n).filter p).Pairwise (· < ·) :=
  List.Pairwise.filter p List.pairwise_lt_range

/-- The finite rows and the others are all rows. -/
theorem finiteIndex_split (finite : α → Bool) (X : List α) {outliers : List ℕ}
    (ho : outliers.Perm ((List.range X.length).filter fun i => !(X[i]?.map finite).getD false)) : SplitRows X.length (finiteIndex finite X) outliers := by
  refine ⟨filter_range_asc _ _, ?_⟩
  unfold finiteIndex
  refine (List.Perm.append_left _ ho).trans ?_
  exact List.filter_append_perm _ _

theorem mem_finiteIndex {finite : α → Bool} {X : List α} {i : ℕ} : i ∈ finiteIndex finite X ↔ ∃ x, X[i]? = some x ∧ finite x = true := by
  unfold finiteIndex
  rw [List.mem_filter, List.mem_range]
  constructor
  · rintro ⟨h, h1⟩
    refine ⟨X[i], List.getElem?_eq_getElem h, ?_⟩
    rw [List.getElem?_eq_getElem h] at h1; exact h1
  · rintro ⟨x, hx, hf⟩
    refine ⟨(List.getElem?_eq_some_iff.1 hx).1, ?_⟩
    rw [hx]; exact hf

theorem finiteIndex_snoc (finite : α → Bool) (X : List α) (x : α) :
    finiteIndex finite (X ++ [x]) = finiteIndex finite X ++ if finite x then [X.length] else [] := by
  unfold finiteIndex
  rw [List.length_append, List.length_cons, List.length_nil, List.range_succ, List.filter_append]
  congr 1
  · refine List.filter_congr fun i hi => ?_
    rw [List.getElem?_append_left (List.mem_range.1 hi)]
  · rw [List.filter_cons, List.filter_nil]
    simp

theorem takeRows_append (X : List β) (a b : List ℕ) : takeRows X (a ++ b) = takeRows X a ++ takeRows X b := List.filterMap_append

theorem takeRows_left (X Y : List β) {a : List ℕ} (h : ∀ i ∈ a, i < X.length) : takeRows (X ++ Y) a = takeRows X a := by
  unfold takeRows
  refine List.filterMap_congr fun i hi => ?_
  rw [List.getElem?_append_left (h i hi)]

theorem finiteIndex_lt {finite : α → Bool} {X : List α} {i : ℕ} (h : i ∈ finiteIndex finite X) : i < X.length := by
  obtain ⟨x, hx, _⟩ := mem_finiteIndex.1 h
  exact (List.getElem?_eq_some_iff.1 hx).1

/-- The side values of the finite rows. -/
theorem takeRows_side (finite : α → Bool) (X : List α) (side : List β) (hs : side.length = X.length) :
    takeRows side (finiteIndex finite X) = ((X.zip side).filter fun p => finite p.1).map Prod.snd := by
  induction X using List.reverseRecOn generalizing side with
  | nil => cases side with
    | nil => rfl
    | cons _ _ => simp at hs
  | append_singleton X x ih =>
    rcases List.eq_nil_or_concat side with rfl | ⟨side, b, rfl⟩
    · simp at hs
    · simp only [List.concat_eq_append, List.length_append, List.length_cons, List.length_nil] at hs ⊢
      have hs' : side.length = X.length := by omega
      rw [finiteIndex_snoc, takeRows_append, takeRows_left _ _ (fun i hi => by rw [hs']; exact finiteIndex_lt hi), ih side hs',
        List.zip_append hs'.symm, List.filter_append, List.map_append]
      congr 1
      cases hf : finite x with
      | true => simp [takeRows, hf, ← hs']
      | false => simp [takeRows, hf]

/-- `X[finite_index]` are the finite rows in their order. -/
theorem takeRows_finite (finite : α → Bool) (X : List α) : takeRows X (finiteIndex finite X) = X.filter finite := by
  rw [takeRows_side finite X X rfl]
  induction X with
  | nil => rfl
  | cons x X ih =>
    rw [List.zip_cons_cons, List.filter_cons, List.filter_cons]
    cases hf : finite x with
    | true => simp [ih]
    | false => simpa using ih

theorem finiteIndex_length (finite : α → Bool) (X : List α) : (finiteIndex finite X).length = (X.filter finite).length := by
  induction X using List.reverseRecOn with
  | nil => rfl
  | append_singleton X x ih =>
    rw [finiteIndex_snoc, List.length_append, ih, List.filter_append, List.length_append]
    cases hf : finite x <;> simp [hf]

/-- Row `i`, if finite, is finite row number "finite rows before it". -/
theorem finiteIndex_pos {finite : α → Bool} {X : List α} {i : ℕ} {x : α} (hx : X[i]? = some x) (hf : finite x = true) :
    (finiteIndex finite X)[(X.take i).countP finite]? = some i := by
  induction X using List.reverseRecOn with
  | nil => simp at hx
  | append_singleton X y ih =>
    rw [finiteIndex_snoc]
    by_cases hi : i < X.length
    · rw [List.getElem?_append_left hi] at hx
      rw [List.take_append_of_le_length (by omega)]
      have h1 := ih hx
      rw [List.getElem?_append_left (List.getElem?_eq_some_iff.1 h1).1]
      exact h1
    · have hi2 : i < (X ++ [y]).length := (List.getElem?_eq_some_iff.1 hx).1
      have hie : i = X.length := by simp at hi2; omega
      subst hie
      have hxy : y = x := by simpa using hx
      subst hxy
      rw [List.take_append_of_le_length (le_refl _), List.take_length, List.countP_eq_length_filter, ← finiteIndex_length]
      simp [hf]

theorem takeRows_get {side : List β} {idx : List ℕ} (h : ∀ i ∈ idx, i < side.length) (k : ℕ) :
    (takeRows side idx)[k]? = idx[k]?.bind fun i => side[i]? := by
  have e : takeRows side idx = idx.pmap (fun i (hi : i < side.length) => side[i]) h := by
    unfold takeRows
    induction idx with
    | nil => rfl
    | cons i idx ih =>
      rw [List.filterMap_cons, List.getElem?_eq_getElem (h i (by simp)), List.pmap_cons, ih fun j hj => h j (by simp [hj])]
  rw [e]
  by_cases hk : k < idx.length
  · rw [List.getElem?_eq_getElem (by simpa using hk), List.getElem?_eq_getElem hk, List.getElem_pmap, Option.bind_some,
      List.getElem?_eq_getElem (h _ (List.getElem_mem _))]
  · rw [List.getElem?_eq_none (by simpa using hk), List.getElem?_eq_none (by omega)]; rfl

/-! ## spreadValues -/

theorem spread_length (l : List (ℕ × β)) (a : List β) : (l.foldl (fun a p => a.set p.1 p.2) a).length = a.length := by
  induction l generalizing a with
  | nil => rfl
  | cons p l ih => rw [List.foldl_cons, ih, List.length_set]

theorem spread_notMem (l : List (ℕ × β)) (a : List β) {i : ℕ} (h : i ∉ l.map Prod.fst) : (l.foldl (fun a p => a.set p.1 p.2) a)[i]? = a[i]? := by
  induction l generalizing a with
  | nil => rfl
  | cons p l ih =>
    rw [List.map_cons, List.mem_cons, not_or] at h
    rw [List.foldl_cons, ih _ h.2, List.getElem?_set_ne (fun e => h.1 e.symm)]

theorem spread_mem (l : List (ℕ × β)) (a : List β) (hnd : (l.map Prod.fst).Nodup) {i : ℕ} {b : β} (hm : (i, b) ∈ l) (hi : i < a.length) :
    (l.foldl (fun a p => a.set p.1 p.2) a)[i]? = some b := by
  induction l generalizing a with
  | nil => cases hm
  | cons p l ih =>
    obtain ⟨h1, h2⟩ := List.nodup_cons.1 hnd
    rw [List.foldl_cons]
    rcases List.mem_cons.1 hm with rfl | hm
    · rw [spread_notMem _ _ h1, List.getElem?_set_self hi]
    · exact ih _ h2 hm (by rwa [List.length_set])

theorem spreadValues_length (n : ℕ) (fill : β) (idx : List ℕ) (vals : List β) : (spreadValues n fill idx vals).length = n := by
  unfold spreadValues; rw [spread_length, List.length_replicate]

theorem spreadValues_fill {n : ℕ} {fill : β} {idx : List ℕ} {vals : List β} {i : ℕ} (h : i ∉ idx) (hi : i < n) :
    (spreadValues n fill idx vals)[i]? = some fill := by
  unfold spreadValues
  rw [spread_notMem]
  · simp [hi]
  · intro hm
    obtain ⟨p, hp, rfl⟩ := List.mem_map.1 hm
    exact h (List.of_mem_zip (show (p.1, p.2) ∈ _ from hp)).1

theorem spreadValues_get {n : ℕ} {fill : β} {idx : List ℕ} {vals : List β} (hnd : idx.Nodup) (hlt : ∀ i ∈ idx, i < n) (hl : vals.length = idx.length)
    {k i : ℕ} (hk : idx[k]? = some i) : (spreadValues n fill idx vals)[i]? = vals[k]? := by
  obtain ⟨hk1, hk2⟩ := List.getElem?_eq_some_iff.1 hk
  have hv : k < vals.length := by omega
  rw [List.getElem?_eq_getElem hv]
  unfold spreadValues
  refine spread_mem _ _ ?_ ?_ ?_
  · rw [List.map_fst_zip (by omega)]; exact hnd
  · rw [← hk2]
    have : (idx.zip vals)[k]'(by rw [List.length_zip]; omega) = (idx[k], vals[k]) := List.getElem_zip
    rw [← this]; exact List.getElem_mem _
  · rw [List.length_replicate]
    exact hlt i (hk2 ▸ List.getElem_mem _)

theorem mapM_length {α β : Type*} {l : List α} {f : α → Option β} {r : List β} (h : l.mapM f = some r) : r.length = l.length := by
  induction l generalizing r with
  | nil =>
    rw [List.mapM_nil] at h
    cases h; rfl
  | cons a l ih =>
    rw [List.mapM_cons] at h
    obtain ⟨b, _, h⟩ := Option.bind_eq_some_iff.1 h
    obtain ⟨bs, h1, h⟩ := Option.bind_eq_some_iff.1 h
    cases h
    simp [ih h1]

theorem labelVector_length [LinearOrder L] [Zero L] {rows : List (CRow L S)} {sel : List ℕ} {e : Option L} {ns : ℕ} {labels : List ℤ}
    (h : labelVector rows sel e ns = some labels) : labels.length = ns := by
  unfold labelVector at h
  split at h
  · cases h; simp
  · rw [mapM_length h, List.length_range]

theorem clustersFromMst_length [Field K] [LinearOrder K] [LinearOrder W] [Inhabited W] [Inhabited K] {lam : W → K} {wt : ℕ → K}
    {o : ClusterOpts K} {mst : List (Edge W)} {r : ClusterResult W K} (h : clustersFromMst lam wt o mst = some r) : r.labels.length = mst.length + 1 := by
  unfold clustersFromMst at h
  obtain ⟨_, _, h⟩ := Option.bind_eq_some_iff.1 h
  obtain ⟨_, _, h⟩ := Option.bind_eq_some_iff.1 h
  obtain ⟨_, _, h⟩ := Option.bind_eq_some_iff.1 h
  obtain ⟨labels, hl, h⟩ := Option.bind_eq_some_iff.1 h
  obtain ⟨_, _, rfl⟩ := Option.map_eq_some_iff.1 h
  exact labelVector_length hl

end Verif
