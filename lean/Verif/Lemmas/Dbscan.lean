import Verif.Model.Dbscan
import Verif.Props.Fit
import Verif.Props.Linkage
import Verif.Props.InCluster

/-!
# Cuts of a renumbered linkage tree
-/

namespace Verif
variable {W S V : Type*}

/-- Connectivity after renaming the vertices injectively. -/
theorem conn_rename_iff {es : List (Edge W)} {fs : List (Edge V)} (φ : ℕ → ℕ) (P : ℕ → Prop) (hP : ∀ e ∈ es, P e.u ∧ P e.v)
    (hinj : ∀ a b, P a → P b → φ a = φ b → a = b) (h1 : ∀ e ∈ es, ∃ f ∈ fs, f.u = φ e.u ∧ f.v = φ e.v)
    (h2 : ∀ f ∈ fs, ∃ e ∈ es, f.u = φ e.u ∧ f.v = φ e.v) {x y : ℕ} :
    Conn fs x y ↔ x = y ∨ ∃ a b, P a ∧ P b ∧ x = φ a ∧ y = φ b ∧ Conn es a b := by
  constructor
  · intro h
    induction h with
    | refl => exact .inl rfl
    | tail _ hadj ih =>
      rename_i b c _
      obtain ⟨f, hf, hor⟩ := hadj
      obtain ⟨e, he, hu, hv⟩ := h2 f hf
      have hc := Conn.edge he
      have key : ∃ p q, P p ∧ P q ∧ b = φ p ∧ c = φ q ∧ Conn es p q := by
        rcases hor with ⟨rfl, rfl⟩ | ⟨rfl, rfl⟩
        · exact ⟨e.u, e.v, (hP e he).1, (hP e he).2, hu, hv, hc⟩
        · exact ⟨e.v, e.u, (hP e he).2, (hP e he).1, hv, hu, hc.symm⟩
      obtain ⟨p, q, hp, hq, hb, hc', hpq⟩ := key
      right
      rcases ih with rfl | ⟨a, b', ha, hb', hx, hbb, hab⟩
      · exact ⟨p, q, hp, hq, hb, hc', hpq⟩
      · have := hinj b' p hb' hp (hbb.symm.trans hb)
        subst this
        exact ⟨a, q, ha, hq, hx, hc', hab.trans hpq⟩
  · rintro (rfl | ⟨a, b, _, _, rfl, rfl, h⟩)
    · exact Conn.refl _ _
    · refine Conn.rename φ (fun e he => ?_) h
      obtain ⟨f, hf, hu, hv⟩ := h1 e he
      rw [← hu, ← hv]; exact Conn.edge hf

theorem outlierRows_get [LE W] [OrderTop W] [Add S] [One S] (os : List ℕ) (last : ℕ) (size : S) {j : ℕ} {row : LRow W S}
    (h : (outlierRows os last size)[j]? = some row) : row.l ∈ os ∧ row.r = last + 1 + j ∧ row.d = ⊤ := by
  induction os generalizing last size j with
  | nil => simp [outlierRows] at h
  | cons o os ih =>
    rw [outlierRows] at h
    cases j with
    | zero =>
      rw [List.getElem?_cons_zero, Option.some.injEq] at h
      subst h
      exact ⟨by simp, rfl, rfl⟩
    | succ j =>
      rw [List.getElem?_cons_succ] at h
      obtain ⟨h1, h2, h3⟩ := ih _ _ h
      exact ⟨by simp [h1], by omega, h3⟩

theorem outlierRows_length [LE W] [OrderTop W] [Add S] [One S] (os : List ℕ) (last : ℕ) (size : S) :
    (outlierRows (W := W) os last size).length = os.length := by
  induction os generalizing last size with
  | nil => rfl
  | cons o os ih => simp [outlierRows, ih]

/-- What is connected by the merges below a cut, in the renumbered tree with the outliers on top. -/
theorem remapLinkage_cut [LinearOrder W] [OrderTop W] [Add S] [One S] {n : ℕ} {idx outliers : List ℕ} (h : SplitRows n idx outliers)
    {rows rows' : List (LRow W S)} (hlen : rows.length + 1 = idx.length) (hr : RowsBelow idx.length rows)
    (he : remapLinkage idx outliers rows = .ok rows') :
    rows'.length + 1 = n ∧ RowsBelow n rows' ∧ ∀ eps x y, Conn (cutEdges n rows' eps) x y ↔
      x = y ∨ ∃ a b, x = remapChild idx outliers.length a ∧ y = remapChild idx outliers.length b ∧ Conn (cutEdges idx.length rows eps) a b := by
  have hl := h.length
  have hrl : (remapRows idx outliers.length rows).length = rows.length := by unfold remapRows; simp
  unfold remapLinkage at he
  change (match (remapRows idx outliers.length rows).getLast? with
      | none => _
      | some last => _) = _ at he
  split at he
  · cases he
  rename_i last hlast
  have he' : rows' = remapRows idx outliers.length rows ++ outlierRows outliers (max last.l last.r) last.s := by cases he; rfl
  subst he'
  have hchild : ∀ v i, v < idx.length + i → remapChild idx outliers.length v < n + i := fun v i hv => by
    by_cases hv' : v < idx.length
    · have := h.remap_lt hv'; omega
    · rw [remapChild_ge (by omega)]; omega
  have hpos : 0 < rows.length := by
    rw [← hrl]
    refine List.length_pos_iff.2 fun hn => ?_
    rw [hn] at hlast; cases hlast
  have hmax : max last.l last.r + 1 < n + rows.length := by
    rw [List.getLast?_eq_getElem?, hrl] at hlast
    obtain ⟨row, h1, rfl⟩ := remapRows_get_inv hlast
    have := hr _ _ h1
    have h2 := hchild row.l _ this.1
    have h3 := hchild row.r _ this.2
    simp only [max_def]
    split <;> omega
  refine ⟨?_, ?_, fun eps x y => ?_⟩
  · rw [List.length_append, outlierRows_length, hrl]; omega
  · intro i row hi
    by_cases hlt : i < rows.length
    · rw [List.getElem?_append_left (by omega)] at hi
      obtain ⟨row0, h1, rfl⟩ := remapRows_get_inv hi
      exact ⟨hchild _ _ (hr _ _ h1).1, hchild _ _ (hr _ _ h1).2⟩
    · rw [List.getElem?_append_right (by omega), hrl] at hi
      obtain ⟨h1, h2, _⟩ := outlierRows_get _ _ _ hi
      have := h.lt (Or.inr h1)
      omega
  · have hnode : ∀ i : ℕ, remapChild idx outliers.length (idx.length + i) = n + i := fun i => by rw [remapChild_ge (by omega)]; omega
    have := conn_rename_iff (es := cutEdges idx.length rows eps)
      (fs := cutEdges n (remapRows idx outliers.length rows ++ outlierRows outliers (max last.l last.r) last.s) eps) (x := x) (y := y)
      (remapChild idx outliers.length) (fun _ => True) (fun _ _ => ⟨trivial, trivial⟩) (fun a b _ _ hab => h.remap_inj hab) ?_ ?_
    · simpa using this
    · intro e he
      obtain ⟨i, row, hi, hd, hor⟩ := mem_cutEdges.1 he
      have hg : (remapRows idx outliers.length rows ++ outlierRows outliers (max last.l last.r) last.s)[i]? =
          some { row with l := remapChild idx outliers.length row.l, r := remapChild idx outliers.length row.r } := by
        rw [List.getElem?_append_left (by rw [hrl]; exact (List.getElem?_eq_some_iff.1 hi).1)]
        exact remapRows_get hi
      rcases hor with rfl | rfl
      · exact ⟨_, mem_cutEdges.2 ⟨i, _, hg, hd, .inl rfl⟩, rfl, (hnode i).symm⟩
      · exact ⟨_, mem_cutEdges.2 ⟨i, _, hg, hd, .inr rfl⟩, rfl, (hnode i).symm⟩
    · intro f hf
      obtain ⟨i, row, hi, hd, hor⟩ := mem_cutEdges.1 hf
      by_cases hlt : i < rows.length
      · rw [List.getElem?_append_left (by omega)] at hi
        obtain ⟨row0, h1, rfl⟩ := remapRows_get_inv hi
        rcases hor with rfl | rfl
        · exact ⟨_, mem_cutEdges.2 ⟨i, _, h1, hd, .inl rfl⟩, rfl, (hnode i).symm⟩
        · exact ⟨_, mem_cutEdges.2 ⟨i, _, h1, hd, .inr rfl⟩, rfl, (hnode i).symm⟩
      · rw [List.getElem?_append_right (by omega)] at hi
        obtain ⟨_, _, h3⟩ := outlierRows_get _ _ _ hi
        rw [h3] at hd; exact absurd hd not_top_lt

/-- The linkage tree of a spanning tree made of a minimum spanning forest and infinite edges: its rows, and what the merges below a cut connect. -/
theorem linkage_cut_graph [LinearOrder W] [OrderTop W] [AddCommMonoid S] {n : ℕ} (hn : 0 < n) (wt : ℕ → S) {g f b t : List (Edge W)}
    (hf : MinSpanningForest g f) (hb : ∀ e ∈ b, e.w = ⊤) (ht : SpanningTree n t) (hp : t.Perm (f ++ b)) :
    (mstToLinkage wt (lexsortMst t)).length + 1 = n ∧ RowsBelow n (mstToLinkage wt (lexsortMst t)) ∧ ∀ eps x y, x < n → y < n →
      (Conn (cutEdges n (mstToLinkage wt (lexsortMst t)) eps) x y ↔ Conn (below eps g) x y) := by
  have ht' := ht.perm (lexsortMst_perm t)
  have hsort := lexsortMst_sorted t
  have hl := ht'.length hn
  have hperm := (lexsortMst_perm t).trans hp
  set es := lexsortMst t with hes
  subst hl
  have h := linkage_fold_inv wt ht'.inRange ht'.acyclic le_rfl
  have hlen : (mstToLinkage wt es).length = es.length := h.len
  refine ⟨by omega, RowsOlder.toBelow h.older, fun eps x y hx hy => ?_⟩
  rw [linkage_cut_conn wt ht'.inRange ht'.acyclic hsort eps hx hy, ← hf.conn_below]
  apply Conn.congr
  intro e
  rw [mem_below, mem_below, hperm.mem_iff, List.mem_append]
  constructor
  · rintro ⟨h6 | h6, h7⟩
    · exact ⟨h6, h7⟩
    · rw [hb e h6] at h7; exact absurd h7 (not_top_lt)
  · rintro ⟨h6, h7⟩; exact ⟨Or.inl h6, h7⟩

end Verif
