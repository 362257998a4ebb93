import Verif.Model.SubClusters
import Verif.Spec.SubClusters
import Mathlib.Data.List.Nodup
import Mathlib.Data.List.Perm.Subperm

/-!
# Offsets of labels
-/

namespace Verif
variable {W V P : Type*}

theorem mem_npUnique {l : List ℤ} {x : ℤ} : x ∈ npUnique l ↔ x ∈ l := by
  unfold npUnique; rw [List.mem_insertionSort, List.mem_dedup]

theorem npUnique_nodup (l : List ℤ) : (npUnique l).Nodup :=
  (List.perm_insertionSort _ _).nodup_iff.2 (List.nodup_dedup l)

theorem npUnique_eq_nil {l : List ℤ} : npUnique l = [] ↔ l = [] := by
  constructor
  · intro h
    rw [List.eq_nil_iff_forall_not_mem] at h ⊢
    exact fun x hx => h x (mem_npUnique.2 hx)
  · rintro rfl; rfl

theorem npUnique_head_le {l : List ℤ} {u : ℤ} {us : List ℤ} (h : npUnique l = u :: us) : ∀ x ∈ l, u ≤ x := by
  intro x hx
  have hs : (npUnique l).Pairwise (· ≤ ·) := List.pairwise_insertionSort _ _
  rw [h] at hs
  have := mem_npUnique.2 hx
  rw [h, List.mem_cons] at this
  rcases this with rfl | h'
  · exact le_refl _
  · exact (List.pairwise_cons.1 hs).1 x h'

/-- The smallest value is `-1` exactly when there is noise. -/
theorem npUnique_head_noise {l : List ℤ} (hd : DenseLabels l) {u : ℤ} {us : List ℤ} (h : npUnique l = u :: us) : u = -1 ↔ -1 ∈ l := by
  have hu : u ∈ l := mem_npUnique.1 (by rw [h]; simp)
  constructor
  · rintro rfl; exact hu
  · intro hm
    have := npUnique_head_le h _ hm
    have := hd.ge u hu
    omega

/-- After adding one for noise, the labels are below the number of different labels. -/
theorem dense_lt {l : List ℤ} (hd : DenseLabels l) {u : ℤ} {us : List ℤ} (h : npUnique l = u :: us) {x : ℤ} (hx : x ∈ l) :
    0 ≤ x + (if u = -1 then 1 else 0) ∧ x + (if u = -1 then 1 else 0) < ((u :: us).length : ℕ) := by
  have hge := hd.ge x hx
  have hu : u ∈ l := mem_npUnique.1 (by rw [h]; simp)
  have hnd := npUnique_nodup l
  have hpos : (0 : ℤ) < ((u :: us).length : ℕ) := by simp
  have hle := npUnique_head_le h x hx
  by_cases hneg : x = -1
  · subst hneg
    have : u = -1 := by have := hd.ge u hu; omega
    rw [if_pos this]
    omega
  · have hsub : (List.range (x.toNat + 1)).map (fun k : ℕ => (k : ℤ)) ⊆ npUnique l := by
      intro y hy
      obtain ⟨k, hk, rfl⟩ := List.mem_map.1 hy
      rw [List.mem_range] at hk
      rw [mem_npUnique]
      by_cases he : (k : ℤ) = x
      · rw [he]; exact hx
      · exact hd.below x hx _ (by omega) (by omega)
    have hnd' : ((List.range (x.toNat + 1)).map (fun k : ℕ => (k : ℤ))).Nodup :=
      List.nodup_range.map fun a b hab => by exact_mod_cast hab
    by_cases hm : u = -1
    · rw [if_pos hm]
      have hnot : (-1 : ℤ) ∉ (List.range (x.toNat + 1)).map (fun k : ℕ => (k : ℤ)) := by
        intro hc
        obtain ⟨k, _, hk⟩ := List.mem_map.1 hc
        omega
      have := (List.subperm_of_subset (l₁ := -1 :: (List.range (x.toNat + 1)).map (fun k : ℕ => (k : ℤ))) (List.nodup_cons.2 ⟨hnot, hnd'⟩)
        (l₂ := npUnique l) (by
          intro y hy
          rcases List.mem_cons.1 hy with rfl | hy
          · rw [h, hm]; simp
          · exact hsub hy)).length_le
      rw [h] at this
      simp only [List.length_cons, List.length_map, List.length_range] at this ⊢
      omega
    · rw [if_neg hm]
      have := (List.subperm_of_subset hnd' hsub).length_le
      rw [h] at this
      simp only [List.length_cons, List.length_map, List.length_range] at this ⊢
      omega

theorem scatter_of_not_mem {α : Type*} (a : ℕ → α) (ps : List (ℕ × α)) {i : ℕ} (h : i ∉ ps.map Prod.fst) : scatter a ps i = a i := by
  induction ps generalizing a with
  | nil => rfl
  | cons p ps ih =>
    simp only [List.map_cons, List.mem_cons, not_or] at h
    unfold scatter
    rw [ih _ h.2, Function.update_of_ne h.1]

theorem scatter_of_mem {α : Type*} (a : ℕ → α) (ps : List (ℕ × α)) (hnd : (ps.map Prod.fst).Nodup) {i : ℕ} {v : α} (h : (i, v) ∈ ps) :
    scatter a ps i = v := by
  induction ps generalizing a with
  | nil => simp at h
  | cons p ps ih =>
    rw [List.map_cons, List.nodup_cons] at hnd
    unfold scatter
    rcases List.mem_cons.1 h with rfl | h
    · rw [scatter_of_not_mem _ _ hnd.1, Function.update_self]
    · exact ih _ hnd.2 h

theorem scatter_map {α : Type*} (a : ℕ → α) (ps : List ℕ) (hnd : ps.Nodup) (f : ℕ → α) (i : ℕ) :
    scatter a (ps.map fun p => (p, f p)) i = if i ∈ ps then f i else a i := by
  have hk : (ps.map fun p => (p, f p)).map Prod.fst = ps := by
    rw [List.map_map]; exact List.map_id ps
  split_ifs with h
  · exact scatter_of_mem _ _ (by rw [hk]; exact hnd) (List.mem_map.2 ⟨i, h, rfl⟩)
  · exact scatter_of_not_mem _ _ (by rw [hk]; exact h)

theorem mem_clusterPoints {n : ℕ} {lab : ℕ → ℤ} {c : ℤ} {i : ℕ} : i ∈ clusterPoints n lab c ↔ i < n ∧ lab i = c := by
  unfold clusterPoints; simp

theorem clusterPoints_nodup (n : ℕ) (lab : ℕ → ℤ) (c : ℤ) : (clusterPoints n lab c).Nodup := List.nodup_range.filter _

/-- Labels of one cluster after the other, each shifted past those before. -/
def offsetLoop (n : ℕ) (lab : ℕ → ℤ) (val : ℤ → ℕ → ℤ) (w : ℤ → ℤ) : List ℤ → (ℕ → ℤ) × ℤ → (ℕ → ℤ) × ℤ
  | [], s => s
  | c :: cs, s => offsetLoop n lab val w cs (scatter s.1 ((clusterPoints n lab c).map fun p => (p, val c p + s.2)), s.2 + w c)

theorem offsetLoop_spec {n : ℕ} {lab : ℕ → ℤ} {val : ℤ → ℕ → ℤ} {w : ℤ → ℤ} (cs : List ℤ) (hnd : cs.Nodup)
    (hval : ∀ c ∈ cs, 0 ≤ w c ∧ ∀ p ∈ clusterPoints n lab c, 0 ≤ val c p ∧ val c p < w c) (s : (ℕ → ℤ) × ℤ) :
    let out := offsetLoop n lab val w cs s
    s.2 ≤ out.2 ∧ (∀ i, ¬ (i < n ∧ lab i ∈ cs) → out.1 i = s.1 i) ∧
      (∀ i < n, lab i ∈ cs → s.2 ≤ out.1 i ∧ out.1 i < out.2) ∧
      ∀ i < n, ∀ j < n, lab i ∈ cs → lab j ∈ cs → (out.1 i = out.1 j ↔ lab i = lab j ∧ val (lab i) i = val (lab j) j) := by
  induction cs generalizing s with
  | nil => intro out; exact ⟨le_refl _, fun _ _ => rfl, fun i _ h => by simp at h, fun i _ j _ h => by simp at h⟩
  | cons c cs ih =>
    obtain ⟨hc, hnd'⟩ := List.nodup_cons.1 hnd
    set s1 : (ℕ → ℤ) × ℤ := (scatter s.1 ((clusterPoints n lab c).map fun p => (p, val c p + s.2)), s.2 + w c) with hs1
    obtain ⟨h1, h2, h3, h4⟩ := ih hnd' (fun c' hc' => hval c' (by simp [hc'])) s1
    set out := offsetLoop n lab val w cs s1 with hout
    obtain ⟨hw, hv⟩ := hval c (by simp)
    have hs12 : s1.2 = s.2 + w c := rfl
    have hmine : ∀ i < n, lab i = c → out.1 i = val c i + s.2 := by
      intro i hi hl
      rw [h2 i (by rw [hl]; exact fun h => hc h.2), hs1]
      simp only
      rw [scatter_map _ _ (clusterPoints_nodup _ _ _) (fun p => val c p + s.2), if_pos (mem_clusterPoints.2 ⟨hi, hl⟩)]
    show s.2 ≤ out.2 ∧ (∀ i, ¬ (i < n ∧ lab i ∈ c :: cs) → out.1 i = s.1 i) ∧
      (∀ i < n, lab i ∈ c :: cs → s.2 ≤ out.1 i ∧ out.1 i < out.2) ∧
      ∀ i < n, ∀ j < n, lab i ∈ c :: cs → lab j ∈ c :: cs → (out.1 i = out.1 j ↔ lab i = lab j ∧ val (lab i) i = val (lab j) j)
    have hother : ∀ i < n, lab i ∈ cs → lab i ≠ c := fun i _ hi e => hc (e ▸ hi)
    refine ⟨by omega, fun i hi => ?_, fun i hi hl => ?_, fun i hi j hj hli hlj => ?_⟩
    · rw [h2 i (fun h => hi ⟨h.1, by simp [h.2]⟩), hs1]
      simp only
      rw [scatter_map _ _ (clusterPoints_nodup _ _ _) (fun p => val c p + s.2), if_neg]
      intro h
      obtain ⟨a, b⟩ := mem_clusterPoints.1 h
      exact hi ⟨a, by simp [b]⟩
    · rcases List.mem_cons.1 hl with hl | hl
      · obtain ⟨v1, v2⟩ := hv i (mem_clusterPoints.2 ⟨hi, hl⟩)
        rw [hmine i hi hl]
        omega
      · have := h3 i hi hl
        omega
    · rcases List.mem_cons.1 hli with hli | hli <;> rcases List.mem_cons.1 hlj with hlj | hlj
      · rw [hmine i hi hli, hmine j hj hlj, hli, hlj]
        simp
      · have := hv i (mem_clusterPoints.2 ⟨hi, hli⟩)
        have h5 := h3 j hj hlj
        have := hmine i hi hli
        constructor
        · intro e; omega
        · intro e; exact absurd (e.1.symm.trans hli) (hother j hj hlj)
      · have := hv j (mem_clusterPoints.2 ⟨hj, hlj⟩)
        have h5 := h3 i hi hli
        have := hmine j hj hlj
        constructor
        · intro e; omega
        · intro e; exact absurd (e.1.trans hlj) (hother i hi hli)
      · exact h4 i hi j hj hli hlj

end Verif
