import Verif.Props.Scale
import Verif.Props.Dbscan

/-!
# C93: `dbscan_clustering` and the unit of length
-/

namespace Verif
variable {W V S : Type*} [LinearOrder W] [LinearOrder V]

theorem cutDS_mapD {φ : W → V} (hφ : StrictMono φ) (rows : List (LRow W S)) (cut : W) : cutDS (rows.map (LRow.mapD φ)) (φ cut) = cutDS rows cut := by
  unfold cutDS
  simp only [List.length_map, List.zipIdx_map, List.foldl_map]
  congr 1
  funext d p
  simp only [Prod.map, LRow.mapD, hφ.lt_iff_lt, id]

/-- **C93** for `dbscan_clustering`: the labels are the same if all lengths and `eps` are changed by the same strictly increasing function, for every spanning tree. -/
theorem C93_dbscan [AddCommMonoid S] {φ : W → V} (hφ : StrictMono φ) (g : List (Edge W)) (wt : ℕ → S) (eps : W) (mcs : ℕ) :
    cutLabels (mstToLinkage wt (lexsortMst (g.map (Edge.mapW φ)))) (φ eps) mcs = cutLabels (mstToLinkage wt (lexsortMst g)) eps mcs := by
  rw [lexsortMst_mapW hφ, mstToLinkage_mapW]
  unfold cutLabels
  rw [cutDS_mapD hφ, List.length_map]

/-- **C93** for `dbscan_clustering`, from the distances between the rows, for `algorithm='kruskal'`. -/
theorem C93_dbscan_kruskal [OrderTop W] [OrderTop V] [Zero W] [Zero V] [AddCommMonoid S] {φ : W → V} (hφ : StrictMono φ) (h0 : φ 0 = 0) (htop : φ ⊤ = ⊤) (n ms : ℕ)
    (D : ℕ → ℕ → W) (cl : CLParams) (wt : ℕ → S) (eps : W) (mcs : ℕ) :
    cutLabels (mstToLinkage wt (lexsortMst (kruskalBrute n ms (fun i j => φ (D i j)) cl))) (φ eps) mcs =
      cutLabels (mstToLinkage wt (lexsortMst (kruskalBrute n ms D cl))) eps mcs := by
  rw [kruskalBrute_mapW hφ h0 htop n ms D cl, C93_dbscan hφ]

/-- Case: three pairs, lengths three times as large. -/
example : cutLabels (mstToLinkage (fun _ => (1 : ℕ)) (lexsortMst (kruskalBrute 6 1 (fun i j => scaleBy 3 (onLine pairs6 i j)) CLParams.none))) (scaleBy 3 ((4 : ℚ) : WithTop ℚ)) 2 =
    cutLabels (mstToLinkage (fun _ => (1 : ℕ)) (lexsortMst (kruskalBrute 6 1 (onLine pairs6) CLParams.none))) ((4 : ℚ) : WithTop ℚ) 2 :=
  C93_dbscan_kruskal (scaleBy_strictMono (by norm_num)) (scaleBy_zero 3) rfl 6 1 _ _ _ _ _

example : cutLabels (mstToLinkage (fun _ => (1 : ℕ)) (lexsortMst (kruskalBrute 6 1 (onLine pairs6) CLParams.none))) ((4 : ℚ) : WithTop ℚ) 2 = [0, 0, 1, 1, 2, 2] := by decide +kernel

end Verif
