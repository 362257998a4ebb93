import Verif.Props.Dbscan
import Verif.Props.Rename
import Mathlib.Algebra.Group.PUnit

/-!
# C127: `dbscan_clustering` and sample weights
-/

namespace Verif
variable {W S S' : Type*}

/-- A linkage row without its size. -/
def LRow.bare (row : LRow W S) : LRow W Unit := ⟨row.l, row.r, row.d, ()⟩

theorem mstToLinkage_bare [Add S] [Zero S] (wt : ℕ → S) (es : List (Edge W)) :
    (mstToLinkage wt es).map LRow.bare = mstToLinkage (fun _ => ()) es := by
  have key : ∀ (m : ℕ) (es : List (Edge W)) (st : LinkState W S) (st' : LinkState W Unit), st'.parent = st.parent → st'.next = st.next → st'.rows = st.rows.map LRow.bare →
      (es.foldl (linkStep m) st').rows = (es.foldl (linkStep m) st).rows.map LRow.bare := by
    intro m es
    induction es with
    | nil => exact fun _ _ _ _ h => h
    | cons e es ih =>
      intro st st' h1 h2 h3
      rw [List.foldl_cons, List.foldl_cons]
      refine ih _ _ ?_ ?_ ?_
      · unfold linkStep; simp only [h1, h2]
      · unfold linkStep; simp only [h2]
      · unfold linkStep
        simp only [h1, h3, List.map_append, List.map_cons, List.map_nil]
        congr 2
        split <;> rfl
  exact (key _ es (linkInit (es.length + 1) wt) (linkInit (es.length + 1) fun _ => ()) rfl rfl rfl).symm

theorem cutLabels_bare [LT W] [DecidableLT W] (rows : List (LRow W S)) (eps : W) (mcs : ℕ) : cutLabels (rows.map LRow.bare) eps mcs = cutLabels rows eps mcs := by
  have h : cutDS (rows.map LRow.bare) eps = cutDS rows eps := by
    unfold cutDS
    simp only [List.length_map, List.zipIdx_map, List.foldl_map]
    rfl
  unfold cutLabels
  rw [h, List.length_map]

/-- **C127**, what holds instead of the claim: `dbscan_clustering` does not look at the sample weights, for every spanning tree. -/
theorem C127_ignored [LT W] [DecidableLT W] [Add S] [Zero S] [Add S'] [Zero S'] (wt : ℕ → S) (wt' : ℕ → S') (es : List (Edge W)) (eps : W) (mcs : ℕ) :
    cutLabels (mstToLinkage wt es) eps mcs = cutLabels (mstToLinkage wt' es) eps mcs := by
  rw [← cutLabels_bare (mstToLinkage wt es), mstToLinkage_bare, ← mstToLinkage_bare wt', cutLabels_bare]

/-- Case: weights 3 and weights 1. -/
example : cutLabels (mstToLinkage (fun _ => (3 : ℚ)) (lexsortMst (kruskalBrute 4 1 (onLine [0, 1, 10, 11]) CLParams.none))) ((2 : ℚ) : WithTop ℚ) 2 =
    cutLabels (mstToLinkage (fun _ => (1 : ℕ)) (lexsortMst (kruskalBrute 4 1 (onLine [0, 1, 10, 11]) CLParams.none))) ((2 : ℚ) : WithTop ℚ) 2 :=
  C127_ignored _ _ _ _ _

/-- **C127** is false: four rows of weight 2 with `min_cluster_size=3` are two clusters for `fit`, and all noise for `dbscan_clustering` at 2; two copies of each row are two
clusters for both. -/
theorem C127_copies :
    (clustersFromMst lamq (fun _ => 2) ⟨3, .leaf, none, false, 0, 0⟩ (kruskalBrute 4 1 (onLine [0, 1, 10, 11]) CLParams.none)).map ClusterResult.labels = some [1, 1, 0, 0] ∧
    cutLabels (mstToLinkage (fun _ => (2 : ℚ)) (lexsortMst (kruskalBrute 4 1 (onLine [0, 1, 10, 11]) CLParams.none))) ((2 : ℚ) : WithTop ℚ) 3 = [-1, -1, -1, -1] ∧
    cutLabels (mstToLinkage (fun _ => (1 : ℚ)) (lexsortMst (kruskalBrute 8 1 (onLine [0, 0, 1, 1, 10, 10, 11, 11]) CLParams.none))) ((2 : ℚ) : WithTop ℚ) 3 =
      [0, 0, 0, 0, 1, 1, 1, 1] :=
  ⟨by decide +kernel, by decide +kernel, by decide +kernel⟩

end Verif
