import Verif.Model.FindSub
import Mathlib.Logic.Relation

/-!
# Sub-cluster detection (specification)
-/

namespace Verif
variable {W D K : Type*}

/-- `v` is the argument given, or the clusterer's value if the argument is `None`. -/
def ArgOr (given fallback v : PyVal K) : Prop := (given = .pyNone ∧ v = fallback) ∨ (given ≠ .pyNone ∧ v = given)

/-- What an error of `find_sub_clusters` says of the arguments. -/
def SubViolates [Zero K] [LinearOrder K] (a : SubArgs K) : SubArgError → Prop
  | .precomputed => a.metric = "precomputed"
  | .noRawData => a.hasRawData = false
  | .notFitted => a.isFitted = false
  | .minClusterSize => ∃ v, ArgOr a.minClusterSize a.fitMinClusterSize v ∧ ¬ ∃ z : ℤ, 2 ≤ z ∧ v = .int z
  | .maxClusterSize => ∃ v, ArgOr a.maxClusterSize a.fitMaxClusterSize v ∧ ((∃ z : ℤ, z ≤ 0 ∧ v = .int z) ∨ ∃ x : K, x ≤ 0 ∧ v = .float (some x))
  | .maxType => ∃ v, ArgOr a.maxClusterSize a.fitMaxClusterSize v ∧ (v = .pyNone ∨ v = .other)
  | .persistence => ¬ ∃ x : K, 0 ≤ x ∧ a.persistence = .float (some x)
  | .epsilon => ¬ ∃ x : K, 0 ≤ x ∧ a.epsilon = .float (some x)
  | .method => ¬ (a.method = some "eom" ∨ a.method = some "leaf" ∨ (a.method = none ∧ (a.fitMethod = "eom" ∨ a.fitMethod = "leaf")))
  | .onlyNoise => a.onlyNoise = true

/-- The order of the checks. -/
def subCheckOrder : List SubArgError :=
  [.precomputed, .noRawData, .notFitted, .minClusterSize, .maxType, .maxClusterSize, .persistence, .epsilon, .method, .onlyNoise]

/-- Samples `p` and `q` are in cluster `c`, and `q` is a neighbour of `p` or joined to it by a tree edge. -/
def ClusterLink (N : ℕ) (lab : ℕ → ℤ) (nb : ℕ → List (Option ℕ)) (mst : List (Edge D)) (c : ℤ) (p q : ℕ) : Prop :=
  p < N ∧ q < N ∧ lab p = c ∧ lab q = c ∧ (some q ∈ nb p ∨ ∃ e ∈ mst, e.u = p ∧ e.v = q)

/-- What is asked of the arrays of `N` samples in `num` clusters: labels are the numbers below `num` or noise, every cluster has two samples, no sample
is its own neighbour, indices are in range; a sample with a missing neighbour is not in the same cluster as the last sample; every clustered
sample has a neighbour in its cluster or a tree edge stored from it to its cluster. -/
structure SubInput (N num : ℕ) (lab : ℕ → ℤ) (nb : ℕ → List (Option ℕ)) (mst : List (Edge D)) : Prop where
  labels : ∀ i < N, -1 ≤ lab i ∧ lab i < num
  two : ∀ c < num, ∃ i j, i < j ∧ j < N ∧ lab i = c ∧ lab j = c
  knn : ∀ p < N, ∀ q, some q ∈ nb p → q < N ∧ q ≠ p
  tree : ∀ e ∈ mst, e.u < N ∧ e.v < N ∧ e.u ≠ e.v
  missing : ∀ p < N, none ∈ nb p → 0 ≤ lab p → lab (N - 1) ≠ lab p
  linked : ∀ p < N, 0 ≤ lab p → ∃ q, ClusterLink N lab nb mst (lab p) p q

/-- `p` and `q` are joined by neighbours and tree edges inside cluster `c`. -/
def LinkedIn (N : ℕ) (lab : ℕ → ℤ) (nb : ℕ → List (Option ℕ)) (mst : List (Edge D)) (c : ℤ) : ℕ → ℕ → Prop :=
  Relation.EqvGen (ClusterLink N lab nb mst c)

/-- What is said of one cluster: the components of the graph inside it, or a clustering of a spanning tree of that graph. -/
structure SubResult [Field K] [LinearOrder K] [LinearOrder W] [OrderTop W] [Inhabited W] [Inhabited K] (lam : W → K) (wt : ℕ → K) (o : ClusterOpts K) (N : ℕ) (lab : ℕ → ℤ) (nb : ℕ → List (Option ℕ)) (mst : List (Edge D))
    (lens : ℕ → W) (c : ℕ) (sub : ℕ → ℤ) (str : ℕ → K) : Prop where
  apart : (∃ p q, p < N ∧ q < N ∧ lab p = c ∧ lab q = c ∧ ¬ LinkedIn N lab nb mst c p q) → ∀ p < N, ∀ q < N, lab p = c → lab q = c →
    0 ≤ sub p ∧ str p = 1 ∧ (sub p = sub q ↔ LinkedIn N lab nb mst c p q)
  together : (∀ p < N, ∀ q < N, lab p = c → lab q = c → LinkedIn N lab nb mst c p q) → ∃ (t : List (Edge W)) (r : ClusterResult W K),
    SpanningTree (clusterPoints N lab c).length t ∧
    (∀ e ∈ t, e.w = max (lens e.u) (lens e.v) ∧ ∃ p q, (clusterPoints N lab c)[e.u]? = some p ∧ (clusterPoints N lab c)[e.v]? = some q ∧
      ClusterLink N lab nb mst c p q) ∧
    clustersFromMst lam (fun i => wt ((clusterPoints N lab c).getD i 0)) o t = some r ∧
    ∀ k p : ℕ, (clusterPoints N lab c)[k]? = some p → r.labels[k]? = some (sub p) ∧ r.strengths k = str p

end Verif
