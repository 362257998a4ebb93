import Verif.Lemmas.AddSample
import Verif.Lemmas.AddSel
import Verif.Lemmas.AnyScores
import Verif.Lemmas.ArrPerm
import Verif.Lemmas.Barcode
import Verif.Lemmas.BcubedElems
import Verif.Lemmas.BcubedOpt
import Verif.Lemmas.BcubedSel
import Verif.Lemmas.Bridge
import Verif.Lemmas.BruteMst
import Verif.Lemmas.ClTree
import Verif.Lemmas.CondBuf
import Verif.Lemmas.CondFacts
import Verif.Lemmas.CondOrder
import Verif.Lemmas.CondRen
import Verif.Lemmas.Condense
import Verif.Lemmas.Constrained
import Verif.Lemmas.CoreGraph
import Verif.Lemmas.Cut
import Verif.Lemmas.Dbscan
import Verif.Lemmas.Detector
import Verif.Lemmas.DirectedBoruvka
import Verif.Lemmas.DisjointSet
import Verif.Lemmas.Eom
import Verif.Lemmas.EomOpt
import Verif.Lemmas.EomSel
import Verif.Lemmas.EpsSingle
import Verif.Lemmas.Epsilon
import Verif.Lemmas.Fit
import Verif.Lemmas.FitRows
import Verif.Lemmas.FitTree
import Verif.Lemmas.Graph
import Verif.Lemmas.Greedy
import Verif.Lemmas.Groups
import Verif.Lemmas.GroupsTop
import Verif.Lemmas.Heap
import Verif.Lemmas.Hier
import Verif.Lemmas.Introselect
import Verif.Lemmas.KdQuery
import Verif.Lemmas.KdTree
import Verif.Lemmas.KnnRows
import Verif.Lemmas.Kruskal
import Verif.Lemmas.KruskalApi
import Verif.Lemmas.Labels
import Verif.Lemmas.Lambda
import Verif.Lemmas.LayerLeaves
import Verif.Lemmas.Layers
import Verif.Lemmas.LeafCount
import Verif.Lemmas.LensGraph
import Verif.Lemmas.LinkHier
import Verif.Lemmas.LinkSame
import Verif.Lemmas.Linkage
import Verif.Lemmas.Msf
import Verif.Lemmas.Nearest
import Verif.Lemmas.Peaks
import Verif.Lemmas.PreTrees
import Verif.Lemmas.Precomputed
import Verif.Lemmas.Propagate
import Verif.Lemmas.QProg
import Verif.Lemmas.RTree
import Verif.Lemmas.RenDown
import Verif.Lemmas.Safe
import Verif.Lemmas.SameTree
import Verif.Lemmas.Scale
import Verif.Lemmas.SelSep
import Verif.Lemmas.SemiBase
import Verif.Lemmas.Separation
import Verif.Lemmas.Simplify
import Verif.Lemmas.SimplifyOut
import Verif.Lemmas.SimplifyTree
import Verif.Lemmas.SubClusters
import Verif.Lemmas.SubLabels
import Verif.Lemmas.TreeBoruvka
import Verif.Lemmas.TreeExists
import Verif.Lemmas.TreeInit
import Verif.Lemmas.TreeNodes
import Verif.Lemmas.TreeQuery
import Verif.Lemmas.TreeRound
import Verif.Lemmas.TreeSeq
import Verif.Lemmas.TreeWeights
import Verif.Lemmas.Twins
import Verif.Lemmas.UnionFind
import Verif.Model.AnyScores
import Verif.Model.Barcode
import Verif.Model.Bcubed
import Verif.Model.BruteNeighbors
import Verif.Model.Centrality
import Verif.Model.ConcurrentFind
import Verif.Model.Condense
import Verif.Model.CoreGraph
import Verif.Model.Cut
import Verif.Model.Dbscan
import Verif.Model.DisjointSet
import Verif.Model.Epsilon
import Verif.Model.FindSub
import Verif.Model.Fit
import Verif.Model.Heap
import Verif.Model.Inputs
import Verif.Model.KdTree
import Verif.Model.KnnKruskal
import Verif.Model.Kruskal
import Verif.Model.KruskalApi
import Verif.Model.Labels
import Verif.Model.Lambda
import Verif.Model.LayerSearch
import Verif.Model.Layers
import Verif.Model.LensGraph
import Verif.Model.Linkage
import Verif.Model.Pipeline
import Verif.Model.Plscan
import Verif.Model.Precomputed
import Verif.Model.Select
import Verif.Model.Simplify
import Verif.Model.SubClusters
import Verif.Model.SubDetector
import Verif.Model.SubRun
import Verif.Model.TreeBoruvka
import Verif.Props.AnyScores
import Verif.Props.ApproxGraph
import Verif.Props.Barcode
import Verif.Props.Bcubed
import Verif.Props.BranchExamples
import Verif.Props.Branches
import Verif.Props.Bridge
import Verif.Props.BruteNeighbors
import Verif.Props.BuildLayers
import Verif.Props.Centrality
import Verif.Props.ClusterConnected
import Verif.Props.ClusterNumber
import Verif.Props.ClusterSize
import Verif.Props.Coarsen
import Verif.Props.Condense
import Verif.Props.Constraints
import Verif.Props.Copies
import Verif.Props.CoreGraph
import Verif.Props.Dbscan
import Verif.Props.DbscanCopies
import Verif.Props.DbscanKept
import Verif.Props.DbscanLocal
import Verif.Props.DbscanNumber
import Verif.Props.DbscanOrder
import Verif.Props.DbscanScale
import Verif.Props.DbscanWeights
import Verif.Props.Denser
import Verif.Props.Detector
import Verif.Props.DisjointSet
import Verif.Props.Dispatch
import Verif.Props.Duplicates
import Verif.Props.Epsilon
import Verif.Props.EpsilonApart
import Verif.Props.EpsilonApartCases
import Verif.Props.EpsilonRaise
import Verif.Props.EpsilonRaiseCases
import Verif.Props.Errors
import Verif.Props.ErrorsCut
import Verif.Props.FarSample
import Verif.Props.FindSub
import Verif.Props.Fit
import Verif.Props.FlatDbscan
import Verif.Props.FullGraph
import Verif.Props.Groups
import Verif.Props.GroupsCases
import Verif.Props.GroupsTop
import Verif.Props.Heap
import Verif.Props.InCluster
import Verif.Props.Inputs
import Verif.Props.KdTree
import Verif.Props.Kept
import Verif.Props.KnnExact
import Verif.Props.KnnKruskal
import Verif.Props.Kruskal
import Verif.Props.Labels
import Verif.Props.LayerLeaves
import Verif.Props.LayerSearch
import Verif.Props.Layers
import Verif.Props.LeafCount
import Verif.Props.LeafEom
import Verif.Props.LeafExact
import Verif.Props.LeafTies
import Verif.Props.LensClusters
import Verif.Props.LensGraph
import Verif.Props.Linkage
import Verif.Props.Local
import Verif.Props.PersistRaise
import Verif.Props.PersistRaiseCases
import Verif.Props.Persistence
import Verif.Props.Pipeline
import Verif.Props.Plscan
import Verif.Props.PlscanByCount
import Verif.Props.PlscanNested
import Verif.Props.PlscanRows
import Verif.Props.Precomputed
import Verif.Props.RawFit
import Verif.Props.Rename
import Verif.Props.SameTree
import Verif.Props.Scale
import Verif.Props.Select
import Verif.Props.SemiSupervised
import Verif.Props.Simplify
import Verif.Props.SubClusterRun
import Verif.Props.SubClusters
import Verif.Props.SubRun
import Verif.Props.TopCluster
import Verif.Props.Total
import Verif.Props.TreeBoruvka
import Verif.Props.TwoRuns
import Verif.Props.WeightedCore
import Verif.Spec.Bcubed
import Verif.Spec.Boruvka
import Verif.Spec.Branches
import Verif.Spec.Condensed
import Verif.Spec.Copies
import Verif.Spec.CoreGraph
import Verif.Spec.Dbscan
import Verif.Spec.Dendrogram
import Verif.Spec.Denser
import Verif.Spec.Errors
import Verif.Spec.FindSub
import Verif.Spec.Fit
import Verif.Spec.Graph
import Verif.Spec.Greedy
import Verif.Spec.Groups
import Verif.Spec.KdTree
import Verif.Spec.Kept
import Verif.Spec.KnnKruskal
import Verif.Spec.Layers
import Verif.Spec.LeafCount
import Verif.Spec.LeafExact
import Verif.Spec.LeafTies
import Verif.Spec.LensGraph
import Verif.Spec.Local
import Verif.Spec.Nearest
import Verif.Spec.Precomputed
import Verif.Spec.RawFit
import Verif.Spec.Same
import Verif.Spec.Scale
import Verif.Spec.Selection
import Verif.Spec.Simplify
import Verif.Spec.SubClusters
import Verif.Spec.TreeBoruvka
