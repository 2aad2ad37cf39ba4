import Verif.Props.Cost
import Verif.Props.StringSearch
import Verif.Props.Util
import Verif.Props.Width
import Verif.Props.Strings
import Verif.Props.StringsBy
import Verif.Props.UnionFind
import Verif.Props.Fenwick
import Verif.Props.FenwickExact
import Verif.Props.SparseTable
import Verif.Props.SparseTableExact
import Verif.Props.Segtree
import Verif.Props.LazySegtree
import Verif.Props.LazyDebug
import Verif.Props.MinHeap
import Verif.Props.Dijkstra
import Verif.Props.BinaryLifting
import Verif.Props.HLD
import Verif.Props.HLDAny
import Verif.Props.LazyBound
import Verif.Props.LazyRefine
import Verif.Props.Bipartite
import Verif.Props.Tarjan
import Verif.Props.TreeAny
import Verif.Props.Dinic
import Verif.Props.FlowMatching
import Verif.Props.AhoCorasick
import Verif.Props.AhoAny
import Verif.Props.NumberTheory
import Verif.Props.InternalMath
import Verif.Props.Modint
import Verif.Props.ModintRaw
import Verif.Props.ModExpr
import Verif.Props.ModintTypes
import Verif.Props.Factorial
import Verif.Props.Monoids
import Verif.Props.Input
import Verif.Props.RecursiveFunction
import Verif.Props.Debug
import Verif.Tests.AhoCorasick
import Verif.Tests.BinaryLifting
import Verif.Tests.Bipartite
import Verif.Tests.Dijkstra
import Verif.Tests.Dinic
import Verif.Tests.Factorial
import Verif.Tests.Fenwick
import Verif.Tests.HLD
import Verif.Tests.Input
import Verif.Tests.InternalMath
import Verif.Tests.LazySegtree
import Verif.Tests.MinHeap
import Verif.Tests.Modint
import Verif.Tests.NumberTheory
import Verif.Tests.Segtree
import Verif.Tests.SparseTable
import Verif.Tests.Strings
import Verif.Tests.Tarjan
import Verif.Tests.UnionFind
import Verif.Tests.Util
import Verif.Props.CostDinic
import Verif.Props.SearchPred
import Verif.Props.LazyFit
import Verif.Props.LazyFitSum
import Verif.Props.CostDijkstra
import Verif.Props.MinHeapKey
import Verif.Props.UnionFindDepth
import Verif.Props.SegtreeAny
import Verif.Props.DinicAny
import Verif.Props.Eff
import Verif.Props.ExCrtAny
import Verif.Props.CostGraph
import Verif.Props.Release
import Verif.Props.ReleaseNum
import Verif.Props.ReleaseGraph
import Verif.Props.ReleaseTrees
import Verif.Props.Depth
import Verif.Props.LazyLeaf
import Verif.Props.TwoTrees
import Verif.Props.Agree
import Verif.Props.HLDFit
import Verif.Props.FlowPaths
import Verif.Props.MatchDuality
import Verif.Props.TwoSat
import Verif.Props.TreeMetric
import Verif.Props.DijkstraRuns
import Verif.Props.FlowRuns
import Verif.Props.MatchRuns
import Verif.Props.SccRuns
import Verif.Props.NumberRuns
import Verif.Props.StringRuns
import Verif.Props.FenwickBag
import Verif.Props.ModRuns
import Verif.Props.AhoRuns
import Verif.Props.UnionFindUse
import Verif.Props.MinHeapUse
import Verif.Props.SegtreeRuns
import Verif.Props.HLDRuns
import Verif.Props.InputRuns
import Verif.Props.SparseRuns
import Verif.Props.TreePrograms
import Verif.Props.PathCover
import Verif.Props.FlowPrograms
import Verif.Props.TextPrograms
import Verif.Props.SccPrograms
import Verif.Props.PathPrograms
import Verif.Props.StringPrograms
import Verif.Props.RoutePrograms
import Verif.Props.CountPrograms
import Verif.Props.NecklacePrograms
