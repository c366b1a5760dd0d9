import Verif.UnionFind.Props
import Verif.UnionFind.Depth
import Verif.Fenwick.Props
import Verif.Fenwick.Cost
import Verif.SegTree.Props
import Verif.SegTree.Cost
import Verif.SparseTable.Sparse
import Verif.SparseTable.Disjoint
import Verif.SparseTable.Dual
import Verif.SparseTable.DualDisjoint
import Verif.SparseTable.Cost
import Verif.SparseTable.BuildCost
import Verif.Bisect.Bisect
import Verif.BoundInt.BoundInt
import Verif.TY.TY
import Verif.Compress.Compress
import Verif.IntVector.IntVector
import Verif.MatrixM.Props
import Verif.Persistent.Array
import Verif.Persistent.UnionFind
import Verif.Persistent.Stack
import Verif.Persistent.Queue
import Verif.Skew.Props
import Verif.Skew.CostProps
import Verif.Common.SegLoop
import Verif.DualSegTree.Model
import Verif.DualSegTree.Proofs
import Verif.DualSegTree.Props
import Verif.DualSegTree.Iter
import Verif.DualSegTree.Cost
import Verif.LazySegTree.Model
import Verif.LazySegTree.Proofs
import Verif.LazySegTree.Ops
import Verif.IntSet.Props
import Verif.IntSetY.Props
import Verif.LazySegTree.Props
import Verif.LazySegTree.Cost
import Verif.LazySegTree.SearchCost
import Verif.LazySegTree.Search
import Verif.LazySegTree.SearchProps
import Verif.SegDnC.Props
import Verif.ZAlg.ZAlg
import Verif.ZAlg.Time
import Verif.Modular.Props
import Verif.Modular.Sqrt
import Verif.Enumerate.Props
import Verif.Fraction.Fraction
import Verif.Fraction.Ints
import Verif.BitManip.Model
import Verif.BitManip.Props
import Verif.Garner.Garner
import Verif.Bitwise.Model
import Verif.Bitwise.Transform
import Verif.Bitwise.Zeta
import Verif.Bitwise.Props
import Verif.SubsetConv.Model
import Verif.SubsetConv.Props
import Verif.Dirichlet.Model
import Verif.Dirichlet.Sieve
import Verif.Dirichlet.Conv
import Verif.Dirichlet.Optimal
import Verif.Dirichlet.CostProps
import Verif.Graph.Model
import Verif.Graph.Basic
import Verif.Graph.Bfs
import Verif.Graph.Topo
import Verif.Graph.Scc
import Verif.Cht.Deque
import Verif.LiChao.Model
import Verif.LiChao.Proofs
import Verif.LiChao.Props
import Verif.Mo.Props
import Verif.Mo.MovesProps
import Verif.Heap.Meldable
import Verif.Heap.DepqProps
import Verif.Heap.DepqCostProps
import Verif.Succinct.BitmapModel
import Verif.Succinct.BitmapProps
import Verif.Succinct.Select
import Verif.Succinct.BvModel
import Verif.Succinct.BvTrick
import Verif.Succinct.BvProofs
import Verif.Succinct.BvProps
import Verif.Wavelet.Model
import Verif.Wavelet.Proofs
import Verif.Wavelet.Query
import Verif.Wavelet.Props
import Verif.Wavelet.ListsProps
import Verif.Wavelet.CostProps
import Verif.MaxFlow.Props
import Verif.MaxFlow.Psp
import Verif.MaxFlow.Rounds
import Verif.MaxFlow.RoundsProps
import Verif.Treap.Props
import Verif.TreapM.Props
import Verif.TreapShape.Props
import Verif.SegHld.Props
import Verif.AcMachine.Props
import Verif.AcMachine.CostProps
import Verif.AcMachine.BuildCostProps
import Verif.Ntt.Props
import Verif.Fps.Props
import Verif.Fps.Props2
import Verif.Fps.Cost
import Verif.Fft.Props
import Verif.Fft.Complex
import Verif.SearchFloat.Props
import Verif.SearchFloat.Double
import Verif.SearchFloat.Returns
import Verif.SearchFloat.GoldenDouble
import Verif.AmBinom.Props
import Verif.FibHeap.Props
import Verif.FibHeap.AmortProps
import Verif.Hld.Props
import Verif.Reroot.Props
import Verif.Euler.Props
import Verif.Dijkstra.Props
import Verif.Dijkstra.CostProps
import Verif.Seg2D.Props
import Verif.Meldable.Props
import Verif.Meldable.CostProps
import Verif.MinCost.Props
import Verif.Gauss.Props
import Verif.LinkCut.Props
import Verif.SplayList.Props
import Verif.SplayList.Amortized
import Verif.Trie.Props
import Verif.Sps.Props
import Verif.Sais.Props
import Verif.ChtMap.Props
import Verif.Rmq.Props
import Verif.Rrr.Props
import Verif.BinSet.Props
import Verif.Skip.Props
import Verif.Skip.SetProps
import Verif.Ors.Props
import Verif.DynBitmap.Props
import Verif.WTree.Props
import Verif.Yft.Props
import Verif.PrimRoot.Model
import Verif.PrimRoot.Proofs
import Verif.PrimRoot.Props
import Verif.ConvBig.Garner
import Verif.ConvBig.Large
import Verif.ConvBig.Ints
import Verif.ConvBig.Props
import Verif.SparseFps.Props
import Verif.Fps.OpsProps
import Verif.AcMachine.Output
import Verif.DynAc.Props
import Verif.DynAc.EraseProps
import Verif.Sps.TransPoly
