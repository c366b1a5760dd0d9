# Design of the verification of matsutaku-library

The subject is the C++ header library in `/repo/include/mtl`. Nothing is compiled or run; the headers are
read as text and re-expressed, function by function, as total computable Lean 4 functions under
`lean/Verif/`. Every model definition cites the file and lines it was read from.

## Conventions of the models

* `std::vector<T>` is `List T` (or `Array T`). Reads and writes go through partial accessors: an index outside
  the vector makes the model function return `none`. `none` therefore stands for C++ undefined behaviour, and a theorem of
  the form `f x = some y` contains the claim that the execution has no out-of-bounds access.
* A failing `assert` is also `none` (or a separate constructor where the distinction matters).
* Template parameters are Lean type parameters; laws that the library documents (associativity, identity,
  idempotence, commutativity, action laws) are hypotheses bundled in small structures or type classes.
* `size_t`/`int` are `Nat`/`Int` unless the property is about overflow; where machine words matter `BitVec 64`
  or explicit bounds are used. Containers are assumed to have fewer than 2^63 cells.
* Loops become structural or well-founded recursion with the loop variables as arguments. No fuel that
  could silently run out: where fuel is used a theorem shows that the fuel given suffices.
* Randomness and unspecified orders (coin flips, priorities, `std::sort` on ties) are universally quantified inputs.
* Pointers that are shared and mutated (persistent queue, lazy streams) are modelled with an explicit heap.
  Trees that are uniquely owned are inductive types.

## Shape of the theorems

Specifications are separate small definitions (sums over ranges, folds of sub-lists, connectivity closures, ...)
not using the helpers of the model. Properties over histories are stated over arbitrary lists of operations.
If the code violates a property, the negation is proved with a concrete witness (evaluated by the kernel with `decide`),
and a `_partial` theorem states the strongest true part that was proved.

## Trusted base

* the Lean 4.33.0 kernel and the three standard axioms `propext`, `Classical.choice`, `Quot.sound`
  (no own axioms, no `sorry`, no `native_decide`, no `bv_decide`); the axioms of each theorem can be listed by `#print axioms`;
* Mathlib definitions used in statements (`ZMod`, `Finset.sum`, `List`, `Matrix`, ...);
* the reading of the C++ code: the correspondence between a model definition and the lines it cites is by inspection only;
* not modelled: iostream operators, constructors for performance (`reserve`), move semantics and aliasing (unless said),
  allocation failure, rounding of floating point numbers except in C146 and the violations of C147 (`fft.hpp` and the positive results on golden section search are in exact
  arithmetic), and complexity except where a property states it.

## Per-property plan

* **C01 — UnionFind realises the generated equivalence relation.** Proved. `Verif/UnionFind/*`: parent vector as `List Int`, `root` with path compression, `unite` by size. Invariant: acyclic parent forest with sizes at the roots; equivalence closure of the recorded unite calls is the specification.
* **C02 — FenwickTree range_sum equals the sum of the recorded additions.** Proved. `Verif/Fenwick/*`: `tree_` as list, the loops as written (`i += i&-i`). Invariant `tree[i]` = sum of the values in `(i-lowbit i, i]`; induction over histories.
* **C03 — FenwickTree lower_bound finds the first prefix reaching the target.** Proved. `Verif/Fenwick/*`: descent loop over k; invariant: `ret` is a multiple of 2^(k+1) and the prefix below `ret` is less than x.
* **C04 — SegmentTree query is the ordered product after any history of set.** Proved. `Verif/SegTree/*`: bottom-up tree of 2n cells for arbitrary n; node invariant for i in 1..n-1; query loop invariant over levels (`Verif/Common/SegLoop`).
* **C05 — SegmentTree max_right / min_left find the maximal extension.** Proved. `Verif/SegTree/*`: the three phases of max_right/min_left with their fold invariants; no monotonicity needed for the boundary, monotonicity for maximality.
* **C06 — LazySegmentTree applies range updates exactly once and in order.** Partial, violation. `Verif/LazySegTree/*`: tree of (value, lazy) cells, `_set_ids`, `_propagate`, `range_update`, `set`, `get`, `query`; abstraction of every node as product of its leaves with pending operators. `set` after `range_update` forgets pending operators (two witnesses); all histories with the `set`s first are proved.
* **C07 — DualSegmentTree get returns the composition of covering updates in order.** Proved. `Verif/DualSegTree/*`: update, set, get, `_propagate`, `_set_ids` for every size; ancestors composition invariant.
* **C08 — SegmentTreeDivideAndConquer presents to each leaf exactly the containers covering it.** Proved. `Verif/SegDnC/*`: the dfs as the list of its callbacks, replayed on a stack by a separate specification.
* **C09 — SparseTable query equals the fold for every idempotent associative operation.** Proved. `Verif/SparseTable/*`: table rows as doubling folds; msb from `Verif/Common/Msb`.
* **C10 — DisjointSparseTable query equals the ordered fold for every associative operation.** Proved. `Verif/SparseTable/*`: block prefixes and suffixes per level; level chosen by msb of `l xor r`.
* **C11 — Dual sparse tables accumulate range updates.** Proved. `Verif/SparseTable/*`: push-down of accumulated operators over any sequence of apply calls.
* **C12 — PersistentArray versions are independent maps.** Proved. `Verif/Persistent/Array`: M-ary trie in an explicit heap of shared nodes; set only allocates.
* **C13 — PersistentUnionFind versions are independent partitions.** Proved. `Verif/Persistent/UnionFind`: over the heap of `PersistentArray`; branching programs.
* **C14 — PersistentStack behaves as an immutable list.** Proved. `Verif/Persistent/Stack`: explicit heap of nodes so that sharing is real.
* **C15 — PersistentQueue stays FIFO for every branching use.** Proved. `Verif/Persistent/Queue`: heap of stream nodes with in-place forcing and the raw pointer `proc_`.
* **C16 — Skew-binary random-access list.** Partial, violation. `Verif/Skew/*`: heap of complete binary trees in skew-binary representation. `dropped` after `extended`, and `extended` of the empty list, dereference null (witnesses); all other histories proved.
* **C17 — Compressor is an order isomorphism onto ranks.** Proved. `Verif/Compress`: histories of add/clear/release; sortedness and uniqueness.
* **C18 — bisect_int returns the boundary of the predicate.** Proved. `Verif/Bisect`: loop with fuel |ng-ok| shown to suffice; arbitrary predicates.
* **C19 — z_algorithm computes longest common prefixes.** Proved. `Verif/ZAlg/ZAlg`: loop invariant of the Z box; the empty sequence is undefined behaviour (`C19_empty_undefined`).
* **C20 — Modular is the ring Z/mZ with canonical representatives.** Proved. `Verif/Modular/{Model,Props}`: values with 64-bit range side conditions proved; arbitrary expressions evaluate to the `ZMod` value.
* **C21 — Modular inverse and division.** Proved. `Verif/Modular/Props`: Fermat through `ZMod p`; pow loop.
* **C22 — Modular square roots.** Partial, violation. `Verif/Modular/{SqrtModel,Sqrt}`: Tonelli–Shanks / Cipolla as in the header for both classes. Element 0 throws and modulus 2 does not terminate for `Modular` (witnesses).
* **C23 — Inverse table recurrence.** Proved. `Verif/Modular/Props`: growth of the static inverse table for every request sequence.
* **C24 — Enumeration tables give factorials and binomials.** Partial, violation. `Verif/Enumerate/*`: factorial tables with their growth. Doubling past the modulus zeroes the new inverse factorials (witness MOD=7).
* **C25 — Fraction is the ordered field of rationals in lowest terms.** Partial, violation. `Verif/Fraction/Fraction` and `Verif/Fraction/Ints` (operators with a `long long` operand): arithmetic over `long long` with overflow = `none`, compared with `ℚ`. `reduct` narrows the gcd to int (witnesses of UB and of a wrong value; `(1/65536 - 1/65536) / 65536` already divides by zero). Not modelled: `get<T>` (floating point), the C++20 `operator==(long long, FractionOrdering)` returning an ordering (not usable as a condition).
* **C26 — BoundInt saturates.** Partial, violation. `Verif/BoundInt`: saturating arithmetic; multiplication by a zero right operand divides by zero.
* **C27 — bit_manip functions meet their bit-level specification for all 64-bit words.** Partial, violation. `Verif/BitManip/*`: portable branches on 64-bit words as arithmetic; `log2p1(0)=1`.
* **C28 — Garner reconstruction in convolution_garner.** Proved. `Verif/Garner/Garner`: the lambda with all integer ranges; bound shown sharp and sufficient.
* **C29 — Subset zeta and Moebius transforms.** Proved. `Verif/Bitwise/*`: in-place transforms in the loop order of the code.
* **C30 — Hadamard transform and XOR convolution.** Partial, violation. `Verif/Bitwise/*`: Hadamard; for element types that are neither modular nor integral the XOR convolution is half the true value (witness).
* **C31 — Subset convolution.** Proved. `Verif/SubsetConv/*`: ranked zeta/Möbius loops statement by statement over any commutative ring.
* **C32 — Matrix arithmetic.** Partial, violation. `Verif/MatrixM/*`: every operator against `Matrix`; `a-b` returns `-b` (witness and general theorem).
* **C33 — EratosthenesSieve returns least prime factors.** Partial, violation. `Verif/Dirichlet/Sieve`: the two sieve loops, least prime factors for all n < 2^30+3; for every n ≥ 2^30+3 `i*2` overflows `int` at the prime 2^30+3.
* **C34 — bfs returns shortest distances.** Proved. `Verif/Graph/Bfs`: queue loop; layers invariant; precondition INF ≥ n shown necessary in kind.
* **C35 — topological_sort decides acyclicity.** Proved. `Verif/Graph/Topo`: in-degree counting and recursive dfs with fuel shown to suffice.
* **C36 — max-flow with a flow limit never exceeds the limit.** MaxFlow/{Model,Net,FF,Bfs,DinicDfs,Props}: both searches are modelled on the adjacency lists with reverse positions. A graph represents a flow (Rp) that assigns each added edge a value; pushing along an arc changes the flow of one edge (push_ok), a search changes the net outflow only at its start and at the sink, and a search that finds nothing leaves a set of vertices without outgoing residual arcs, which is a saturated cut. Weak duality (flow_le_cut) then gives maximality. For Dinic the breadth-first levels are characterised (BInv) and arcs passed by the iterators in a round without flow are shown to be dead. Fuel is bounded by the sum of the capacities. C36_*_partial cover every history of add_edge and flow with fixed source and sink. Violated: one edge of capacity 10 and limit 3 gives 10 (both classes). Excluded: self-loops (add_edge records a wrong reverse position), s = t, capacity sums beyond 2^63-1.
* **C37 — MeldableHeap is a priority queue for every random outcome.** Proved. `Verif/Heap/Meldable`: trees, `_meld` with an arbitrary coin sequence and a recursion bound shown to suffice; nondeterministic specification on multisets. A heap passed to `meld` counts as consumed.
* **C38 — DoubleEndedPriorityQueue.** Partial, violation. `Verif/Heap/Depq*`: interval heap on a vector with every loop (`heap_down`, `heap_leaf`, `*_heap_up`, `heapify`, constructor). Proof by sifting a hole along the order diagram of positions. Specification: sorted list. The range constructor is wrong for lengths 3 mod 4 (witness).
* **C39 — FibonacciHeap top after update and erase.** `Verif/FibHeap`: the heap with its node map, circular lists (as lists), degree table, marks, `_Consolidate`, `_Meld`, `_ExpandChildren`, `_ExtractTop` as they are. The invariant is stated on a ghost forest (children, parents, marks, values, root lists as functions of the key): parent/child agreement, roots in the list of their degree, acyclicity by a height, heap order, and the i-th child has degree at least i-1 (i if unmarked). Hence a node of degree d has at least F(d+2) descendants and the degree table never overflows. `C39_partial`: over all histories (inductive `Reach`) get, size and top agree with a map from keys to values, and every operation within its preconditions succeeds. The one excluded step is `erase` of the key on top: `_ExtractTop` compares with the stale `root_`, which stays on the erased node (`C39_violation`: top() fails its assertion with a live key; `C39_violation_pop`).
* **C40 — Treap is a sorted set for every priority sequence.** `Verif/Treap/{Model,Proofs,Ops,Props}`. Nodes are a pure tree; parent pointers are a zipper (list of frames), an iterator is the key of its node (keys are unique) or `end()`. Rotations of `_bubble_up`, `_tricle_down`, `_bubble_up_force` are modelled one by one on the zipper. Proved by the in-order sequence: every rotation keeps it. The history theorem `C40_partial` runs any list of calls on any number of treaps (priorities are arguments of the calls) against strictly increasing lists. Not covered: multiset mode, iterators kept across the erasure of their node, `size_t` wrap-around of a wrong count. Code defects: `size_` is not maintained by `split` and hence by `erase(first,last)` (`C40_size_violation`; the source has a TODO); `erase(b, end())` with `b != begin()` returns `begin()` because `absorb` into an empty treap does (`C40_erase_violation`).
* **C41 — Bitmap / BV rank and select.** `Verif/Succinct/Select`, `BvModel`, `BvTrick`, `BvProofs`, `BvProps`. `select64` with its table and byte tricks, and `BV` with its two-level counts, hints, binary search and 9-bit-field comparison are modelled bit by bit on naturals below 2^64. `C41_bv`: for every word size 1..64 and every list of words with zeros beyond the end, rank and select are right. `C41_bitvector_partial`: this holds of `BitVector` after every history that leaves no ones beyond the end. `BitVector(10, true)` is a counterexample to the full statement (`C41_violated`). Little-endian byte order is assumed.
* **C42 — Bitmap behaves as a vector of bool.** `Verif/Succinct/BitmapModel`, `BitmapProps`. Words are `BitVec 64`, bits are related to a list of booleans. `C42_history_partial`: every history of enabled calls from either constructor agrees with the list. Excluded calls (`Safe`): `pop_back` that empties the last word and shrinking `resize`; both leave a stale word and are refuted (`C42_violated_pop`, `C42_violated_resize`). `C42_iterator_partial`: iterator arithmetic is position arithmetic unless a subtraction borrows from the next word; that case is refuted (`C42_violated_iterator`).
* **C43 — IntVector stores independent fixed-width integers.** Partial, violation. `Verif/IntVector`: bit-packed words; `get` does not mask and `set` erases higher elements (witnesses).
* **C44 — TY stores increasing sequences losslessly.** Proved. `Verif/TY`: block decomposition and get for every admissible sequence.
* **C45 — WaveletMatrix queries.** `Verif/Wavelet/{Model,Proofs,Query,Props}`. The model runs on top of the bitmap, iterator and rank/select models of C41 and C42. Invariant: a range at level t is exactly the sublist of the query range whose top t bits agree with the value followed. `C45_partial` covers all listed queries for values below 2^h. `C45_violated`: values not below 2^h are looked up by their low h bits, and `range_freq` shifts by 64 when h = 64. `top_k` and the list queries are not part of C45; `intersect` does not compile.
* **C46 — LiChaoTree returns the optimum over added lines and segments.** Proved. `Verif/LiChao/*`: tree of optional lines, the recursive descent `_add_line` on nodes of 2^k coordinates, the bottom-up segment decomposition, `get`. Preconditions found: intercepts differ from INV (`C46_inv_needed`), nonempty coordinates (`C46_empty`).
* **C47 — ConvexHullTrickDeque get returns the optimum.** Proved. `Verif/Cht/Deque`: deque of lines with the `get_incremental` pops; lower-hull lemmas by cross multiplication. Preconditions shown necessary: non-empty, monotone use (`C47_empty`, `C47_inc_needed`).
* **C48 — Mo's algorithm presents each query with exactly its window.** Partial, violation. `Verif/Mo/*`: the run as list of callback events for any order and block size; replay specification `Legit`. All right ends 0 with q ≥ 2: division by zero.
* **C49 — SegmentHld query and reverse_query.** Model `Verif/SegHld/Model.lean`: the weight-balanced construction (prefix sums, `upper_bound`, the correction by one), both constructors, and every member of `SegmentHld` and `LazySegmentHld` (`_propagate`, the climb of `set` with `lc^rc^ids[i-1]`, `_query<0/1>`, `_update`). `Shape`/`Build`: for positive weights the assertion holds, the construction stops and gives a laminar tree whose leaves are the indices. `Local`: a product and its reversal are one element of `M × Mᵐᵒᵖ`; `e k j` is the value of index j seen from node k; each primitive step keeps the two local relations. `Ops`: queries, updates and sets by induction over the nodes. `Props`: histories against a list (`C49_plain`, `C49_lazy`). Not modelled: overflow of the weights; the empty tree (n = 0) fails the assertion of line 38. Observation: `LazySegmentHld` calls `a()` on the operator (line 182), which `OperatorMonoid` of monoid.hpp does not have, so it only compiles with another operator type.
* **C50 — AC machine reports every occurrence of every key.** Model `Verif/AcMachine/Model.lean`: `_insert_key`, `_go`, `_build_fail` (breadth-first, with an arbitrary iteration order of the hash maps), `push`, `to_exact`, `operator++`, `find_all`, `find`, `find_suffix`; a user loop over the iterator is `collect`. `Trie`: labels of the nodes, insertion, which keys survive. `Fail`: the queue is ordered by depth, hence every link used is already right, and each link is the longest proper suffix in the trie. `Search`: reading a text keeps the longest suffix; the iterator lists the keys ending there, longest first. **Defect:** lines 77-78 return without recording a key that ends at an existing node, so a key that is a prefix of an earlier one is lost (`C50_violation`: keys ab, a; text a); `build()` without keys reads `nodes_[0]` of an empty vector (`C50_empty`). Statement proved under the condition that no key is a prefix of an earlier one (`C50_partial`), and for every key list with the surviving keys (`C50_kept`). Not modelled: `all_output`, `_output`; `dynamic_ac_machine.hpp` is C121 and C137.
* **C51 — ArbitraryModBinomial yields binomials.** Violated for every n and mod: `Verif/AmBinom` models the constructor with undefined behaviour as none and proves that it is none whenever enabled() (st_ has (n+1)/2 entries but st_[(n+1)/2] is written; ptb has k+1 rows but 10 are written). The recurrence of lines 58-59 is moreover that of inverse factorials, not of inverses.
* **C52 — Formal power series division and remainder.** False of the code. `Verif/Fps/Model` models `operator/=`, `operator%=`, `-=`, `normalize`; `C52_violation`: `x^2 % (1+x)` is `x^4`, `C52_violation_quotient`: `x^2 / (1+x)` is `x^2 - x^3`, `C52_violation_assert`: `(1+x) % x` fails an assertion. `C52_quotient_partial`, `C52_remainder_partial` prove what is computed: `(f / r) * r` agrees with `f` below `x^(r.size())` and `f % r` is `f - (f / r) * r`. Missing: the polynomial remainder, which the code does not compute.
* **C53 — Formal power series inverse.** `Verif/Fps/{Model,Mul,Series,Inv,Props}`: `inv_dense` (Newton's iteration, each product through `_mul_set` with its choice of algorithm), `SparseFps` construction and `inv`, `inv`. Proved with Mathlib's power series: `g*f = 1 + x^m q` implies the next iterate is right below `x^(2m)`; the sparse loop by an invariant on the prefix. `C53_agree`: both return the same list. The dense path needs `n <= 2^k`, `2^(k+1) | p-1` (the product of the iterate's square with `f` must fit a transform).
* **C54 — Number theoretic transform inverts and convolves.** `Verif/Ntt`. Model: `ceil_pow2` (on the verified `clz`), `coeff`, `_iterative_bit_reverse`, the radix-2 and radix-4 passes with their `long long` intermediates (overflow is `none`), scaling, `ntt`, `intt`, `ntt_convolution`, `intt_convolution`, and from `convolution.hpp` `convolution_naive`, `convolution_ntt` (with the step that splits off the last coefficients and recurses) and `convolution`. Proof: a radix-4 pass equals two radix-2 stages on sequences over `ZMod p` (`Pass`); the stages evaluate the polynomial at explicit points, and an inverse stage after a forward stage doubles (`Ring`); the reversal loop computes `rv`, an involution (`Rev`); values multiply, so inverting the pointwise product yields the product (`Conv`). `C54_dft`: `ntt` is the vector of values at the powers of one element of order `2^k`. `C54_inverse`: `intt` after `ntt` (and the unpermuted pair) returns the vector, zero-padded to the next power of two. `C54_convolution*`: coefficients of the product, possibly followed by zeros. `C54_roots`: the tabulated moduli are prime and the tabulated numbers generators (Lucas test by the modelled `pow`). Precondition of `convolution_ntt`: non-empty vectors (with an empty and a longer vector it reads `back()` of the empty one); `convolution` checks this. Not covered: the general search in `primitive_root_constexpr`.
* **C55 — LazySegmentTree max_right and min_left return the predicate boundary.** Partial, violation. `Verif/LazySegTree/*`: search functions on trees; pending operators of ancestors are ignored (witnesses).
* **C56 — DirichletConvolution is the Dirichlet product.** Proved. `Verif/Dirichlet/Conv`.
* **C57 — DirichletMultinomialConvolution agrees with the plain product for multiplicative a.** Proved. `Verif/Dirichlet/Conv`: prime-power recursion against the Dirichlet product for multiplicative a.
* **C58 — Dirichlet convolution of summatory functions.** Proved. `Verif/Dirichlet/Optimal`: hyperbola-method loops; exact integer square root assumed for `sqrt`.
* **C59 — SccGraph::scc returns the strongly connected components in topological order.** Proved. `Verif/Graph/Scc`: Kosaraju with both recursive passes.
* **C60 — MoSolver::solve_rollback reports every query with exactly its window.** Partial, violation. `Verif/Mo/*`: as C48 with init/snapshot/rollback; division by zero when all right ends are 0.
* **C61 — Bipartite matching is maximum and consistent.** MaxFlow/Matching: the network of a bipartite graph, the flow of every edge is 0 or 1; saturated arcs are counted through the representation (Rp.countP) and flow conservation gives distinct end points; every matching is at most as large as every cut (matching_le_cut).
* **C62 — Project selection is optimal.** MaxFlow/Psp: cuts of the network correspond to sets of projects (psp_cut), so solve() is psum minus the minimum cut. Violated for selections(): it clears the flag of projects whose profit edge keeps residual capacity, which are the ones carried out (one project of profit 5: solve() = 5, selections() = {false}).
* **C63 — Treap emplace_hint equals insert for every hint.** `Verif/Treap/Props`. `C63_partial`: for `end()` and any hint such that every element before it is less than `x` and every element after it is greater; `C63_lower_bound_partial`: the usual hint. Code defects: only the parent of the hint is checked, so a far hint puts the key into the wrong subtree (`C63_order_violation`), and the predecessor of a present key as hint inserts the key twice (`C63_duplicate_violation`).
* **C64 — Formal power series product.** `mulSparse`, `mulSet` in `Verif/Fps/Model` on top of the transform convolution of C54. `C64_violation`: `Fps() * r` with 130 non-zero coefficients calls `back()` on an empty vector. `C64_product_partial` covers every non-empty left factor, `C64_product_sparse` the sparse algorithm for all factors. Missing: nothing else.
* **C65 — Logarithms of power series.** Partial, violation. `Verif/Fps/{Model2,Ode,Log,LogSparse,Props2}`: f·l' = f' below x^(n-1) for the computed l (from the verified product and reciprocal), uniqueness of solutions of linear differential equations modulo p, and the series -Σ(1-f)^j/j solves the same equation. `log_sparse` is wrong for n > size and asserts for n = 1.
* **C66 — Exponentials of power series.** Proved. `Verif/Fps/{Exp,Props2}`: recurrence over the terms; doubling with the invariant f = exp h mod x^i, g = 1/f mod x^(i/2), q = h' mod x^(i/2-1) (`exp_round`).
* **C67 — Powers of power series.** Proved for exponents 0..2^63-1. `Verif/Fps/Pow`: both paths solve f·F' = n·f'·F; leading zeros and coefficient are split off. SparseFps::pow is not modelled.
* **C68 — Square roots of power series.** Proved. `Verif/Fps/{Model3,Sqrt}`: the power with exponent 1/2 squares to f; order argument for the converse; exceptions are an inner none.
* **C69 — Heavy-light decomposition finds lowest common ancestors.** Model `Hld/Model.lean`: `add_edge`, `dfs_sz` (with the swaps of the neighbour list inside the loop), `dfs_hld`, `build`, `lca`, function by function; -1 entries are `none`, out-of-range and exhausted fuel are undefined. Specification `Tree n r P`, `Anc`, `EdgesOf` (any order and direction of the edges). `Size.lean`: loop invariant with the neighbour list split in handled and open part; `Order.lean`: what a finished subtree looks like (`Done`), frames; `View.lean`: chains; `Lca.lean`: every step keeps the common ancestors.
* **C70 — Path queries and updates of the heavy-light decomposition visit exactly the path, in order.** `_query` and `update` are modelled with `Q`, `RQ`, `U` as parameters which may fail. Proved for every monoid: the invariant is that the part of the path already left has been multiplied, in order. `update` is shown to be a run of calls on intervals whose positions are a permutation of the positions of the path, which has no repetition. The variables `um, vm` (line 77) are default-initialised; the theorem has the value `e` of a default-initialised `T` as a parameter and gives e * product * e.
* **C71 — Subtree intervals and subtree sums of the heavy-light decomposition.** in/out/rev by counting: the subtree of w is mapped injectively into an interval of the same size. Sums: position in[w] holds the weight of w and of the subtrees of its light children; kept by `subtree_build` (recursion) and `subtree_point_add` (walk over chain heads, which meets exactly the vertices having u below a light child).
* **C72 — Paths of the heavy-light decomposition have logarithmically many pieces.** 2^depth * size <= n by induction from the root, using that the first child has the largest subtree; the number of intervals of `update` is at most depth[u] + depth[v] + 1.
* **C73 — Rerooting on a tree.** Model Verif/Reroot/Model.lean (dfs, dfs2, calc, add_edge function by function; T with * and 1 for merge/e; the parent -1 is none). Spec: inductive relation Val over the neighbour lists of the user's edge list (Spec.lean), shown functional (Val.unique). Proof: first pass by induction on subtree size (Down: entries of children), second pass (Full: all entries) with prefix/suffix products; reuses the tree theory of Hld.
* **C74 — Rerooting with edge weights.** Same model with integer weights and the conversion of the Path constructor (int member, graph.hpp line 90). C74_partial for weights that fit in int; C74_violated: path 0-1-2 with weights 1, 2^32 and a DP that adds weights gives 0 instead of 2^32. Weights of floating type (also converted to int by the same line) are outside the model.
* **C75 — Euler tour.** Model Verif/Euler/Model.lean (lambda dfs with tour, L, R and the counter k). Proof by induction on subtree size with the loop invariant J (Proof.lean): prefix untouched, walk along edges, Span of every finished vertex. The statement on lowest common ancestors follows from the spans and the walk (Tour.lca).
* **C76 — Dijkstra's shortest paths.** Model Verif/Dijkstra/Model.lean: the loop on the modelled FibonacciHeap (not on an abstract queue), overflow of d+e.w and the assertion as undefined. Spec: weights of walks (Spec.lean). Proof: invariant on finished vertices and the queue through the refinement theorems of FibHeap (push_spec, pop_spec, Wf.top). C76_partial for weights in int range; C76_violated for a long long weight (Path::w is an int). Negative weights are outside the claim.
* **C77 — SegmentTree2D::query returns the product over a rectangle.** Model: Verif/Seg2D/Model.lean (ctor, set, query on the segment tree of Verif/SegTree). Proof (Seg2D/Props.lean): each outer node x holds a segment tree of a row function R x, inner nodes are the columnwise products of their children; for fixed columns the outer loop is the one-dimensional query loop on the list of row products, so the one-dimensional theorem applies. Assumes commutativity and that the default value is the identity.
* **C78 — MeldableHeap behaves as independent priority queues.** Model: Verif/Meldable/Model.lean: nodes in one shared memory with pointers, several heap objects, rand() an arbitrary bit sequence; parent (never read) left out. Proof: ghost trees, _meld on disjoint ordered trees keeps elements and node sets and touches no other node (Meldable/Proof.lean); programs refine multisets (Meldable/Props.lean). Found: meld(r) does not reset r (lines 43-47), both objects then own the same nodes; C78_violation gives a program where a value pushed only into b is returned by a.top(), C78_violation_size shows b.size() unchanged. Also (not modelled): a.meld(a) is not excluded by the code, parent pointers are shared_ptr and form reference cycles (memory is leaked), and the header needs a preceding using namespace std.
* **C79 — MinCostFlowGraph::flow returns cheapest flows.** Verif/MinCost (Model: add_edge and flow of min_cost_flow.hpp with prevv/preve/dist/h arrays on the Fibonacci heap model; Search: the search is label-correcting because the potentials h of unreached vertices are stale and h starts at 0 even for negative costs, so it is proved with historic walks: a label is always the cost of a simple walk, hence bounded, predecessors never form a cycle, and a measure decreases; Net: residual graph with costs, a flow with feasible potentials is cheapest of its value; Flow: arcs on the predecessor chain are tight, so augmenting keeps potentials feasible). C79: for every list of limits the calls return flows within the limits, each total being the cheapest of its value, and stop early only at a maximum flow. Ghost potentials differ from the stored h (unreached vertices are shifted), the stored h is only shown to be bounded. Not modelled: add_edge after flow (it may create a negative cycle in the residual graph, on which the search does not terminate), s = t.
* **C80 — Determinant.** `Gauss/Model.lean` follows `det` loop by loop over the matrix lists of C32, with division by zero and accesses out of range as `none`. The invariant (`Gauss/Det.lean`) is `ret * det V = det A`, where `V` is the current matrix with the entries below the diagonal of finished columns counted as 0 (the program leaves garbage there); swaps, row subtractions, the zero-column exit (block triangular) and the final product (triangular) use Mathlib's determinant lemmas. The element type is any field with decidable equality; floating point and `Modular` with a non-prime modulus are outside.
* **C81 — Linear systems.** Violated: `system_result_matrix` is `Matrix<T, R+1, C>` but the kernel can have up to `C` basis vectors, so for `C - rank > R` the rows `res[t+1]` do not exist (`C81_wide_out_of_range`: one equation `0x + 0y = 0`). `C81_solve_partial` proves everything else: flag, particular solution, independence and the exact solution set, for systems whose kernel has dimension at most `R` (`Gauss/{Elim,Basis,Solve,Lin}.lean`: reduced echelon form, kernel preservation, free columns enumerate the basis).
* **C82 — Matrix inverse.** Runs the elimination of C83 on `[A|I]`. Rank `n` forces the left block to be the identity; the kernel vectors of `[A|I]` read off the right block give `A * ret = 1`. Rank below `n` gives a non-zero kernel vector, hence no inverse.
* **C83 — Gaussian elimination.** Invariant `RI` in `Gauss/Elim.lean`: pivots increasing and unit columns, zeros to the left of pivots and below the rank, same kernel as the input. The rank is identified with Mathlib's `Matrix.rank` by counting the free columns as a kernel basis (`Gauss/Lin.lean`). `principal` is taken as null or an empty vector, as its callers do.
* **C84 — Link-cut tree: path products and path updates on a changing forest.** Models `splay_tree.hpp` (rotations, splay), `propagate`/`aggregate` of `LinkCutTree`, `expose`, `evert`, `link`, `cut`, `prod`, `set`, both `update`s on a heap of cells with child and parent indices; a missing cell is `none`. `Splay/Tree.lean` gives the pure trees with pending reversal and operator (`seq`, `Valid`), `Splay/Heap.lean` and `Splay/Rot.lean` the refinement of every pointer write and `splay_ok`; `LinkCut/Forest.lean` describes the heap as a forest of splay trees, each holding a vertical path of a parent function `P` made acyclic by a depth function; `Expose.lean` proves that `expose` needs at most n rounds; `Ops.lean` treats the operations (`evert` reverses `P` along the path, `link` works on the closed part of the forest not containing `v`). The specification knows only values and edges; uniqueness of simple paths is proved (`path_is`). `LinkCutTreeBase::cut(c)` (27-33) is hidden by the derived `cut(u, v)` and not modelled; weak pointers are indices since `nodes` keeps every node alive.
* **C85 — SplayTreeList behaves like a sequence.** SplayTreeList on the heap model of the splay tree (Verif/Splay): the heap is related to a ghost binary tree by `H`, whose in-order sequence with all pending operations applied (`seq`) is the list. kth_element, insert (front, back, middle), erase (front, back, middle), between, prod, reverse, set, update(i,f), update(l,r,f) and the balanced build are each shown to edit this sequence as the plain list would (`Does`/`Runs`). Violation: prod(l,l) reads `->prod` of a null pointer for every l (`C85_prod_empty_range`), where reverse(l,l) returns early and update(l,l,f) asserts. Not violated but noted: `is_base_of` at line 45 has its arguments swapped, so every standard iterator category takes `_dfs_init`, which needs multi-pass iterators. Not modelled: reference counts and deallocation of erased nodes.
* **C86 — BinaryTrie behaves like an ordered map.** Verif/Trie: inner nodes are addressed by (depth, prefix), leaves by key, with child flags, jump pointers, leaf links, values, size and the X-fast tables as explicit state; none is a null dereference or failed assert. Invariant `Inv`: node present iff some key has the prefix, child flags exact, jump of a one-child node is the outermost leaf on the missing side, links are the order neighbours, tables exact. Every call is shown to keep it and to answer as the partial map of Spec.lean (`Behaves`). Range construction covers the sorted bulk path (grow, push_link, jump repair) and the unsorted path. Identifying nodes by prefix assumes that shared_ptr/parent links form the tree they are meant to form; assertions about parents are not modelled.
* **C87 — XFastTrie behaves like an ordered map.** Same model with the hash tables: search is the binary search over depths (xft.hpp:88-107). Violation: `_init` runs inside the base constructor without virtual dispatch, so tb_[0] lacks the root; `m[0]=..; m[4]=..` at W = 3 fails the assert in climb_to_lca (with NDEBUG the entry is created as null and the code then happens to work). Proved: default construction with hints only after clear, and range construction in full.
* **C88 — Tries can be copied, moved and destroyed.** An object is none when its root_/dummy_ are null. Violations proved for all tries: destructor of a moved-from trie, self assignment, moved X-fast trie finds nothing; XFastTrieBase::operator= flows off its end (modelled as undefined). The partial theorem covers copies, copy assignment, move targets and destructors. Reference counts/freeing are not modelled.
* **C89 — BinaryTrie::traverse(rule) reaches the key the rule describes.** `follow` is traverse(rule); the xor rule is the one of test/yosupo/set_xor_min.test.cpp.
* **C90 — SpsExp sums over set partitions.** Verif/Sps. A ranked row is a function of masks and ranks; `Cls n e a Z` (Sps/Cls.lean) says that the Möbius transform of Z vanishes below the diagonal rank and is `a` on it, whatever stands above. Products, merges and splits keep the class. Hence the loops compute the recursion over the highest element, and `psum` (sum over set partitions, Sps/Part.lean) satisfies the same recursion.
* **C91 — SpsCompositionEgf composes an EGF with a set power series.** Same classes; the loop over k keeps the blocks of the k-th derivative. Violation: with 2 <= |F| <= n the loop starts at d < n but merges only for k+1 < d, so the rows used at k = d-1 lack everything but the empty set (witness F = [0,1], n = 2).
* **C92 — SpsCompositionPoly composes a polynomial with a set power series.** The coefficient loops give the Taylor shift at c; with cpow_psum (powers of c + a as partition sums) this is Sum F_i A^i. Violations: c = 0 passes F on as EGF coefficients; short F as in C91.
* **C93 — SpsLog and SpsExp are inverse.** SpsLog's coefficients give psum with -(k-1)!; exp_log shows via the derivative at one element that its exponential is s, exp_inj that the exponential is injective on series without constant term.
* **C94 — SpsInv gives the inverse for subset convolution.** cls_inv: if all rows start with 1 and Z is in the class of s, the rowwise power series inverses are again in a class (induction on the highest element with Gu - G = -Y G Gu in PowerSeries). The product of both is constant 1, whose class is the unit.
* **C95 — The transposed set power series maps are transposes.** sp_adjoint is the duality of subset convolution with reversed arguments (induction on the highest element). TransposedSpsCompositionEgf keeps: pairing of x with E_{k+m} = pairing of the current vector, cut to 2^(n-k), with E_m, where E_m sums over partitions into m blocks.
* **C96 — SuffixArray sorts the suffixes.** Model Verif/Sais/Model.lean follows suffix_array.hpp line by line: -1 is none, a bucket is a half-open pair, std::sort is any sorted permutation, (int) is reduction modulo 2^32. Top.lean shows the rank string has the order of the input and drops the sentinel. Violations (empty range, 64-bit and unsigned values) are concrete witnesses.
* **C97 — sa_is is safe and correct on every sentinel string.** Induce.lean: closed form of both scans (slot of x = bucket start + number of smaller L-type positions, or bucket end - number of not smaller S-type ones), for any key ordered by character, type and successor. Keys.lean: the first run sorts by LMS substrings (k2), the second by suffixes (fk). Names.lean: the name of x is the number of different smaller LMS substrings. Main.lean: induction on the length, as at most n/2 positions are LMS.
* **C98 — ConvexHullTrick answers the optimum after any calls.** Proved. `Verif/ChtMap`: both maps as lists in iteration order, iterators as positions, searches with the map's own comparison; every difference and product is checked against the limits of `T` (the asserts in `double` are taken as exact). Invariant: the lines form a strict upper hull between the sentinels and `tr` is exactly the list of their intersections. The preconditions (a line before the first query, order of abscissas, size of coefficients) are shown to be needed; `get_incremental`/`get_decremental` on an empty structure have no assert and leave the map.
* **C99 — Rmq returns the first position of the minimum of any range.** Model: Verif/Rmq/Model.lean (word tables and rmq64 with the byte-wise excess word, the DecaltTree constructor with parent climbing, the explicit-stack traversal writing the parentheses into the Bitmap model of C38, BitVector rank/select of C41, block minima, recursion over block minima, sparse tables of C09 at the bottom). Proof: rmq64 is the leftmost minimum of the 64 prefix sums (Word); in the parentheses of a Cartesian tree the leftmost minimum of the excess between the closing parentheses of x and y is the closing parenthesis of the first least value of [x, y] (Cart); the constructor keeps a ghost right spine and builds the Cartesian tree (Build); the traversal writes its parentheses (Trav); merging of leftmost minima over the parts of a query, induction over the recursion height (Query). Values are integers (only compared); size_t wrap-around would be undefined in the model and is shown not to occur.
* **C100 — RRR compressed bit vector stores and returns the written bits.** Verif/Rrr. `Enum` defines the rank `numOf` of a bit string and its properties (bounds, first bit, leading zeros, one zero, one one, complement). `Decode`: the Pascal table equals `Nat.choose`; `get_int` and `get_bit` keep 'what is left is the suffix from i'; the binary search finds the number of leading zeros. `Encode`: `get_number_for_popcnt` visits the ones; field widths. `Build`: the bitmap is the concatenation of encoded blocks, the heads are prefix sums (TY admissible because a block has at most 69 bits). `std::map` is a sorted list. The asserts in build() are modelled and proved not to fail. Unsigned subtractions are checked (none instead of wrap-around).
* **C101 — BinarySet answers membership, rank, i-th element and successor queries.** Model `Verif/BinSet/Model.lean` on top of the RRR model (C100): `setBuild`, `contains`, `rank`, `get`, `lowerBound`, `upperBound` with 32-bit truncation. `Spec.lean` turns the RRR/BitVector theorems into facts about the list of inserted values; `C101_set_partial` is the property except for two argument classes, where `C101_upper_bound_violated` (argument 2^32-1) and `C101_end_violated` (value 2^32-4, block size 63: lower_bound(2^32-2) = 59) show it false. The Bitmap backend is not modelled.
* **C102 — BinaryMultiset answers count, rank, i-th element and successor queries.** Same model; the i-th sorted value v sets bit v+i; `zero_pos`/`one_pos` relate select0/select1 to sorted prefixes. `C102_multiset_partial` covers everything up to the number Z of zero bits; `C102_violated` and `C102_upper_bound_violated` are the failures. Hypothesis: fewer than 2^63 values. `std::sort` is `List.mergeSort`.
* **C103 — Skiplist is a sequence with insertion, removal and access by index.** Verif/Skip. Nodes are heap addresses with height, value, next and length per level; access above a node's height is none. `Lvl s A r` (Inv.lean) says level r links exactly the nodes of height >= r in list order with length = distance in the list (0 at the end); `Good` adds sizes and heights. Each call is followed level by level (`insStep_ok`, `eraStep_ok`). `set_at` does not compile (iterator has no operator->), not modelled; shared_ptr ownership is not modelled. Spec: take/drop and eraseIdx.
* **C104 — SkiplistSet is an ordered set with order statistics.** Same model; `Set.lean` describes the search by value through a cut of the node list (values that satisfy the test / the rest). stack_ and idx_ are kept across calls as in the code; entries above height_ are 0 because they are written only up to height_, which never decreases. emplace's assert is modelled. erase(v) does not advance u at the levels below the one where v was met; `Allowed` states when that is harmless.
* **C105 — ORS counts points and sums weights over rectangles, under weight_add.** `Verif/Ors`: `ORS<int,W>` over the models of BinaryMultiset, BinarySet (RRR) and WaveletMatrix. `build` runs the stable splits of (key, weight) pairs; `levP`/`allW` say what the caller's array holds (`weights_ok`). The traversal invariant gives each queue item the pairs below it (`G`, `trav_ok`), with fuel shown to suffice. `weight_add` descends to the first occurrence and climbs back; `upDown` follows one element with varying weight through all levels. Violations: undefined shift by -1 on empty nodes one past the last level (with x86 and T = int it is harmless: proved), division by zero without points, negative bounds converted to uint32_t. `weight_add` at an x that is not a point changes another point (`C105_missing_point`). Simplifications: the caller's structure is an array with addition; `std::sort` is a merge sort; point coordinates are not negative.
* **C106 — ORS::enumerate lists the points of a rectangle.** Same model. Violated: `_traverse` calls the internal callback whenever the node is inside the range, and at the last level every node is inside or outside, so the leaf callback never runs and the result is empty (`enum_ok`).
* **C107 — Bitmap with updates: get, rank and select after any sets.** Model (Verif/DynBitmap/Model.lean) of bitmap.hpp over the model of FenwickTree<int>: table rows with uninitialised entries, set by differences, rank, and select with the descent of the Fenwick tree, the SWAR byte counts and the table. Spec: a list of booleans with List.set, count of a prefix, position of the k-th 1. Invariant: words hold the bits and the Fenwick tree holds the population counts of the words. Violations: rank(size) for sizes divisible by 64, Bitmap(size, true), select past the last 1 (out of bounds). int is unbounded (sizes below 2^31); little-endian byte views.
* **C108 — WaveletTree queries agree with the plain sequence.** Model (Verif/WTree/Model.lean) of wavelet_tree.hpp: constructor with the bit iterator, the two queues, node boundaries D/nd with assertions, and get, rank, rank_lower, rank_3way, select (with the int array ls), enumerate, over the verified model of BitVector rank/select. Invariant (Build.lean): level t is the concatenation of the nodes of the binary trie, D lists the boundaries of the non-empty ones; queries (Query.lean) follow a node as an infix of the bit list. Spec: plain list counts and positions. range_freq (228-256) does not compile, child/child_tie unused.
* **C109 — Y-fast trie is a sorted map for every history of calls.** Model Verif/Yft/Model.lean composes the models of the X-fast trie (Verif.Trie, xf = true) and of the treap (Verif.Treap): nothing is replaced by a specification. Invariant (Verif/Yft/Abs.lean, Ops.lean): the trie maps pivots to treaps; the bucket of pivot p has keys above the previous pivot and up to p; every pivot but 2^W-1 is a key. Each operation is proved against sorted lists (insert with split, erase with merge, iteration across buckets), the range constructor in Range.lean; Props.lean has programs with registers for iterators, observed only through == end() and *it. Restrictions that are needed (all with proved witnesses): pivot coin for the largest key, duplicates in a sorted range, hints other than lower_bound. Iterators are not stable: a split or merge of their bucket makes xit_ wrong, so registers are cleared by modifying calls.
* **C110 — Copies and moves of a Y-fast trie are maps with the same elements.** copyOf_ok in Verif/Yft/Range.lean via the trie's own range constructor; the copy then satisfies the C109 invariant, so C109 applies to it. Negative part: xft.hpp's operator= has no return (copyAssign = none), tb_ is not moved (find answers end() for a present key, or an assertion fails), the moved-from trie has no root for the destructor.
* **C111 — WaveletMatrix listing queries.** Verif/Wavelet/Lists.lean models range_list_k (queue of (range, s, c) items, both template flags), range_list, range_min_k and range_max_k over the WaveletMatrix model of C45; y-1 wraps for wide unsigned T. Proof (ListsProofs): the queue is a part of level t followed by a part of level t+1, and the final output is the listing below the second part followed by that below the first; pruned or empty children have empty listings. Violated for k = 0 (everything is returned), y = 0 with unsigned T (failed assertion), the empty range at the end with height 1 (bogus entry (0,0)) and the empty matrix (division by 0). intersect does not compile when used and is not modelled.
* **C112 — WaveletMatrix top_k and sum.** top_k is modelled with its priority queue (a greatest tuple is taken); TopK.lean shows that the items cover disjoint sets of values, that each range is the number of elements below the item, and hence that values come out in order of frequency. sum folds over top_k(l, r, r-l) in an arbitrary commutative semiring. Violated for k = 0, the empty range at the end with height 1 and the empty matrix.
* **C113 — primitive_root is a primitive root.** Verif/PrimRoot: mod_pow_constexpr, the trial division (int overflow of d*d and overrun of divs are none) and the search are modelled literally. The factorisation invariant: x is odd with all prime factors at least d, every prime factor of m-1 is in divs or divides x, and the product of divs times x divides m-1 (so divs, strictly increasing, has fewer than 20 entries as 21! > 2^31). The group of units is cyclic, so the search succeeds, and any number passing the tests has order m-1. Limits of constexpr evaluation are not modelled.
* **C114 — convolution_garner multiplies modulo any modulus.** Verif/ConvBig/Garner.lean models convolution_garner on top of convNtt (C54) and garner (C28); convNtt_length shows that the result length depends on the input lengths only, so indexing c1, c2 by the size of c0 is in bounds; coefN_le bounds the coefficients by min(n,m)*2^62.
* **C115 — convolution_large multiplies beyond the transform length.** Verif/ConvBig/Large.lean models the blocks as vectors of vectors, the double loop over block pairs and the overlap-add, with the int shift i<<l checked; blocks_mul regroups the product of the block series by i = j+k over power series. The modulus 2 is the violation.
* **C116 — convolution of int vectors returns integer coefficients.** Verif/ConvBig/Ints.lean models the naive loops on int with undefined overflow, the int overload of convolution_fft and the dispatch; all partial sums are bounded by the final coefficients. C116_violated(_large) give 61-entry vectors whose first coefficient is wrong although the one-entry vectors give the right value.
* **C117 — SparseFps represents and operates on power series.** Verif/SparseFps: terms are lists of (exponent, coefficient) sorted by exponent; sps is the sum of the monomials. The operations are modelled literally, exponents of inline_diff modulo 2^64. inv and / reuse the sparse division of C52/C53. Witnesses: {1}-1 == {} is false; the derivative of 1+x has exponent 2^64-1.
* **C118 — SparseFps exp and pow.** exp is the recurrence i*h[i] = sum d*c*h[i-d] with the conversion of exponents to int; the coefficients are compared with the exponential series (expS) through the differential equation. pow factors out the lowest term and uses the recurrence for powers of series with constant term 1 (pow1SparseImpl of Verif/Fps). Witnesses for truncation to int, for a stored leading zero and for n = 0.
* **C119 — Elementary operators of Fps are the ring operations.** Verif/Fps/OpsModel.lean, OpsProps.lean: each operator on lists of coefficients; loops with invariants on coefficient functions; the specification is equality of PowerSeries over ZMod p. The order in which the by-value arguments of convolution_ntt are initialised is a parameter; moving first makes the second argument empty.
* **C120 — AcMachine::all_output lists, for every state, the keys that end there.** Model Verif/AcMachine/Output.lean: output (follow fail links, collect entries), the breadth first loop of all_output over the nodes. Uses the machine of C50 (Verif/AcMachine). Proof: the BFS invariant of build is reused to show that every node is visited once, and output at a node is occ of its label; the label of the state after a text is the longest suffix of the text in the trie, so occ of the label is occ of the text. Spec: occ (filterMap over the suffixes of the text).
* **C121 — DynamicAcMachine finds every occurrence of every key after every insertion.** Model Verif/DynAc/Model.lean: the machine of C50 plus the reverse failure sets ifail; insert with the three phases (walk/extend, links of new nodes, queue of nodes that fail to the beginning of the new path), with the copy at lines 82-83 modelled as it is. Hash sets: any permutation of the list (ord). Proof (Proofs, Insert): invariant Good b with a flag: links are always proper suffixes (soundness, termination of the loops); if b (so far all insertions fresh) they are the longest ones and ifail is exactly the inverse relation restricted as needed. Spec: occ/reports of C50 and FreshOrder on keys only. Violated for abc, bc, c; searching a machine without any insertion reads nodes_[0] of an empty vector.
* **C122 — TransposedSpsCompositionPoly projects the powers of a set power series.** Model Verif/Sps/TransPoly.lean: the function with its factorial tables, the powers of the constant term, the convolution and the final scaling, statement by statement, on lists of residues; TransposedSpsCompositionEgf is the verified model of C95 instantiated at ZMod p, convolution_fft on Modular is convolution_ntt of C54. Proof: loop invariants for the tables; cpow = psum of powCoef (C92), powCoef = binomial coefficients, and regrouping of partitions by their number of blocks. Spec: sums over subsets and cpow (recursive subset convolution).
* **C123 — Iterators of DualSegmentTree behave as positions in the represented sequence.** Iter.lean models the iterator constructor, +=, -=, prefix and postfix ++, and dereferencing as index arithmetic modulo 2^64 plus the propagation loop with ctz(~x) (the verified bit model of C27). Histories of tree calls and iterator calls are compared with a plain list and positions, where update invalidates all iterators. The invariant is that nothing is pending above the leaf of a valid iterator; propagations keep that for every other iterator (Keeps), and -- from end() is right because the nodes above both the first and last leaves never hold anything (InvZ.wrap). Violated: += n with n >= 2 computes the number of levels from the trailing ones of l^idx, so begin() += 2 propagates nothing; postfix ++/-- move without propagating.
* **C124 — X-fast trie of integer_set.hpp is a sorted map for every history of calls.** Model in `Verif/IntSet/Model.lean`: inner nodes by place (depth, prefix) with mask and two child pointers (null, child, or thread to a leaf), leaves with neighbours, `xmap_` as the set of places; every loop of the code is a recursion. Null pointers, keys of `end()` or of an erased leaf, failed asserts and the shift by 64 are `none`. `Basic.lean` has the invariant `Inv` (masks are the stored prefixes, a missing 0-child is a thread to the least key of the subtree and a missing 1-child to the greatest, leaves form the sorted list) and the queries; `Ins.lean` and `Del.lean` show that insertion and deletion keep it; `Run.lean` lifts this to histories. Specification in `Spec.lean`: a partial map, nothing of the trie. The property fails in four ways (notes in MANIFEST); `C124_history_partial` proves all histories outside of them, and `C124_erase_last` describes every trie after its only element is erased.
* **C125 — Y-fast trie of integer_set.hpp is a sorted set for every history of calls.** Model in `Verif/IntSetY/Model.lean` on the models of the X-fast trie (C124) and of the treap, no call replaced by its specification; random draws are arguments, so the theorem holds for all of them. The iterator that `erase` returns is modelled with its two parts apart (`Ret`), since they need not belong together. Buckets and iterators are related to the sorted list by `Yft.Buckets` and `Yft.ItOk` of C109; `Query.lean` has the queries, `Upd.lean` the changes with the set of pivots, `Props.lean` the specification (a sorted list, registers with keys, and the list of keys drawn as pivots, which only restricts the calls of the partial theorem) and the history theorem.
* **C126 — TreapMultiset is a sorted sequence with equal keys allowed.** `Verif/TreapM`: treap.hpp with `UniqueKey = false`.  Nodes are numbered in allocation order and iterators are these numbers; the functions that do not compare keys (rotations, iterator steps, erase(it), split) are those of `Verif/Treap/Model.lean` with the number in place of the key, those that compare keys are modelled anew (descent without the equality test, hint check, searches, absorb's assertion, _clone with new nodes).  `C126_history_partial`: for every list of calls, as long as each is allowed by `pre`, the call is defined, `post` holds (stated on the sequences of (name, key) pairs; where the code may choose among equals, `post` is a relation), the keys are in order and names differ; sizes are right until the first split or range erase.  Violations (`C126_lower_fails`, `C126_count_fails`, `C126_range_fails`, `C126_join_fails`, `C126_erase_end_fails`, `C126_hint_fails`): see the claim.  `TreapMultimap` does not compile and is not modelled.
* **C127 — A treap is balanced by its priorities, whatever is done to it.** Same model as C40 (`Verif/Treap/Model.lean`). `C127_heap`: an invariant of every operation, with no assumption on iterators, hints or key order (`Verif/TreapShape/Heap.lean`). `ledger` turns a call into the same call with the drawn priority as the stored value, so that the sorted-map specification of C40 says which keys are present with which priority; `Skel.lean` proves that treaps do the same to keys, priorities and shape under both calls. `C127_shape`: heap order, key order and distinct priorities determine the tree. `C127_path`: the keys that `find` compares (tied to `findT` by `find_path`). `C127_average`, `C127_insert_average`: the sum over all permutations of the priorities, by counting the permutations with the minimum of an interval at a given place (`Average.lean`). Equal priorities and the distribution of the random engine are not covered by the average.
* **C128 — Union-find trees stay logarithmically shallow.** Depth.lean extends the C01 invariant with 2^d(u) <= class size for the depth bound d that the invariant carries (link shifts the depths of the smaller class by one; compress only lowers). The spec `Steps` counts parents in the raw array; the recursion depth is the fuel of `rootF`. The example reaches the bound. For PersistentUnionFind the object invariant of C13 now carries the same inequality, so C13_versions needs only a budget K > log2 n for the recursion of leader (it needed K > n before).
* **C129 — SplayTreeList calls are logarithmic, amortised.** Verif/Splay/Potential.lean defines the potential (sum over subtrees of floor(log2 size)); zig, zig-zig and zig-zag lemmas with integer ranks (two disjoint parts cannot both have the rank of the whole). The refinement lemmas of C85 (zig_ok .. splay_pot, kthLoop_ok, kth_ok, erase_ok, between_ok, ...) now also give the budget needed (depth + 1) and the inequality budget + 2 phi' <= 2 phi + O(log size); the balanced tree of _dfs_init has potential < 2n. The statement is independent of the potential: there are budgets with the stated sum such that the run with exactly these (or larger) budgets succeeds and returns the values of the plain list. Lazy propagation and reversal marks do not change sizes. The example shows the budgets are tight: one round less makes the call fail.
* **C130 — Dinic needs at most |V| rounds, whatever the capacities.** Files `MaxFlow/DinicDfs.lean` (`Mono`, `Lp`, `Sat`: what a round does to capacities relative to the levels), `MaxFlow/Rounds.lean` (`Turn`, `crit`, `pend`), `MaxFlow/RoundsProps.lean`. Rounds are counted by the fuel of `dFlow`. A round only shrinks level arcs and only grows their reversals, so the level of the sink never falls; a round that sends flow saturates an arc on a level path to the sink (`dfs` returns either all it was asked for or has saturated something), and while the sink stays at its level the set of edges on level paths to it shrinks strictly. Hence at most (|V|-1)|E| rounds that send flow, plus the last (`C130_rounds_partial`, for any sequence of calls, sum of capacities below 2^63-1). The usual bound |V| fails (`C130_violated`, `C130_violated_simple`): `for (auto& it = nxt[u]; it != end and fsum < f; ++it)` executes `++it` before testing `fsum < f`, and so drops an arc that has been used but not exhausted for the rest of the round; the flow stays correct (C36), but a round is no blocking flow.
* **C131 — Mo's algorithm moves the window O(n sqrt q) times.** `Mo/Moves.lean` counts the window callbacks in the trace produced by the models of `solve` and `solve_rollback`. Left end: while a query of the same block is served the left end moves by less than the block size, and steps to later blocks telescope along the block ends. Right end: the distance still to be covered inside a block is a potential (`rpot`), at most n per block, and there are at most n / b + 2 blocks. `Mo/MovesProps.lean` then puts in b = ceil(n / sqrt q), specified exactly by `IsCeil` with integers ((b-1)^2 q < n^2 <= b^2 q). The header comment promises 'N sqrt(Q) + O(N)'; the constant 1 (which needs the better of both grids on average) is not proved, the theorem has constant 2 for each grid.
* **C132 — FibonacciHeap operations have amortised constant and logarithmic cost.** `FibHeap/Cost.lean` repeats the model functions with a step counter and proves that dropping the counter gives the model back. `FibHeap/Amort.lean`: potential 2 trees + 4 marks. A cascade of c cuts makes c trees and removes at least c - 2 marks net (`consolidateC_some`; it uses the acyclicity of the forest to see that a cut higher up leaves the marks below alone). Every round of `_ExtractTop` either moves on in the degree table or melds, which removes a tree. Degrees are below the table size by the Fibonacci bound of C39. `FibHeap/AmortProps.lean` sums up over histories and bounds the table size by 2 log2 N + 3.
* **C133 — MeldableHeap: expected logarithmic cost of push, pop and meld.** Meldable/Cost.lean, Meldable/CostProps.lean. The model of C78 already counts the calls of `rand()` in its state; `avg m f` is the mean of `f` over the 2^m outcomes of `m` coins, which are fed to the operation through `coins`. `meldF_avg` is an induction over the recursion of `_meld`: one call of `rand()` costs 1 and leads to either subtree with probability 1/2, and 1 + (lg l + lg r)/2 ≤ lg(l+r+1) by the AM-GM inequality. The theorems are for every state reached by a program (the invariant comes from `run_ok`), with m at least the number of allocated nodes, so the coins never run out. `C133_depth`: the model recursion with budget 2d+2 gives the same result. Idealisation: `rand()%2` is a fair coin independent of the heap.
* **C134 — dijkstra_search takes O(m + n log n) time.** Dijkstra/Cost.lean, Dijkstra/CostProps.lean. `relaxC`, `searchC`, `dijkstraC` are the functions of C76 on the counted heap operations of C132, with one step more per loop test and per edge; `solveC_fst` drops the counter. One round of the main loop (`round_ok`, shared with C76) removes a vertex that was not removed before; with the potential of C132 the rounds add up to a sum over the vertices of 9·deg + 4·(table length) + 1, and the table of the heap is logarithmic. Same hypothesis on the weights as C76_partial (an int holds them).
* **C135 — z_algorithm is linear.** ZAlg/Time.lean. Counted copies of the functions of C19 (`loopC_fst`: dropping the counters gives the model). The end of the matched block i+j never moves back, so at most n-1 comparisons succeed and every round has at most one that fails; a copied entry moves i forward.
* **C136 — PersistentSkewbinaryList operations take logarithmic time in every version.** Skew/Cost.lean (the functions of C16 with counters of loop rounds, proved to give the same results), Skew/Canon.lean (the digits increase strictly but for the first two, in every version: kept by every operation, through both loops of `extended`), Skew/CostProps.lean. The digit at place p is at least p, and a tree of digit d has 2^d-1 elements; a loop over the digits followed by one down a tree takes p + d - 1 rounds. For `extended` the first loop raises 2·(leading digit) + [leading digits equal] in every round, the second uses each digit below log2 once, the last perhaps twice.
* **C137 — DynamicAcMachine: searching after insertions and erasures.** `DynAc/Erase.lean` models `erase` (lines 96-131: walk, id reset, lowering of `d`, passing on of the links of the removed nodes, removal of the edge) on the machine of C121; erased nodes stay in the vector, as in the code. The invariant `Gd` (`EraseRun.lean`) has a set `A` of nodes that are still in the trie; all vector entries keep labels, links of nodes in `A` lead to proper suffixes in `A`, inverse-link sets are complete for nodes in `A` (every link into a removed node is found and passed on), but may hold stale entries, which only make some links shorter. Hence soundness for every history. Under `freshRun` there are no stale entries, links are longest suffixes, and the search is exact. The specification `live` is a fold over the calls. **Violation:** `insert(abc), insert(c), insert(bc), erase(c)` no longer finds `bc` in `abc`: line 83 erases from a copy, so the node of `abc` is still in the set of `c` and erasing `c` redirects its link to the root. `erase("")` reads `s[-1]`; `erase` before the first insertion reads `nodes_[0]` of an empty vector.
* **C138 — DoubleEndedPriorityQueue keeps its documented complexities.** `Heap/DepqCost.lean` repeats the functions of C38's model with a counter for every comparison and every swap of elements; `…_fst` theorems say that dropping the counter gives the model of C38. `heap_down` from pair c runs at most log2(X/(c+1)) rounds (X pairs), the upward loops at most log2(X/(root+1))+1; for the constructor the heights are summed (`heights_le`: the sum of log2(X/x) is at most X, by halving X). `C138_calls` holds for every start vector, `C138_history` adds that the answers are those of the sorted list. Not counted: the copy of the range and `push_back` reallocation (amortised constant, standard library).
* **C139 — Listing functions of WaveletMatrix meet their documented complexities.** The loops of `top_k` and `range_list_k` (model: Wavelet/Lists.lean) run with a number of allowed rounds; `Takes f n x` says that the loop has not ended with fewer than `n` rounds and has ended with result `x` from `n` on. Wavelet/Cost.lean proves by a potential (distinct values below a node times remaining levels; for value ranges the two boundary paths are added) that at most `D*(h+1)` resp. `(W+3)*(h+1)` rounds are needed, and conversely, counting the inner nodes of the breadth-first search, that `range_min_k`/`range_max_k` need at least `2^h` rounds when all `h`-bit values occur, whatever `k`. The latter violates the documented O(k log σ) (`C139_violated`). A round counts as one step; the logarithmic cost of `std::priority_queue` in `top_k` is not counted.
* **C140 — A search with AcMachine costs time linear in the text.** AcMachine/Cost.lean repeats `chase`, `toExact`, `findAllFrom`, `findFrom`, `pushAll` with counters (calls of `_go`; evaluations of the condition of `_forward_until_data`); the `_fst` lemmas show that the results are those of the uncounted model. Potential: the length of the current label (each failure link shortens it, each letter lengthens it by at most one). `find_all`/`find` violate the linear bound because `to_exact` runs at every position without output links (`C140_violated`: key aⁿb, text aⁿ). Hash-map lookups count as one step.
* **C141 — Building the failure links of an AcMachine takes time linear in the total length of the keys.** `AcMachine/BuildCost.lean`: `kidLoopC`, `bfsC`, `buildC` are the functions of `AcMachine/Model.lean` with a counter of the calls of `_go`; `_fst` lemmas show that the counter changes nothing. The depth of the failure link of a child is at most that of its parent plus one and each call of `_go` but the last shortens it, so along a key the calls telescope to at most twice its length (`sum_take`); summing over the keys of the container pays for every node (`sum_nodes`). The keys kept are some of the inserted ones. Trusted: a look-up in an edge map is one step.
* **C142 — The Dirichlet convolutions meet their documented complexities O(n log n) and O(n log log n).** `Dirichlet/Cost.lean`: the functions of `Dirichlet/Model.lean` with a counter of the rounds of every loop (`_fst` lemmas: the counter changes nothing). `harmonic` bounds the harmonic sum by blocks between powers of two. `count_primes` gets from Mathlib's `primorial_le_four_pow` that at most 2^(k+2)/k primes lie between 2^k and 2^(k+1), so the sum of n/p over primes is at most 4n times a harmonic sum up to log n (`prime_sum_log`). The inner `while` runs once more than the exponent of p in i, and by Legendre's formula (`val_sum`) these exponents add up to at most n/p. That the marking loop of the sieve runs for primes only uses the invariant of C33. Trusted: copying and resizing vectors is linear.
* **C143 — The sparse product of Fps costs time proportional to the product of the numbers of non-zero terms.** `Fps/Cost.lean`: `mulSparseC` is `mulSparse` with a counter of the rounds of both loops and of the scan of `term_ties`. `C143_rounds_partial` gives the exact number |f| + |r| + N K for r with a non-zero term. The code violates the documented bound: the outer loop and `term_ties` visit zero coefficients too, so for x^(c+1) times 1 (N = K = 1) more than c rounds are made (`C143_violated`, for every c). What is missing from the full statement is hence false.
* **C144 — DualSparseTable::build takes O(n log n) time.** `SparseTable/Cost.lean`: `uBuildC` is `uBuild` with a counter of the rounds of the inner loop; the sum over the levels is exact (`sum_pow`). The table reached by any `apply` calls keeps its size and number of levels (`uApplyAll_shape`). Generic counting loops are in `Common/Count.lean`.
* **C145 — Fft computes the discrete Fourier transform, its inverse and polynomial products.** Model `Fft/Model.lean`: constructor, the incremental bit reversal with its xor loop, the three nested loops of butterflies, resize and the division, over a field with exact arithmetic (rounding is not modelled). `Fft/Reverse.lean` shows that the xor loop steps through the bit-reversed numbers and the conditional swaps make that permutation; `Fft/Stages.lean` that after the stage m = 2^s every block of length 2^s holds the transform of its subsequence. `Fft/Complex.lean` proves that the numbers {cos, -sin} of the program with theta0 = ±pi/m meet the hypotheses in the complex numbers. Spec: the defining sums.
* **C146 — bisect_float returns a point within eps of a change of the predicate.** `SearchFloat/Model.lean`: the loop over an ordered field, every arithmetic result passing through a rounding function; `rd64` rounds rationals to 53 significant bits, ties to even. `C146_result_partial` holds for every rounding function, `C146_exact_partial` and `C146_threshold_partial` for none. `SearchFloat/Double.lean` proves that `rd64` is monotone, idempotent, exact when halving and off by a factor of at most 2, so that the computed midpoint lies between its ends (`mid64_mem`, `C146_double_partial`); overflow and subnormal numbers are not modelled. `SearchFloat/Returns.lean`: each round shortens a bracket longer than 2^(e-52) to at most 7/8 (`mid64_shrinks`, from the error bounds `rd64_rel` and `rd64_abs`), so it returns for eps ≥ 2^(e-52); `rd64_tie` and `C146_violated_all` show that a smaller eps makes it hang at every magnitude. The code violates the property: once ok and ng are neighbouring doubles farther apart than eps, their midpoint rounds to one of them and the loop hangs (`C146_violated`: for every number of rounds). The class FibonacciSearch (search.hpp:37-97) is not modelled: its operator() is const but calls the non-const setup_fib, and it names `cmp` for the member `cmp_`, so no use of it compiles.
* **C147 — golden_ratio_search finds the maximum of a unimodal function to within eps.** `SearchFloat/Model.lean` as for C146, with both points recomputed each round and the value-initialised result pair. `golden_round`: both points lie strictly inside and the comparison keeps m in the bracket, whose length shrinks by G/(G+1) (any G > 1); the last chosen point is inside the new bracket. Spec: `Unimodal`. The code violates the property for intervals not longer than eps (`C147_violated`). `SearchFloat/GoldenDouble.lean`: with doubles (`rd64`) at 2^30 it hangs on a tent (fixed point of `gStep` after 30 rounds) and returns a point more than 700 eps from the maximum of -x.
* **C148 — SegmentTree operations take logarithmic time.** `SegTree/Cost.lean`: the loops of `SegTree/Model.lean` take a budget of rounds and are `none` if it runs out. The `_budget` lemmas show that any two budgets above the logarithmic bound give the same result (indices halve upwards and double downwards; `mrUp_out`, `mlUp_out` keep the node index positive and bound the stack by the rounds), and C04/C05 give that the result exists.
* **C149 — FenwickTree add and sum take logarithmic time.** `Fenwick/Cost.lean`: budgets as for C148. `dvd_low`: adding or subtracting the lowest bit of a multiple of 2^j gives a multiple of 2^(j+1), so after j rounds the index is a multiple of 2^j, hence past the end (add) or zero (sum) once 2^j exceeds n.
* **C150 — SparseTable and DisjointSparseTable are built with O(n log n) operator calls.** `SparseTable/BuildCost.lean`: `sBuildC`, `dBuildC` are the constructors with a counter of operator calls (`_fst` lemmas erase it); the sums over the levels are evaluated exactly (`sum_levels`, `sum_blocks`).
* **C151 — DualSegmentTree operations multiply logarithmically often.** `DualSegTree/Cost.lean`: `updateC`, `setC`, `getC` carry the number of calls of `*=`; the `_fst` lemmas erase it and give the model of C07. `Common/SegCost.lean`: `_set_ids` collects at most 2K nodes and the bottom-up loop visits at most 2K nodes when the right end is below 2^K (induction on K).
* **C152 — LazySegmentTree operations are logarithmic.** `LazySegTree/Cost.lean`: counted versions of range_update, set, query and get; the `_fst` lemmas erase the counter and give the model of C06. Bounds from `Common/SegCost.lean` as in C151, and halving of the index for the loop of set.
* **C153 — LazySegmentTree max_right and min_left are logarithmic.** `LazySegTree/SearchCost.lean`: budgets as for C148. `mrLoop_budget`, `mlLoop_budget`: the right end halves; `mrDesc_budget`, `mlDesc_budget`: the node index doubles; `mrLoop_out`, `mlLoop_out`: the node index stays positive and the stack grows by one per round at most.
