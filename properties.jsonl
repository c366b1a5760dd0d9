{"id": "C01", "title": "UnionFind realises the generated equivalence relation", "statement": "Starting from UnionFind(n), after any sequence of unite(u,v), are_union and size_of calls with arguments below n: are_union(u,v) is true exactly when u and v are connected by the pairs passed to unite so far; unite returns true exactly when its arguments were not yet connected; size_of(u) is the number of indices connected to u.", "quantifier": "every size n, every finite sequence of unite/are_union/size_of/root calls with in-range arguments", "why_tests_cant": "Path compression and union by size produce unboundedly many different parent forests; a test exercises a few call orders on a few sizes.", "anchors": ["include/mtl/unionfind.hpp: UnionFind::root, are_union, size_of, unite"]}
{"id": "C02", "title": "FenwickTree range_sum equals the sum of the recorded additions", "statement": "After constructing FenwickTree from a size or a range and any sequence of add(i,x), sum(i) is the sum of the current values at 0..i and range_sum(l,r) is the sum over [l,r), for every l<=r<=n.", "quantifier": "every size, every initial content, every history of adds, every query range, every additive commutative group", "why_tests_cant": "The low-bit jumps interact differently for every n and index; only an inductive argument on bit structure covers all n.", "anchors": ["include/mtl/fenwick_tree.hpp: FenwickTree(begin,end), add, sum, range_sum"]}
{"id": "C03", "title": "FenwickTree lower_bound finds the first prefix reaching the target", "statement": "When all stored values are non-negative and the size is positive, lower_bound(x) for x>0 returns the least index i such that the sum of values 0..i is at least x, and returns size() when the total is below x.", "quantifier": "every positive size, every non-negative content, every target x", "why_tests_cant": "The binary descent stops at a different power of two for each size; tests sample a few sizes.", "anchors": ["include/mtl/fenwick_tree.hpp: FenwickTree::lower_bound"]}
{"id": "C04", "title": "SegmentTree query is the ordered product after any history of set", "statement": "For any monoid (not necessarily commutative) and any size n (not only powers of two), after building and any sequence of set(i,x), query(l,r) equals the left-to-right product of the current values at l..r-1, and get(i) is the current value at i.", "quantifier": "every monoid, every n, every initial content, every history of sets, every 0<=l<=r<=n", "why_tests_cant": "For n not a power of two the bottom-up tree contains wrapped nodes whose values are meaningless; that they are never read is a universally quantified fact.", "anchors": ["include/mtl/segment_tree.hpp: SegmentTree(begin,end), get, set, query"]}
{"id": "C05", "title": "SegmentTree max_right / min_left find the maximal extension", "statement": "For a predicate f that is true on the identity and monotone along prefixes, max_right(b,e,f) returns the r in [b,e] such that f(product of [b,r)) holds and either r=e or f(product of [b,r+1)) fails; min_left is the mirror image.", "quantifier": "every monoid, every n, every content, every range, every monotone predicate", "why_tests_cant": "The climb/stack/descend phases take a different shape for every (b,e,n); boundary mistakes survive random tests.", "anchors": ["include/mtl/segment_tree.hpp: SegmentTree::max_right, min_left"]}
{"id": "C06", "title": "LazySegmentTree applies range updates exactly once and in order", "statement": "After any sequence of range_update(l,r,f), set(i,x), get and query calls, query(l,r) is the ordered product over [l,r) of the values obtained by applying to each initial/set value the operators whose ranges cover it, in call order.", "quantifier": "every monoid with an acting operator monoid, every size, every history of operations, every query range", "why_tests_cant": "Pending operators are parked in tree nodes; whether one is lost, duplicated or reordered depends on the interleaving, which is unbounded.", "anchors": ["include/mtl/lazy_segment_tree.hpp: LazySegmentTree::range_update, query, get, set, _propagate"]}
{"id": "C07", "title": "DualSegmentTree get returns the composition of covering updates in order", "statement": "After any sequence of update(l,r,f) and set(i,x), get(i) is x (or the identity) composed with exactly the operators whose range contains i issued after the last set, in call order, for non-commutative operators as well.", "quantifier": "every operator monoid, every size, every history, every index", "why_tests_cant": "Ordering of pending operators under partial pushes depends on the whole history.", "anchors": ["include/mtl/dual_segment_tree.hpp: DualSegmentTree::update, set, get, _propagate"]}
{"id": "C08", "title": "SegmentTreeDivideAndConquer presents to each leaf exactly the containers covering it", "statement": "In solving a divide-and-conquer segment tree, when the leaf callback runs for time t, the containers applied and not yet undone are exactly those registered by set(l,r,x) with l<=t<r, each once; undo is called once per apply in reverse order; every leaf below the size is visited in increasing order.", "quantifier": "every size, every multiset of registered ranges", "why_tests_cant": "Requires balanced apply/undo over an unbounded recursion.", "anchors": ["include/mtl/segment_tree_divide_and_conquer.hpp"]}
{"id": "C09", "title": "SparseTable query equals the fold for every idempotent associative operation", "statement": "For an associative idempotent operation, SparseTable(begin,end).query(l,r) with l<r equals the fold of the elements in [l,r).", "quantifier": "every idempotent semigroup, every length, every range", "why_tests_cant": "Overlapping power-of-two blocks are correct only by idempotence; all lengths must be covered.", "anchors": ["include/mtl/sparse_table.hpp: SparseTable"]}
{"id": "C10", "title": "DisjointSparseTable query equals the ordered fold for every associative operation", "statement": "For an associative (possibly non-commutative, non-idempotent) operation, DisjointSparseTable query(l,r) with l<r equals the left-to-right fold of [l,r).", "quantifier": "every semigroup, every length, every range", "why_tests_cant": "Correctness depends on the highest differing bit of l and r-1, for every length.", "anchors": ["include/mtl/disjoint_sparse_table.hpp: DisjointSparseTable"]}
{"id": "C11", "title": "Dual sparse tables accumulate range updates", "statement": "After any sequence of range applications and build, get(i) of DualSparseTable (idempotent commutative) and DualDisjointSparseTable (commutative) equals the fold of all values applied to ranges containing i.", "quantifier": "every suitable operation, every size, every sequence of updates", "why_tests_cant": "Push-down order over log n layers for all sizes.", "anchors": ["include/mtl/dual_sparse_table.hpp", "include/mtl/dual_disjoint_sparse_table.hpp"]}
{"id": "C12", "title": "PersistentArray versions are independent maps", "statement": "For PersistentArray, set(i,x) returns/produces a version in which get(i)=x and get(j) is unchanged for j!=i, every earlier version still answers every get as before, and unset indices give the default value.", "quantifier": "every degree M>=1, every branching history of set on any retained versions, every index", "why_tests_cant": "Sharing between versions is only wrong for particular branching histories.", "anchors": ["include/mtl/persistent_array.hpp: PersistentArray::get, set"]}
{"id": "C13", "title": "PersistentUnionFind versions are independent partitions", "statement": "For any tree of versions obtained by merge, in each version same(u,v) holds iff u and v are connected by the merges on the path to that version, size_of is the class size, and path compression in one version never changes answers of another.", "quantifier": "every branching history of merges and queries", "why_tests_cant": "Internal mutation (path compression) under persistence across unbounded version trees.", "anchors": ["include/mtl/persistent_unionfind.hpp", "include/mtl/persistent_array.hpp"]}
{"id": "C14", "title": "PersistentStack behaves as an immutable list", "statement": "push, pop, top, size, concat and reverse of PersistentStack behave as the corresponding list operations, and older versions stay unchanged.", "quantifier": "every sequence of operations on any retained versions", "why_tests_cant": "Universally quantified over branching histories.", "anchors": ["include/mtl/persistent_stack.hpp"]}
{"id": "C15", "title": "PersistentQueue stays FIFO for every branching use", "statement": "Every version of PersistentQueue ever produced by push/pop keeps representing its own FIFO sequence: front() is the oldest element not popped in that version, whatever other versions were forced meanwhile.", "quantifier": "every tree of push/pop/front operations over shared lazily evaluated nodes", "why_tests_cant": "Lazy evaluation mutates nodes shared by versions; only an invariant over all heaps covers all interleavings.", "anchors": ["include/mtl/persistent_queue.hpp: PersistentQueue::push, pop, front, Stream::next"]}
{"id": "C16", "title": "Skew-binary random-access list", "statement": "pushed/popped/get_at/updated_at/dropped/size of the skew-binary list agree with an ordinary list, and old versions are unaffected.", "quantifier": "every list length and every sequence of operations", "why_tests_cant": "The digit structure differs for every length.", "anchors": ["include/mtl/skewbinary_list.hpp"]}
{"id": "C17", "title": "Compressor is an order isomorphism onto ranks", "statement": "After build, for every added value x, the compressed index is the number of distinct added values below x; mapping back returns x; equal values share an index and order is preserved.", "quantifier": "every finite multiset of values", "why_tests_cant": "Universally quantified over inputs including duplicates.", "anchors": ["include/mtl/compress_int.hpp"]}
{"id": "C18", "title": "bisect_int returns the boundary of the predicate", "statement": "For ok != ng with f(ok) true and f(ng) false, bisect_int(ok,ng,f) terminates and returns an x between them with f(x) true and f at the neighbour of x towards ng false, even when f is not monotone; it evaluates f only strictly between ok and ng.", "quantifier": "every pair of integers in both orders and every predicate", "why_tests_cant": "Infinite input domain and arbitrary predicates.", "anchors": ["include/mtl/search.hpp: bisect_int"]}
{"id": "C19", "title": "z_algorithm computes longest common prefixes", "statement": "For every non-empty sequence s, z_algorithm(s)[i] is the length of the longest common prefix of s and its suffix at i (and n at i=0).", "quantifier": "every non-empty string over every alphabet", "why_tests_cant": "Case split between copying and extending is exercised differently by every string.", "anchors": ["include/mtl/string/z_algorithm.hpp"]}
{"id": "C20", "title": "Modular is the ring Z/mZ with canonical representatives", "statement": "For 1 <= MOD < 2^31, constructing from any long long and any combination of +,-,*,+=,-=,*=, unary minus, pow keeps val() in [0,MOD) and congruent to the integer computation, with no intermediate 64-bit overflow.", "quantifier": "every modulus in the stated range, every operand", "why_tests_cant": "Overflow and negative remainders occur only on boundary values of 2^62 pairs.", "anchors": ["include/mtl/modular.hpp: Modular"]}
{"id": "C21", "title": "Modular inverse and division", "statement": "For prime MOD, inv() of a non-zero element multiplies with it to 1, a/b*b = a for b != 0, and pow agrees with repeated multiplication for every exponent.", "quantifier": "every prime modulus, every element, every exponent", "why_tests_cant": "Depends on Fermat's little theorem, not on samples.", "anchors": ["include/mtl/modular.hpp: Modular::inv, pow, operator/="]}
{"id": "C22", "title": "Modular square roots", "statement": "For every odd prime modulus and every element a: is_square tells whether a is a square, and when it is, sqrt() terminates with r*r = a.", "quantifier": "every odd prime, every element, every choice made by the non-residue search", "why_tests_cant": "Tonelli-Shanks loops depend on 2-adic valuation of p-1; a zero argument is a special case.", "anchors": ["include/mtl/modular.hpp: is_square, sqrt"]}
{"id": "C23", "title": "Inverse table recurrence", "statement": "ModularUtil::inv(i) equals the modular inverse of i for 1 <= i < prime modulus irrespective of the order and sizes of table growth.", "quantifier": "every prime, every sequence of requests", "why_tests_cant": "Table growth order.", "anchors": ["include/mtl/modular.hpp: ModularUtil"]}
{"id": "C24", "title": "Enumeration tables give factorials and binomials", "statement": "fact(n), ifact(n), perm and cmb return n!, 1/n!, nPr and nCr modulo the prime for all 0<=r<=n<MOD in any query order.", "quantifier": "every prime, every sequence of queries with n below the prime", "why_tests_cant": "Table doubling interacts with the query order and the modulus.", "anchors": ["include/mtl/enumerate.hpp"]}
{"id": "C25", "title": "Fraction is the ordered field of rationals in lowest terms", "statement": "Values of Fraction compare and combine as rational numbers; the normal form has positive denominator and coprime parts.", "quantifier": "every pair of representable numerators/denominators", "why_tests_cant": "Sign and gcd normalisation over all integers.", "anchors": ["include/mtl/fraction.hpp"]}
{"id": "C26", "title": "BoundInt saturates", "statement": "BoundInt arithmetic equals mathematical arithmetic clamped to [0, sup].", "quantifier": "every bound and operands", "why_tests_cant": "Boundary behaviour for all bounds.", "anchors": ["include/mtl/boundint.hpp"]}
{"id": "C27", "title": "bit_manip functions meet their bit-level specification for all 64-bit words", "statement": "popcnt, ctz, clz, bit_width, bit_ceil, bit_floor, has_single_bit, bit_reverse and the byte variants return the mathematically defined value for every 64-bit input (including the documented value at 0).", "quantifier": "all 2^64 inputs", "why_tests_cant": "2^64 inputs cannot be enumerated.", "anchors": ["include/mtl/bit_manip.hpp"]}
{"id": "C28", "title": "Garner reconstruction in convolution_garner", "statement": "Given the residues of a non-negative integer x modulo the three NTT primes, the reconstruction used by convolution_garner yields x reduced modulo the target, for every x below the stated bound, even though the first mixed-radix digit may be negative.", "quantifier": "all residues triples of x below p0*p1*(p2-1), every target modulus", "why_tests_cant": "The negative-digit path occurs for about half of ~10^25 inputs.", "anchors": ["include/mtl/convolution.hpp: convolution_garner"]}
{"id": "C29", "title": "Subset zeta and Moebius transforms", "statement": "The in-place transforms compute sums over subsets and their inverse for every array of length 2^n, they are mutually inverse, and OR/AND convolution computes c[k] = sum over i|j=k (i&j=k) of a[i]b[j].", "quantifier": "every n, every commutative ring, every pair of arrays", "why_tests_cant": "The cache-oblivious loop order is unusual; correctness for all n needs induction.", "anchors": ["include/mtl/bitwise_convolution.hpp"]}
{"id": "C30", "title": "Hadamard transform and XOR convolution", "statement": "XorConvolution(a,b)[k] is the sum of a[i]b[j] over i xor j = k.", "quantifier": "every n, every pair of arrays, every supported element type", "why_tests_cant": "Induction on n; scaling factor differs by element kind.", "anchors": ["include/mtl/bitwise_convolution.hpp: HadamardTransform, BitwiseXorConvolution"]}
{"id": "C31", "title": "Subset convolution", "statement": "SubsetConvolution(a,b)[S] is the sum of a[T]b[S\\T] over subsets T of S.", "quantifier": "every n, every commutative ring", "why_tests_cant": "The rank truncation argument must hold for all n.", "anchors": ["include/mtl/subset_convolution.hpp"]}
{"id": "C32", "title": "Matrix arithmetic", "statement": "Matrix +,-,*,pow and transpose compute the mathematical matrix operations.", "quantifier": "every dimension, every commutative ring, every exponent", "why_tests_cant": "All dimensions and exponents; an operator that is wrong only for some operands escapes tests.", "anchors": ["include/mtl/matrix.hpp"]}
{"id": "C33", "title": "EratosthenesSieve returns least prime factors", "statement": "For every n, the sieve marks exactly the primes up to n and Primes lists them in increasing order.", "quantifier": "every bound n", "why_tests_cant": "All n.", "anchors": ["include/mtl/dirichlet.hpp: EratosthenesSieve, Primes"]}
{"id": "C34", "title": "bfs returns shortest distances", "statement": "bfs from s returns the number of edges of a shortest path for reachable vertices and the infinity value otherwise.", "quantifier": "every finite directed graph, every source", "why_tests_cant": "All graphs.", "anchors": ["include/mtl/graph.hpp: bfs"]}
{"id": "C35", "title": "topological_sort decides acyclicity", "statement": "topological_sort returns true exactly for acyclic graphs, and then the order lists every vertex once with all edges pointing forwards.", "quantifier": "every finite directed multigraph", "why_tests_cant": "All graphs.", "anchors": ["include/mtl/graph.hpp: topological_sort"]}
{"id": "C36", "title": "max-flow with a flow limit never exceeds the limit", "statement": "flow(s,t,limit) returns a value that is at most limit, equals min(limit, max-flow), and leaves a valid residual network.", "quantifier": "every network with non-negative capacities, every limit", "why_tests_cant": "Over-shooting depends on the bottleneck of the last augmenting path.", "anchors": ["include/mtl/max_flow.hpp: FordFulkerson::flow, Dinic::flow"]}
{"id": "C37", "title": "MeldableHeap is a priority queue for every random outcome", "statement": "push/pop/top/meld behave as operations on a multiset with top the extremum, for every outcome of the internal coin flips.", "quantifier": "every sequence of operations, every coin sequence", "why_tests_cant": "Random choices cannot be enumerated.", "anchors": ["include/mtl/meldable_heap.hpp"]}
{"id": "C38", "title": "DoubleEndedPriorityQueue", "statement": "min()/max() are the least/greatest elements of the multiset of pushed and not yet popped elements after any sequence of push/pop_min/pop_max and after heapify construction.", "quantifier": "every sequence of operations, every initial range", "why_tests_cant": "Interval heap repairs have many cases depending on size parity.", "anchors": ["include/mtl/double_ended_priority_queue.hpp"]}
{"id": "C39", "title": "FibonacciHeap top after update and erase", "statement": "After any sequence of push/update/pop/erase, top() is the live key of extremal priority.", "quantifier": "every history", "why_tests_cant": "Pointer updates on the top node occur in rare interleavings.", "anchors": ["include/mtl/fibonacci_heap.hpp"]}
{"id": "C40", "title": "Treap is a sorted set for every priority sequence", "statement": "insert/erase/find/lower_bound/upper_bound/split/absorb behave as on a sorted set and iteration is in increasing order whatever priorities the generator draws; size() is the number of elements.", "quantifier": "every history, every priority sequence", "why_tests_cant": "Random priorities give unboundedly many shapes.", "anchors": ["include/mtl/treap.hpp"]}
{"id": "C41", "title": "Bitmap / BV rank and select", "statement": "For every bit vector, rank1(i) is the number of ones before i, rank0 the number of zeros, select_b(k) the position of the k-th b or size() if absent.", "quantifier": "every bit vector of every length, however it was constructed through the public interface", "why_tests_cant": "Block/superblock boundaries and trailing bits for all lengths.", "anchors": ["include/mtl/succinct/bv.hpp: BV", "include/mtl/succinct/bitmap.hpp: Bitmap", "include/mtl/succinct/bit_vector.hpp"]}
{"id": "C42", "title": "Bitmap behaves as a vector of bool", "statement": "push_back, pop_back, resize, assign, set, get, range_set and range_get on Bitmap act as on a sequence of booleans of length size(), and its iterators support +=, -= as random access.", "quantifier": "every history of operations", "why_tests_cant": "Stale bits beyond size() only show after particular shrink/grow histories.", "anchors": ["include/mtl/succinct/bitmap.hpp: Bitmap"]}
{"id": "C43", "title": "IntVector stores independent fixed-width integers", "statement": "After any history of push_back and set on IntVector<w>, get(i) is the last value written at i modulo 2^w.", "quantifier": "every width 1..64, every history", "why_tests_cant": "Straddling words occurs only for some indices.", "anchors": ["include/mtl/succinct/int_vector.hpp"]}
{"id": "C44", "title": "TY stores increasing sequences losslessly", "statement": "If each pushed value is at least the head of its block and within the difference limit, get(i) is the i-th pushed value.", "quantifier": "every admissible sequence of every length", "why_tests_cant": "Block indexing for all lengths.", "anchors": ["include/mtl/succinct/ty.hpp"]}
{"id": "C45", "title": "WaveletMatrix queries", "statement": "get, rank, range_rank, rank_3way, range_freq, quantile, select of WaveletMatrix agree with the plain sequence for every value argument.", "quantifier": "every sequence of non-negative integers, every argument", "why_tests_cant": "All sequences; values with more bits than the maximum are a boundary case.", "anchors": ["include/mtl/succinct/wavelet_matrix.hpp"]}
{"id": "C46", "title": "LiChaoTree returns the optimum over added lines and segments", "statement": "After any sequence of add_line / add_segment_idx, get_idx(i) is the optimum over all lines covering index i evaluated at X[i].", "quantifier": "every size (not only powers of two), every increasing coordinate list, every history", "why_tests_cant": "Lines are displaced through the tree in an order depending on the whole history.", "anchors": ["include/mtl/li_chao_tree.hpp"]}
{"id": "C47", "title": "ConvexHullTrickDeque get returns the optimum", "statement": "After any valid sequence of push_back/push_front (slopes monotone), get(x) is the optimum over all pushed lines at x, for every integer x.", "quantifier": "every valid sequence of lines, every x", "why_tests_cant": "Hull pruning conditions over all line triples.", "anchors": ["include/mtl/convex_hull_trick.hpp: ConvexHullTrickDeque"]}
{"id": "C48", "title": "Mo's algorithm presents each query with exactly its window", "statement": "In MoSolver::solve every query id is reported exactly once, at that moment the elements pushed and not popped form exactly [l,r) in order, and pops only remove end elements, for whatever order the sort produces.", "quantifier": "every list of segments, every processing order", "why_tests_cant": "Order depends on a floating-point block size and unstable sort.", "anchors": ["include/mtl/mo.hpp: MoSolver::solve"]}
{"id": "C49", "title": "SegmentHld query and reverse_query", "statement": "query(l,r) is the ordered product and reverse_query(l,r) the reversed product of the current values, after any sequence of set (and update for the lazy version), whatever the weights of the tree.", "quantifier": "every tree weights, every monoid, every history", "why_tests_cant": "The tree shape depends on arbitrary weights.", "anchors": ["include/mtl/segment_hld.hpp"]}
{"id": "C50", "title": "AC machine reports every occurrence of every key", "statement": "After adding keys and build, find_all(text) reports (key, end position) exactly for all occurrences of all added keys.", "quantifier": "every list of keys in every insertion order, every text", "why_tests_cant": "Insertion-order dependent omissions.", "anchors": ["include/mtl/string/ac_machine.hpp"]}
{"id": "C51", "title": "ArbitraryModBinomial yields binomials", "statement": "ArbitraryModBinomial(n,mod)(m) is the binomial coefficient C(n,m) mod mod whenever enabled().", "quantifier": "every n, mod, m", "why_tests_cant": "All parameters.", "anchors": ["include/mtl/arbitrary_mod_binomial.hpp"]}
{"id": "C52", "title": "Formal power series division and remainder", "statement": "For polynomials f and r with invertible leading coefficient, f % r is the polynomial remainder (degree below r, congruent to f), and f / r is consistent with it.", "quantifier": "every pair of polynomials", "why_tests_cant": "All degrees.", "anchors": ["include/mtl/fps.hpp: operator/, operator%"]}
{"id": "C53", "title": "Formal power series inverse", "statement": "inv(n) of a series with invertible constant term multiplies with it to 1 modulo x^n, on the dense (Newton) and the sparse path.", "quantifier": "every series over every prime field with a supported transform; every n on the sparse path, every n up to half the largest transform length of the modulus on the dense path", "why_tests_cant": "Newton doubling invariant for all n.", "anchors": ["include/mtl/fps.hpp: inv, inv_dense, inv_sparse"]}
{"id": "C54", "title": "Number theoretic transform inverts and convolves", "statement": "intt(ntt(a)) = a for every array of power-of-two length supported by the modulus, and the NTT-based convolution returns the coefficients of the product of the two polynomials.", "quantifier": "every length, every array", "why_tests_cant": "Radix-4 butterflies over all lengths.", "anchors": ["include/mtl/ntt.hpp", "include/mtl/convolution.hpp: convolution_ntt"]}
{"id": "C55", "title": "LazySegmentTree max_right and min_left return the predicate boundary", "statement": "After any history of range_update and set, max_right(b,e,f) with f true on the identity returns r in [b,e] with f true on the product of [b,r) and, unless r=e, false on [b,r+1); min_left is the mirror image.", "quantifier": "every monoid with acting operators, every size, every history, every predicate and range", "why_tests_cant": "Whether the searched nodes still miss a pending operator depends on the whole history.", "anchors": ["include/mtl/lazy_segment_tree.hpp: max_right, min_left"]}
{"id": "C56", "title": "DirichletConvolution is the Dirichlet product", "statement": "DirichletConvolution(a,b)[m] is the sum of a[i]b[j] over ij=m for every m in 1..n, where a has n+1 entries and b at least as many.", "quantifier": "every length, every pair of arrays over a commutative semiring", "why_tests_cant": "All lengths and values.", "anchors": ["include/mtl/dirichlet.hpp: DirichletConvolution"]}
{"id": "C57", "title": "DirichletMultinomialConvolution agrees with the plain product for multiplicative a", "statement": "If a is multiplicative up to n < 2^30+3, DirichletMultinomialConvolution(a,b)[m] is the sum of a[i]b[j] over ij=m for every m in 1..n, whatever the length of b.", "quantifier": "every multiplicative a, every b", "why_tests_cant": "The in-place update over prime powers relies on an order of updates for every prime and every n.", "anchors": ["include/mtl/dirichlet.hpp: DirichletMultinomialConvolution"]}
{"id": "C58", "title": "Dirichlet convolution of summatory functions", "statement": "If two pairs hold f and g (values up to k, summatory values at N/j for j up to l, with sqrt N <= k and N <= kl), DirichletConvolveOptimal returns a pair holding f*g and DirichletConvolveZeta one holding f*1; Identity(n) and Zeta(n) hold the unit and the constant 1 whatever the rounding of pow.", "quantifier": "every N, k, l, every pair of functions over a commutative ring", "why_tests_cant": "The hyperbola split depends on N/j and its square root for all N.", "anchors": ["include/mtl/dirichlet.hpp: DirichletConvolveOptimal, DirichletConvolveZeta, Identity, Zeta"]}
{"id": "C59", "title": "SccGraph::scc returns the strongly connected components in topological order", "statement": "For every directed multigraph, scc() returns every vertex exactly once, no component is empty, two vertices are in the same component exactly if each is reachable from the other, and every edge goes from a component to the same or a later one.", "quantifier": "all vertex counts, all edge lists (loops and parallel edges included), all insertion orders", "why_tests_cant": "Tests sample a few graphs; correctness of the two-pass search depends on the finishing order for every graph and every adjacency order.", "anchors": ["include/mtl/scc.hpp:5-45"]}
{"id": "C60", "title": "MoSolver::solve_rollback reports every query with exactly its window", "statement": "For non-negative segments, MoSolver::solve_rollback reports every query id exactly once, and at that moment the elements pushed since the last init and not rolled back form exactly [l,r) in order; every rollback has a matching snapshot, whatever sorted order of the long queries and whichever block grid is used.", "quantifier": "all segment lists with 0<=l<=r, all sorted orders, both block grids", "why_tests_cant": "The number of interleavings of short and long queries, block boundaries and tie orders is unbounded; a wrong block end or an unsorted r only shows for particular segment layouts.", "anchors": ["include/mtl/mo.hpp:95-202"]}
{"id": "C61", "title": "Bipartite matching is maximum and consistent", "statement": "Matching::flow() returns the size of a maximum matching of the bipartite graph and matches() then returns the pairs of a matching of that size.", "quantifier": "every bipartite graph, including repeated edges", "why_tests_cant": "maximality quantifies over all matchings; tests compare sizes on small graphs", "anchors": ["max_flow.hpp:Matching"]}
{"id": "C62", "title": "Project selection is optimal", "statement": "PSP::solve() returns the largest total over all sets of projects (profits of the chosen projects minus the losses of pairs that are split), and selections() a set attaining it.", "quantifier": "every list of profits and losses with non-negative losses", "why_tests_cant": "optimality quantifies over exponentially many sets and relies on max-flow min-cut duality", "anchors": ["max_flow.hpp:PSP::solve", "max_flow.hpp:PSP::selections"]}
{"id": "C63", "title": "Treap emplace_hint equals insert for every hint", "statement": "emplace_hint(hint, x) has the same effect as insert(x) for every valid iterator hint: the set stays ordered, no key is inserted twice and the returned iterator points at x.", "quantifier": "every treap, hint, key and priority", "why_tests_cant": "The wrong cases depend on the shape of the tree around the hint, which the priorities decide.", "anchors": ["include/mtl/treap.hpp:246-263", "include/mtl/treap.hpp:340-343"]}
{"id": "C64", "title": "Formal power series product", "statement": "f * r of two Fps holds the coefficients of the product polynomial, whichever of the sparse and the transform algorithm is chosen.", "quantifier": "every pair of series, empty ones included, over every prime field, up to the transform length of the modulus", "why_tests_cant": "The choice depends on the number of non-zero terms of the right factor; both loops run over all lengths.", "anchors": ["include/mtl/fps.hpp", "include/mtl/convolution.hpp"]}
{"id": "C65", "title": "Logarithms of power series", "statement": "For every series f with constant term 1 and every n from 1 up to the modulus (and the sizes the transform supports), log(n), log_dense(n) and log_sparse(n) return n coefficients, those of -sum (1-f)^j/j; log(fg) = log f + log g.", "quantifier": "every prime modulus below 2^31, every series, every n", "why_tests_cant": "Which coefficients are dropped or padded depends on n relative to the length of f, and the dense and the sparse path are different algorithms.", "anchors": ["include/mtl/fps.hpp: log, log_dense, log_sparse, inline_diff, inline_inte", "include/mtl/sparse_fps.hpp: div_one"]}
{"id": "C66", "title": "Exponentials of power series", "statement": "For every series h without constant term and every n from 1 up to the modulus (and the sizes the transform supports), exp(n), exp_dense(n) and exp_sparse(n) return the coefficients of sum h^j/j! below x^n; exp(f+g) = exp f exp g and exp(log f) = f.", "quantifier": "every prime modulus below 2^31, every series, every n", "why_tests_cant": "The doubling algorithm keeps three series correct to different orders over all rounds; sizes that are not powers of two cut the last round.", "anchors": ["include/mtl/fps/exp.hpp: exp_sparse_impl, exp_dense", "include/mtl/fps.hpp: exp"]}
{"id": "C67", "title": "Powers of power series", "statement": "For every series f and every exponent 0 <= n < 2^63, pow(n) agrees with the n-fold product f*...*f in every coefficient below x^size, whatever zeros f begins with and whatever its first coefficient is.", "quantifier": "every prime modulus below 2^31, every series shorter than the modulus, every exponent", "why_tests_cant": "Exponents are too large for the product to be computed; leading zeros, leading coefficient and number of terms select different paths.", "anchors": ["include/mtl/fps/pow.hpp: pow, pow_1_sparse_impl, _pow_1_dense"]}
{"id": "C68", "title": "Square roots of power series", "statement": "For every series f over an odd prime modulus, is_square tells whether some series squares to f below x^size; if so sqrt, sqrt_dense and sqrt_sparse return one whose square agrees with f in every coefficient below x^size, otherwise they throw.", "quantifier": "every odd prime modulus below 2^31, every series shorter than the modulus", "why_tests_cant": "The answer depends on the parity of the order, on quadratic residues and on a differential equation modulo p.", "anchors": ["include/mtl/fps.hpp: sqrt, sqrt_dense, sqrt_sparse, is_square"]}
{"id": "C69", "title": "Heavy-light decomposition finds lowest common ancestors", "statement": "For every tree, given to Hld by add_edge in any order and with the ends of each edge in any order, and every root, build finishes without undefined behaviour, and lca(a, b) returns the vertex which is an ancestor of a and of b (a vertex is its own ancestor) and below every other common ancestor.", "quantifier": "all n, all trees on n vertices, all roots, all orders and directions of edges, all pairs of vertices", "why_tests_cant": "Tests use a few trees; the result depends on the order of edges (heavy child selection by swaps during iteration), the shape of chains, and the walk along chain heads.", "anchors": ["include/mtl/hld.hpp:Hld::add_edge", "include/mtl/hld.hpp:Hld::build", "include/mtl/hld.hpp:Hld::lca"]}
{"id": "C70", "title": "Path queries and updates of the heavy-light decomposition visit exactly the path, in order", "statement": "Let val(w) be stored at position in[w] of a sequence, Q(l, r) be the product of the positions l..r-1 from left to right and RQ(l, r) from right to left, in any (also non-commutative) monoid whose default-initialised element is the unit. Then query(u, v, Q, RQ, include_lca) is the product of the values along the path from u to v in this order, with or without the lowest common ancestor. If U applies a function to the positions of an interval, update(u, v, U, ...) applies it exactly once to every vertex of the path and to no other vertex.", "quantifier": "all trees, edge orders, roots, monoids, values, pairs of vertices, both values of include_lca", "why_tests_cant": "The order of the factors on the two sides of the path and the treatment of the common ancestor matter only for non-commutative operations and special positions of u and v; sample trees cannot show it for every shape.", "anchors": ["include/mtl/hld.hpp:Hld::query", "include/mtl/hld.hpp:Hld::_query", "include/mtl/hld.hpp:Hld::update"]}
{"id": "C71", "title": "Subtree intervals and subtree sums of the heavy-light decomposition", "statement": "After build, in numbers the vertices 0..n-1, rev is its inverse, and u is in the subtree of w exactly if in[w] <= in[u] < out[w]. After subtree_build on weights stored at in[w], and any sequence of subtree_point_add calls, subtree_sum(v) is the sum of the current weights in the subtree of v.", "quantifier": "all trees, edge orders, roots, weights in any commutative monoid, all sequences of additions, all vertices", "why_tests_cant": "Sums are kept on chains only, so a wrong chain length or a missed light child shows up only for particular shapes and histories.", "anchors": ["include/mtl/hld.hpp:Hld::subtree_build", "include/mtl/hld.hpp:Hld::subtree_sum", "include/mtl/hld.hpp:Hld::subtree_point_add", "include/mtl/hld.hpp:Hld::dfs_hld"]}
{"id": "C72", "title": "Paths of the heavy-light decomposition have logarithmically many pieces", "statement": "After build, 2^depth[v] times the size of the subtree of v is at most n, so that depth[v] <= log2 n, and update(u, v, U, ...) calls U at most 2 log2 n + 1 times, on intervals inside [0, n].", "quantifier": "all trees, edge orders, roots, pairs of vertices", "why_tests_cant": "It is the reason for the decomposition, and fails on adversarial trees only if a wrong child is taken as heavy child; small tests show no difference.", "anchors": ["include/mtl/hld.hpp:Hld::dfs_sz", "include/mtl/hld.hpp:Hld::update"]}
{"id": "C73", "title": "Rerooting on a tree", "statement": "After add_edge for the edges of a tree (any order, any direction) and calc(root), ReRootingGraph::dp[s][i] is the DP value of the i-th neighbour t of s when s is the parent of t: dp(t,s) = G(merge over the other neighbours w of F(dp(w,t), w), t). Hence G(merge_i F(dp[s][i], g[s][i]), s) is the value with s as root.", "quantifier": "every tree and root, every edge order, every commutative monoid merge/e, all F and G", "why_tests_cant": "The up and down passes interact over trees of unbounded size and shape; a test covers single trees and single DPs.", "anchors": ["include/mtl/rerooting.hpp:5-52", "include/mtl/graph.hpp:13-20"]}
{"id": "C74", "title": "Rerooting with edge weights", "statement": "ReRootingNetwork does the same with F(x, t, w) receiving the weight w that was passed to add_edge.", "quantifier": "every tree, every weight of type W", "why_tests_cant": "Only weights outside the range of int show the narrowing in Network::Path.", "anchors": ["include/mtl/rerooting.hpp:54-105", "include/mtl/graph.hpp:86-105"]}
{"id": "C75", "title": "Euler tour", "statement": "Graph::euler_tour(root) on a tree fills tour with 2n-1 vertices, consecutive ones adjacent in the tree; L[v] and R[v] are the first and last position of v; tour[L[v]..R[v]] holds exactly the vertices of the subtree of v; between L[u] and L[v] the tour contains the lowest common ancestor of u and v and only vertices below it.", "quantifier": "every tree, root, order and direction of the edges, also on repeated calls", "why_tests_cant": "The recursion threads a counter through trees of unbounded shape.", "anchors": ["include/mtl/graph.hpp:66-84"]}
{"id": "C76", "title": "Dijkstra's shortest paths", "statement": "Network<W>::dijkstra_search(s, dist, INF) ends with dist[v] = the least weight of a walk from s to v, or INF if there is none below INF, and the assertion dist[v] == d never fails.", "quantifier": "every directed graph with multi-edges and loops, every weight >= 0 of type W, every source, INF > 0 with INF + w representable in T", "why_tests_cant": "The interaction of decrease-key, the heap and stale distances depends on unbounded histories; only weights beyond int show the narrowing in Path.", "anchors": ["include/mtl/dijkstra.hpp:5-23", "include/mtl/graph.hpp:86-109", "include/mtl/fibonacci_heap.hpp"]}
{"id": "C77", "title": "SegmentTree2D::query returns the product over a rectangle", "statement": "For a SegmentTree2D<M> of any size n x m over a commutative monoid whose default value is the identity, and any history of set(i,j,val) within bounds, no call fails an assertion or reads outside the table, and query(rl,cl,rr,cr) with rl<=rr<=n and cl<=cr<=m returns the product of the entries whose row lies in [rl,rr) and column in [cl,cr), where an entry is the last value set there or the identity.", "quantifier": "all sizes (powers of two or not), all histories of set, all rectangles including empty ones, all commutative monoids", "why_tests_cant": "the number of rectangles and update orders grows without bound; a stale inner node shows only for rectangles that use exactly that node", "anchors": ["include/mtl/segment_tree_2d.hpp:16-36", "include/mtl/segment_tree.hpp:45-75"]}
{"id": "C78", "title": "MeldableHeap behaves as independent priority queues", "statement": "For any number of MeldableHeap objects with a strict weak order Cond, any program of push, pop, top, size, clear and meld calls, and any values returned by rand(): top and pop return a greatest value (no held value y has Cond(x,y)) of the multiset held by that heap, pop removes exactly that value, size counts, and a.meld(b) moves the content of b into a while every other heap is unaffected.", "quantifier": "all programs on any number of heaps, all rand() sequences, all strict weak orders", "why_tests_cant": "the tree shapes are random and the recursion depth unbounded; sharing of nodes between heaps shows only when a heap is used again after being melded", "anchors": ["include/mtl/meldable_heap.hpp:19-32", "include/mtl/meldable_heap.hpp:43-77"]}
{"id": "C79", "title": "MinCostFlowGraph::flow returns cheapest flows", "statement": "On a MinCostFlowGraph with edges between distinct vertices in range and no negative cycle of edges with positive capacity (in particular with non-negative costs), every call flow(s,t,limit) terminates and returns (f, c) with 0 <= f <= limit such that, together with what earlier calls with the same s, t sent, a flow of that total value and cost exists, no flow of the same value is cheaper, and f < limit only if the total is a maximum flow.", "quantifier": "all graphs, capacities, costs whose path sums fit the cost type, all limits, any number of calls", "why_tests_cant": "optimality over all flows and termination of the label-correcting search with stale potentials need an argument about all residual graphs; tests compare only a few instances", "anchors": ["include/mtl/min_cost_flow.hpp:24-27", "include/mtl/min_cost_flow.hpp:29-73"]}
{"id": "C80", "title": "Determinant", "statement": "For every matrix over a field and every n, det(n) returns the determinant (in the sense of the signed permutation sum) of the leading n x n block; it never divides by zero and never reads outside the matrix.", "quantifier": "all fields, all matrix sizes, all entries, all n <= min(R, C)", "why_tests_cant": "The value depends on the pattern of zeros met as pivots; row swaps flip the sign and singular blocks leave early. Tests cover a few matrices.", "anchors": ["include/mtl/matrix.hpp:141-168"]}
{"id": "C81", "title": "Linear systems", "statement": "solve(b, row, column) reports whether A x = b has a solution; if it has, row 0 of the result is a solution, the following k rows form a basis of the kernel of A, k is the returned dimension, and the solutions are exactly row 0 plus combinations of these rows. It never accesses memory outside its matrices.", "quantifier": "all fields, all systems, consistent or not, of every shape and rank", "why_tests_cant": "The set of solutions is infinite over most fields, and every pattern of pivot columns is a different path through the code that writes the basis.", "anchors": ["include/mtl/matrix.hpp:203-241"]}
{"id": "C82", "title": "Matrix inverse", "statement": "inv(n) returns true exactly when the leading n x n block is invertible, and then the leading block of the returned matrix is its two-sided inverse.", "quantifier": "all fields, all matrices, all n", "why_tests_cant": "Whether a matrix is singular depends on all entries at once; a wrong sign or a missed row update shows for few inputs only.", "anchors": ["include/mtl/matrix.hpp:242-262"]}
{"id": "C83", "title": "Gaussian elimination", "statement": "gaussian_elimination(row, l, r) returns the rank of the left part, leaves it in reduced row echelon form, reports the pivot columns in order in *principal, and does not change which vectors of length l + r are solutions of the homogeneous system.", "quantifier": "all fields, all matrices, all row counts and splits l + r of the columns", "why_tests_cant": "Rank and row equivalence are statements about all vectors of a space; tests compare a few results.", "anchors": ["include/mtl/matrix.hpp:170-202"]}
{"id": "C84", "title": "Link-cut tree: path products and path updates on a changing forest", "statement": "Create a LinkCutTree over a vector of values and make any sequence of calls link(u,v) on nodes of different trees, cut(u,v) on existing edges, set, update(i,f), update(u,v,f) and prod(u,v) between connected nodes. No call touches an invalid pointer, every loop ends after at most n rounds, and each prod(u,v) returns the monoid product, in order from u to v, of the current values along the simple path from u to v; update(u,v,f) applies f exactly to the nodes of that path.", "quantifier": "every monoid, every operator structure acting on it by endomorphisms, every initial vector, every finite history of legal calls", "why_tests_cant": "The answer depends on the whole history of rotations, lazy reversals and preferred-path changes; tests only sample a few histories, usually with commutative monoids where a missed reversal is invisible.", "anchors": ["include/mtl/link_cut_tree.hpp:9-41", "include/mtl/link_cut_tree.hpp:52-167", "include/mtl/splay_tree.hpp:1-119"]}
{"id": "C85", "title": "SplayTreeList behaves like a sequence", "statement": "Build a SplayTreeList from any sequence (or empty) and make any calls of insert, erase, reverse(l,r), set, update(i,f), update(l,r,f), kth_element and prod(l,r) with positions in range. No call follows a null pointer or fails an assertion, and every element or product returned is that of a plain sequence on which the same edits were made: reversals and range updates are applied to exactly the elements of [l,r), in order, also for a non-commutative monoid. prod(l,l) should be the identity.", "quantifier": "for every monoid with a lawful operator action, every initial sequence, every sequence of calls and all positions", "why_tests_cant": "Lazy reversals and range operations are pending in a tree whose shape depends on all earlier accesses; a wrong propagation order shows only for some shapes.", "anchors": ["include/mtl/splay_tree_list.hpp:105-133", "include/mtl/splay_tree_list.hpp:134-239", "include/mtl/splay_tree_list.hpp:28-60", "include/mtl/splay_tree.hpp"]}
{"id": "C86", "title": "BinaryTrie behaves like an ordered map", "statement": "A BinaryTrie (default-constructed, or built from a sorted or unsorted range) under any sequence of insert/emplace, emplace_hint, operator[], erase by key or iterator, find, lower_bound, upper_bound, ++, --, dereference, size, full iteration and clear, with keys below 2^W and valid iterators, answers exactly as an ordered map; of several range elements with one key the first is kept.", "quantifier": "all bit widths W > 0, all value types, all legal call sequences of any length, all ranges", "why_tests_cant": "Jump pointers, leaf links and child flags depend on the whole history of insertions and erasures; tests only try a few histories.", "anchors": ["include/mtl/binary_trie.hpp:60-392", "include/mtl/traits/set_traits.hpp:60-232"]}
{"id": "C87", "title": "XFastTrie behaves like an ordered map", "statement": "An XFastTrie under any sequence of the map operations, with keys below 2^W and valid iterators, answers exactly as an ordered map and never fails an internal assertion.", "quantifier": "all bit widths W > 0, all value types, all legal call sequences, all ranges", "why_tests_cant": "The hash tables of prefixes must match the nodes after every call; a missing entry shows only for particular hints.", "anchors": ["include/mtl/xft.hpp:14-134", "include/mtl/binary_trie.hpp:60-392"]}
{"id": "C88", "title": "Tries can be copied, moved and destroyed", "statement": "Copying or moving a BinaryTrie or XFastTrie (construction or assignment) gives an object with the elements of the source, and all objects involved can be destroyed.", "quantifier": "all tries reached by any legal call sequence", "why_tests_cant": "Destruction of a moved-from object happens implicitly; tests that pass do not show that it is defined.", "anchors": ["include/mtl/binary_trie.hpp:68-103", "include/mtl/xft.hpp:44-56"]}
{"id": "C89", "title": "BinaryTrie::traverse(rule) reaches the key the rule describes", "statement": "On a non-empty trie, traverse(rule) with a rule that never asks for a missing child returns an iterator to a stored key each of whose bits is the answer of the rule to the true presence of keys continuing the prefix with 0 and with 1; with the xor rule it is the stored key minimising key xor q.", "quantifier": "all bit widths, all tries reached by any legal call sequence, all rules, all q", "why_tests_cant": "The child flags after arbitrary insertions and erasures must be exact; sampled queries visit few nodes.", "anchors": ["include/mtl/binary_trie.hpp:195-205"]}
{"id": "C90", "title": "SpsExp sums over set partitions", "statement": "For A of length 2^n with A[0] = 0, n <= LIM, SpsExp(n, A) returns 2^n entries; the entry of the mask of S is the sum over all partitions of S into nonempty blocks of the product of the entries of the blocks.", "quantifier": "all n <= min(LIM, 30), all commutative rings, all vectors", "why_tests_cant": "There are super-exponentially many partitions; the ranked transforms are merged in place, with ranks above the diagonal left as garbage.", "anchors": ["include/mtl/sps.hpp:9-45", "include/mtl/sps.hpp:144-189"]}
{"id": "C91", "title": "SpsCompositionEgf composes an EGF with a set power series", "statement": "For A with A[0] = 0 and any F, SpsCompositionEgf(n, F, A) is Sum_i F_i A^i/i!: the entry of S is the sum over the partitions of S of F[number of blocks] times the product of the entries of the blocks.", "quantifier": "all n, all coefficient vectors F of any length, all A", "why_tests_cant": "Tests use an F with n+1 coefficients; shorter vectors take another path through the loops.", "anchors": ["include/mtl/sps.hpp:47-106"]}
{"id": "C92", "title": "SpsCompositionPoly composes a polynomial with a set power series", "statement": "SpsCompositionPoly(n, F, A) is Sum_i F_i A^i, where powers are for subset convolution.", "quantifier": "all n, all F, all A with any constant term", "why_tests_cant": "The result goes through shifted coefficients and factorials; tests with one constant term do not show the others.", "anchors": ["include/mtl/sps.hpp:108-137"]}
{"id": "C93", "title": "SpsLog and SpsExp are inverse", "statement": "For s[0] = 1, SpsExp(n, SpsLog(n, s)) is s (cut or zero-filled to 2^n entries); for A[0] = 0, SpsLog(n, SpsExp(n, A)) = A; also over rings where factorials are not invertible.", "quantifier": "all n <= min(LIM, 30), all commutative rings, all vectors", "why_tests_cant": "An identity over all rings and all set functions.", "anchors": ["include/mtl/sps.hpp:184-210"]}
{"id": "C94", "title": "SpsInv gives the inverse for subset convolution", "statement": "For s[0] = 1 and at most 2^n entries, the subset convolution of s and SpsInv(n, s) is 1 at the empty set and 0 elsewhere.", "quantifier": "all n <= min(LIM, 30), all commutative rings, all vectors with constant term 1", "why_tests_cant": "Needs that inverting every ranked row separately stays within the transforms of set functions, for all inputs.", "anchors": ["include/mtl/sps.hpp:336-352"]}
{"id": "C95", "title": "The transposed set power series maps are transposes", "statement": "TransposedSubsetConvolution(s, x) pairs with any a as x pairs with SubsetConvolution(a, s); TransposedSpsCompositionEgf(n, s, x)[k] is the sum over S of x[S] times the sum over partitions of S into k blocks of the product of the entries, so it pairs with F as x pairs with SpsCompositionEgf(n, F, s).", "quantifier": "all n <= min(LIM, 30), all commutative rings, all vectors", "why_tests_cant": "Duality is a statement about all arguments of the transposed map.", "anchors": ["include/mtl/sps.hpp:230-303"]}
{"id": "C96", "title": "SuffixArray sorts the suffixes", "statement": "SuffixArray(begin,end) returns every index of the range exactly once, ordered so that the suffixes starting there are strictly increasing in lexicographic order; the result does not depend on how std::sort orders equal values.", "quantifier": "all non-empty sequences of int values, all sort results", "why_tests_cant": "SA-IS recurses on a string of names whose depth and repetition depend on the input; tests sample few recursion patterns, and the narrowing cast only matters for wide element types", "anchors": ["include/mtl/string/suffix_array.hpp:138-162", "include/mtl/string/suffix_array.hpp:11-134"]}
{"id": "C97", "title": "sa_is is safe and correct on every sentinel string", "statement": "For every string whose characters are below its length and whose last character 0 occurs nowhere else, sa_is reads and writes only inside its arrays, none of its assertions fails, and it writes the suffix array, whatever the bucket buffer contained; recursion ends because at most half of the positions are LMS.", "quantifier": "all sentinel strings, all bucket buffers of sufficient size, both values of definitely_distinct_lmss (true only with distinct characters)", "why_tests_cant": "The assertions and array bounds inside the induced sort depend on the order of all suffixes; no finite test set shows they hold for all strings", "anchors": ["include/mtl/string/suffix_array.hpp:11-134"]}
{"id": "C98", "title": "ConvexHullTrick answers the optimum after any calls", "statement": "For coefficients and abscissas of absolute value at most M with 4*M*M below the maximum of T, every sequence of add, get, get_incremental and get_decremental (a line before the first query; after get_incremental(x) only abscissas >= x, after get_decremental(x) only abscissas <= x) runs without overflow, failed assert or bad iterator, and every query returns the optimum (maximum for std::less, minimum for std::greater) over all lines added so far.", "quantifier": "every sequence of calls, every M, both comparators, every abscissa", "why_tests_cant": "The hull keeps two maps in step; pruning conditions, equal slopes and sentinels interact over arbitrary line sets.", "anchors": ["include/mtl/convex_hull_trick.hpp: ConvexHullTrick"]}
{"id": "C99", "title": "Rmq returns the first position of the minimum of any range", "statement": "After constructing Rmq (RmqToLca with the default recursion height, or any height) from a nonempty range of values, rmq(l, r) with l < r <= n returns the smallest position in [l, r) at which the minimum of [l, r) is attained, for every array and every range; neither construction nor query has undefined behaviour, and rmq(l, r) with l >= r throws.", "quantifier": "all nonempty arrays of integers of any size, all recursion heights, all ranges", "why_tests_cant": "The answer goes through a Cartesian tree, its parenthesis sequence, bit-parallel word tables, select/rank and a recursive structure over 64-bit blocks whose branches depend on the array size and on where the range falls relative to block boundaries; tests cannot cover all arrays, ties and alignments.", "anchors": ["include/mtl/range_minimum_query.hpp:20-86", "include/mtl/range_minimum_query.hpp:89-165", "include/mtl/range_minimum_query.hpp:177-240", "include/mtl/range_minimum_query.hpp:242-392"]}
{"id": "C100", "title": "RRR compressed bit vector stores and returns the written bits", "statement": "For every block size s from 1 to 63: after any sequence of set(i, b) calls on a new RRR followed by one build(), no internal assertion fails, get(i) returns the value last written at i (0 if none, also beyond the end), size() is s times the number of blocks up to the last block touched, and rank1/rank0/select1/select0 of the BV built over it count exactly those bits. move_or_build of a Bitmap gives the bits of the bitmap padded with zeros to a multiple of s.", "quantifier": "All block sizes 1..63, all sequences of set calls at all positions, all bitmaps, all query positions.", "why_tests_cant": "There are 2^63 block contents, each with its own combinatorial number, plus three decoding paths (linear, binary search, shortcuts) chosen by the number of ones left; tests only sample blocks.", "anchors": ["include/mtl/succinct/rrr.hpp:25-39", "include/mtl/succinct/rrr.hpp:52-119", "include/mtl/succinct/rrr.hpp:120-174", "include/mtl/succinct/rrr.hpp:175-209", "include/mtl/succinct/rrr.hpp:242-323"]}
{"id": "C101", "title": "BinarySet answers membership, rank, i-th element and successor queries", "statement": "After build(), a BinarySet holding the inserted 32-bit values answers: size() is the number of different values, contains(x) is membership for every x, rank(x) is the number of values below x, get(i) the i-th smallest value; lower_bound(x) and upper_bound(x) return the least value not below x, above x, and where there is none a number larger than every value of the set.", "quantifier": "every list of inserted 32-bit values, every block size of the underlying RRR from 1 to 63, every argument", "why_tests_cant": "The answer depends on the compressed representation of a bit vector over a 2^32 universe; the wrap of x+1 and of the end marker appear only at values next to 2^32", "anchors": ["include/mtl/succinct/binary_set.hpp:13-69", "include/mtl/succinct/rrr.hpp", "include/mtl/succinct/bit_vector.hpp"]}
{"id": "C102", "title": "BinaryMultiset answers count, rank, i-th element and successor queries", "statement": "After build(), a BinaryMultiset answers: size() is the number of inserted values, count(x) the number of copies of x, contains(x) whether there is one, rank(x) the number of inserted values below x, get(i) the i-th value in sorted order; lower_bound(x) and upper_bound(x) return the least value not below x, above x, or a number above all values where there is none.", "quantifier": "every multiset of 32-bit values, every block size 1..63 of the RRR, every argument x", "why_tests_cant": "Values are stored in unary as a sparse bit vector; whether select0 finds a terminating zero depends on the padding of the last block, so queries above the maximum are right or wrong depending on data", "anchors": ["include/mtl/succinct/binary_set.hpp:71-147"]}
{"id": "C103", "title": "Skiplist is a sequence with insertion, removal and access by index", "statement": "After any sequence of insert_at(i,v) and erase_at(i) calls, iteration from begin() yields exactly the sequence those calls describe, size() is its length, get_at(i) returns an iterator to the i-th element (end() beyond), and each call returns an iterator to the position it changed; out-of-range indices change nothing. The heights the random generator picks are not observable.", "quantifier": "every sequence of calls, every index, every value type, every outcome of the random draws", "why_tests_cant": "The node heights are random and the span lengths at every level must stay consistent; a test only sees the heights drawn in its run, and a draw of 0 has probability 2^-32", "anchors": ["include/mtl/skiplist.hpp:18-178"]}
{"id": "C104", "title": "SkiplistSet is an ordered set with order statistics", "statement": "After any sequence of insert/emplace, erase(v) and erase_at(i) calls, the set holds exactly the values those calls describe, each once, in ascending order: iteration, size(), get_at(k) (k-th smallest), find, count, lower_bound, upper_bound/successor and predecessor agree with that; insert returns an iterator to the value and whether it was new; erase returns the iterator to the next greater value.", "quantifier": "every sequence of calls, every linearly ordered value type, every outcome of the random draws", "why_tests_cant": "Whether erase unlinks a node at all of its levels depends on the random heights of its neighbours; a test that erases after insertion passes or fails depending on the draws", "anchors": ["include/mtl/skiplist.hpp:180-339"]}
{"id": "C105", "title": "ORS counts points and sums weights over rectangles, under weight_add", "statement": "After adding any points (with weights) and build, ORS::freq(xl,xh,yl,yh) is the number of points with xl <= x < xh and yl <= y < yh, and ORS::sum is the sum of their weights, where every weight_add(x,y,dw) at an existing point counts as one more weight at (x,y); points may share coordinates.", "quantifier": "All point multisets, all sequences of weight_add, all rectangles", "why_tests_cant": "Tests use a few random instances; the answer goes through a multiset of x, a set of y, a wavelet matrix and one weight per point per level, which must stay consistent for every sequence of updates.", "anchors": ["include/mtl/ordinal_range_search.hpp:67-129", "include/mtl/ordinal_range_search.hpp:145-242"]}
{"id": "C106", "title": "ORS::enumerate lists the points of a rectangle", "statement": "ORS::enumerate(xl,xh,yl,yh) returns the coordinates of exactly the points in the rectangle, each as often as it was added.", "quantifier": "All point multisets, all rectangles", "why_tests_cant": "enumerate is not tested; whether the leaf callback is reached is a statement about all traversals.", "anchors": ["include/mtl/ordinal_range_search.hpp:145-180", "include/mtl/ordinal_range_search.hpp:244-261"]}
{"id": "C107", "title": "Bitmap with updates: get, rank and select after any sets", "statement": "After constructing a Bitmap (from a size, or from a range of booleans) and any sequence of set(i, b), get(i) is the last value written at i, rank(i) is the number of 1s before position i (for all i up to the size), and select(k) is the position of the (k+1)-th 1 whenever there are more than k.", "quantifier": "all sizes below 2^31, initial contents, sequences of updates, and query arguments", "why_tests_cant": "The block counts are kept in a Fenwick tree updated by differences and select combines a descent of the tree, a SWAR prefix count of bytes and a table; an error shows only for particular bit patterns, block boundaries or update orders.", "anchors": ["include/mtl/bitmap.hpp", "include/mtl/fenwick_tree.hpp"]}
{"id": "C108", "title": "WaveletTree queries agree with the plain sequence", "statement": "For a WaveletTree built from a sequence S of non-negative integers: get(i) = S[i]; rank(c, i), rank_lower(c, i) and rank_3way(c, i) count the elements of S[0, i) equal to, less than, and less/equal/greater than c; select(c, i) is the position of the i-th c or n; enumerate(l, r) lists the distinct values of S[l, r) in increasing order with their multiplicities.", "quantifier": "all sequences of values below 2^64, all positions, ranges and value arguments", "why_tests_cant": "The level-by-level stable partition and the node boundaries interact with rank/select of one long bit vector; errors show only for particular value distributions, e.g. when a node is empty or all values agree on high bits.", "anchors": ["include/mtl/succinct/wavelet_tree.hpp", "include/mtl/succinct/bit_vector.hpp"]}
{"id": "C109", "title": "Y-fast trie is a sorted map for every history of calls", "statement": "However a YFastTrieMap is built (empty or from any range) and whatever sequence of insert, emplace_hint with lower_bound as hint, operator[], erase by key or iterator, find, lower_bound, upper_bound, begin, end, ++, --, *it, it->second = v, size, clear and iteration follows, every call returns what a std::map restricted to keys below 2^W returns, whatever the random pivot choices and treap priorities; size() is the number of elements and iteration is in increasing key order.", "quantifier": "all key widths W > 0, all value types, all histories, all random draws, all ranges", "why_tests_cant": "Bucket splits and merges depend on random draws; the X-fast trie, the treaps and the iterators over both have to agree after any interleaving, which tests sample only for one seed.", "anchors": ["include/mtl/yft.hpp:37-303", "include/mtl/xft.hpp", "include/mtl/treap.hpp", "include/mtl/traits/set_traits.hpp:210-231"]}
{"id": "C110", "title": "Copies and moves of a Y-fast trie are maps with the same elements", "statement": "A copy of a Y-fast trie made at any point has the same elements as the original and behaves like a sorted map under every further history; copy assignment and moves give the same, and the source of a move can be destroyed.", "quantifier": "all reachable states, all further histories", "why_tests_cant": "Every copied structure has its own search tables and internal iterators; that none of them is left pointing at the source shows only in later calls that use it.", "anchors": ["include/mtl/yft.hpp:53-67", "include/mtl/xft.hpp:44-60"]}
{"id": "C111", "title": "WaveletMatrix listing queries", "statement": "For every sequence S of non-negative values, a WaveletMatrix built from S lists the distinct values of any range S[l,r) with their frequencies: range_list_k<ASC>(l,r,k,x,y) returns the k smallest (or largest) values in [x,y) in increasing (decreasing) order, range_list(l,r,x,y) all of them, range_min_k(l,r,k) and range_max_k(l,r,k) the k smallest and largest of all values; every frequency is the number of occurrences in S[l,r), no value is missing or repeated, and nothing is read out of range.", "quantifier": "all sequences, heights, ranges l <= r <= n, k, x, y and signed/unsigned value types", "why_tests_cant": "the listing is a breadth-first search over the bit planes with pruning by shifted bounds; an error shows only for particular combinations of bounds, levels and k, which no finite set of tests covers", "anchors": ["include/mtl/succinct/wavelet_matrix.hpp:291-343"]}
{"id": "C112", "title": "WaveletMatrix top_k and sum", "statement": "For every sequence S of non-negative values and every range, WaveletMatrix::top_k(l,r,k) returns k distinct values of S[l,r) (all, if there are fewer) with their frequencies, in order of non-increasing frequency, such that no other value of the range is more frequent than those returned; and sum<U>(l,r) is the sum of S[l,r) computed in U.", "quantifier": "all sequences, heights, ranges l <= r <= n, k, and result types U that are commutative semirings", "why_tests_cant": "the best-first search stops early, so correctness depends on the order in which a priority queue of bit-plane segments is emptied for every distribution of frequencies", "anchors": ["include/mtl/succinct/wavelet_matrix.hpp:256-289"]}
{"id": "C113", "title": "primitive_root is a primitive root", "statement": "For every prime m that fits in int, math::primitive_root<m> (primitive_root_constexpr(m)) is a primitive root modulo m: every non-zero residue is a power of it with exactly one exponent below m-1; the computation neither overflows int or long long, nor overruns the 20-entry divisor array, nor loops forever. Hence NTT convolution is correct for every prime modulus whose m-1 is divisible by a large enough power of two, not only for the tabulated moduli.", "quantifier": "all primes m < 2^31", "why_tests_cant": "there are about 10^8 such primes; the trial division runs with a changing bound in int arithmetic close to overflow, and a missed prime factor would yield a wrong root for only a few of them", "anchors": ["include/mtl/modular.hpp:291-343", "include/mtl/ntt.hpp:28-36"]}
{"id": "C114", "title": "convolution_garner multiplies modulo any modulus", "statement": "For a modulus 0 < m < 2^31, prime or not, and two vectors of residues modulo m, convolution_garner returns the coefficients of the product modulo m (possibly followed by zeros); it returns an empty vector if one of them is empty.", "quantifier": "all moduli below 2^31, all vectors with n+m-1 <= 2^24", "why_tests_cant": "The result is assembled from three transforms modulo different primes whose result lengths must agree; a wrong reconstruction shows only for coefficients near the bound, for moduli chosen by the user.", "anchors": ["include/mtl/convolution.hpp:137-169"]}
{"id": "C115", "title": "convolution_large multiplies beyond the transform length", "statement": "For a modulus p with primitive root and two vectors of any length, also longer than the largest power of two dividing p-1, convolution_large returns the coefficients of the product modulo p.", "quantifier": "all primes below 2^31, all vectors with n+m <= 2^31", "why_tests_cant": "The vectors are cut into blocks only when they exceed the transform length, 2^23 for the usual modulus; tests at that size cover few block shapes.", "anchors": ["include/mtl/convolution.hpp:171-210"]}
{"id": "C116", "title": "convolution of int vectors returns integer coefficients", "statement": "convolution on two vectors of int returns the coefficients of the product over the integers whenever they fit into an int, whatever the lengths.", "quantifier": "all pairs of int vectors", "why_tests_cant": "Short vectors use a plain double loop, longer ones a transform modulo 998244353: the result type is the same but the range of correct values differs, which only sufficiently long inputs with large or negative values show.", "anchors": ["include/mtl/convolution.hpp:7-24", "include/mtl/convolution.hpp:103-115", "include/mtl/convolution.hpp:117-135"]}
{"id": "C117", "title": "SparseFps represents and operates on power series", "statement": "A SparseFps built from terms, coefficients or an Fps denotes that series; to_fps gives it back; == decides equality of series; adding, subtracting, multiplying and dividing by constants, multiplying with an Fps, inv(n), division of an Fps and inline_diff compute the corresponding series modulo the prime.", "quantifier": "all sorted term vectors with reduced coefficients, all Fps, all prime moduli below 2^31, all n", "why_tests_cant": "The result depends on which exponents and zero coefficients are stored: operations leave zero terms behind, exponents may be 0 or huge, and constant terms may or may not be stored; tests with a few dense examples do not reach these representations.", "anchors": ["include/mtl/sparse_fps.hpp:13-90", "include/mtl/sparse_fps.hpp:161-236", "include/mtl/sparse_fps.hpp:259-294"]}
{"id": "C118", "title": "SparseFps exp and pow", "statement": "exp(n) returns the first n coefficients of the exponential of a sparse series without constant term; pow(x, n) returns the first n coefficients of its x-th power, for every x >= 0.", "quantifier": "all sorted term vectors, all prime moduli below 2^31 with a full table of inverses, all n up to the modulus, all exponents x below 2^63", "why_tests_cant": "The recurrences divide by every index and branch on the lowest stored exponent and coefficient; only particular combinations of exponents, leading zeros, x and n show a wrong branch.", "anchors": ["include/mtl/fps/exp.hpp:83-122", "include/mtl/fps/pow.hpp:70-106", "include/mtl/sparse_fps.hpp:251-257"]}
{"id": "C119", "title": "Elementary operators of Fps are the ring operations", "statement": "==, normalize, pre, +, -, unary -, operations with constants, dot, << and >> of Fps compute on the represented power series whatever the lengths and trailing zeros; f *= f squares f.", "quantifier": "all coefficient vectors, constants, shift distances, prime moduli below 2^31", "why_tests_cant": "Lengths differ and vectors alias; the in-place shift moves overlapping elements, and the evaluation order of f *= f is unspecified, so a passing test on one compiler proves nothing about another.", "anchors": ["include/mtl/fps.hpp:24-145", "include/mtl/fps.hpp:188-211", "include/mtl/fps.hpp:362-381"]}
{"id": "C120", "title": "AcMachine::all_output lists, for every state, the keys that end there", "statement": "After any insertions and build, all_output does not fail, and its entry at the state that an iterator reaches after pushing a text lists exactly the stored keys that end the text, with their values, the longest first.", "quantifier": "every list of insertions, every text, every iteration order of the hash maps", "why_tests_cant": "The lists depend on all chains of failure links; a wrong link is visible only for particular overlaps of keys.", "anchors": ["include/mtl/string/ac_machine.hpp:136-145", "include/mtl/string/ac_machine.hpp:157-169"]}
{"id": "C121", "title": "DynamicAcMachine finds every occurrence of every key after every insertion", "statement": "After each insert, find_all(text) reports exactly the occurrences of all inserted keys: at each end position, the inserted pairs whose keys end there; nothing is reported that does not occur.", "quantifier": "every sequence of insertions in every order, every text, every iteration order of the hash sets", "why_tests_cant": "The incremental update of failure links depends on the order of insertions and on overlaps of keys; a stale link is seen only with particular triples of keys.", "anchors": ["include/mtl/string/dynamic_ac_machine.hpp:6-94"]}
{"id": "C122", "title": "TransposedSpsCompositionPoly projects the powers of a set power series", "statement": "TransposedSpsCompositionPoly(s, x, m) returns m values, the k-th being the sum over all subsets S of x[S] times the entry of S in the k-th power of s for subset convolution; in particular s may have a constant term.", "quantifier": "every prime modulus with enough roots of unity, every n within LIM, every m with n+m within the transform length, all vectors s and x", "why_tests_cant": "The result combines the composition of exponential series, inverse factorials and a transform; a wrong factor shows only for certain k, constant terms and overlaps of sets.", "anchors": ["include/mtl/sps.hpp:305-334"]}
{"id": "C123", "title": "Iterators of DualSegmentTree behave as positions in the represented sequence", "statement": "Iterators obtained from begin()/end() of a DualSegmentTree and moved by ++, --, += and -= within [begin, end] read, at every position, the element get() would return there, and assignment through an iterator replaces exactly that element; an iterator stays valid until the next update.", "quantifier": "all trees, monoids, and histories of update/set/get mixed with any number of iterators created, moved, read and written", "why_tests_cant": "Pending operators are pushed down lazily while the iterator moves; whether the value at the new position is up to date depends on the update history, the size and the path taken, which finitely many traversals cannot cover.", "anchors": ["include/mtl/dual_segment_tree.hpp:209-274"]}
{"id": "C124", "title": "X-fast trie of integer_set.hpp is a sorted map for every history of calls", "statement": "Whatever sequence of emplace, emplace_hint with any valid iterator as hint, erase by key or iterator, find/count/contains, lower_bound, upper_bound/successor, predecessor, increments and decrements of iterators, reading values, size, range-for and clear is applied to a new _XFastTrie<T, BITS> (XFastTrieSet, XFastTrieMap of integer_set.hpp), each call is defined and answers as a sorted map would: emplace keeps the first value of a key, lower_bound and upper_bound give the least fitting key, predecessor the greatest smaller one, erase returns the iterator after the erased element, and the loop lists all elements in ascending order.", "quantifier": "all key widths 1..64, all keys, values and hints, all legal call sequences of any length, all value types", "why_tests_cant": "Each inner node holds threads to leaves that every insertion and deletion has to repair on the whole path; whether they are right depends on the order of all earlier calls, and tests with a few keys meet neither the emptied trie nor the key beyond the maximum nor the 64-bit shift.", "anchors": ["include/mtl/integer_set.hpp:11-343"]}
{"id": "C125", "title": "Y-fast trie of integer_set.hpp is a sorted set for every history of calls", "statement": "Whatever sequence of insert/emplace (one key, a range, an initializer list), emplace_hint with any valid iterator as hint, erase by key or iterator, find/count/contains, lower_bound, upper_bound/successor, predecessor, begin, end, increments, decrements and dereferences of iterators, size, range-for and clear is applied to a new YFastTrieSet<BITS> of integer_set.hpp, each call is defined and answers as a sorted set would, whatever the random pivot choices and treap priorities: erase returns the iterator after the erased element, or lower_bound of an absent key.", "quantifier": "all key widths 1..64, all keys and hints, all random draws, all legal call sequences of any length", "why_tests_cant": "Bucket splits and merges depend on random draws with probability 1/BITS; a test run with one seed meets only a few pivots, and hardly ever uses the iterator that erase returns for one.", "anchors": ["include/mtl/integer_set.hpp:346-609", "include/mtl/treap.hpp"]}
{"id": "C126", "title": "TreapMultiset is a sorted sequence with equal keys allowed", "statement": "A TreapMultiset (treap.hpp with UniqueKey = false) holds exactly the inserted and not erased values in non-decreasing order: insert(x) puts x behind its equals, emplace_hint near the place of x inserts x in order, erase(x) removes one x, erase(it) and erase(b, e) remove those elements and return the following iterator, find/lower_bound/upper_bound/predecessor/count and iterator steps answer from that sequence (lower_bound is the first element not less than x, count the number of equals), split/absorb/copy cut, join and copy it, iterators stay at their element, and size() is the number of elements.", "quantifier": "For all finite histories of calls on any number of multisets, all keys of a linear order (any multiplicities), all priorities drawn, all valid iterators.", "why_tests_cant": "The shape of the tree depends on random priorities and on the order of rotations; equal keys end on both sides of a node after a rotation, so that errors show only for some priorities (lower_bound of a duplicate depends on which duplicate is the higher node); tests see a few draws.", "anchors": ["include/mtl/treap.hpp:224-263", "include/mtl/treap.hpp:273-327", "include/mtl/treap.hpp:370-438", "include/mtl/treap.hpp:580-581"]}
{"id": "C127", "title": "A treap is balanced by its priorities, whatever is done to it", "statement": "After any sequence of operations on treaps (insert with or without hint, erase by key, iterator or range, split, absorb, copy, assignment through iterators), with any priorities drawn, no node has a smaller priority than its parent. If priorities are distinct, the shape of the tree depends only on which keys are present and which priority each got at its insertion, not on the order of operations; find(x) looks at exactly the keys whose priority is the least among the keys between them and x. Hence, over all orders of the priorities of n keys inserted in any order, find of the a-th key looks at H(a+1)+H(n-a)-1 keys on average, which is at most 1+2 log2 n.", "quantifier": "all key orders, all histories over any number of treaps, all priorities; the average is over all n! orders of the priorities, for every n, key and insertion order", "why_tests_cant": "A wrong rotation condition keeps the set correct and only degrades the tree to a list on some histories; tests of contents never see it, and timing tests cannot cover all histories.", "anchors": ["include/mtl/treap.hpp:134-217", "include/mtl/treap.hpp:224-263", "include/mtl/treap.hpp:370-438", "include/mtl/treap.hpp:273-284"]}
{"id": "C128", "title": "Union-find trees stay logarithmically shallow", "statement": "After any sequence of unite/same/size_of calls on UnionFind(n), the chain of parents from an element to the root of its set has k steps with 2^k at most the size of the set, hence k <= log2 n, and root() returns within log2 n + 1 nested calls. The same stack depth suffices for leader() in every version of a PersistentUnionFind over n elements, for any branching history.", "quantifier": "every n, every history of valid calls, every element, every version", "why_tests_cant": "Depth is a worst case over all orders of unions; a union that attaches the larger set to the smaller one answers every query correctly and only overflows the stack on an adversarial order.", "anchors": ["include/mtl/unionfind.hpp:15-19", "include/mtl/unionfind.hpp:29-37", "include/mtl/persistent_unionfind.hpp"]}
{"id": "C129", "title": "SplayTreeList calls are logarithmic, amortised", "statement": "Build a SplayTreeList from a sequence of n elements and make any m valid calls (insert, erase, reverse, set, update, range update, kth_element, prod of a non-empty range). The loops of kth_element and splay run at most 4n + m(18 log2(n+m) + 5) rounds when the largest loop of each call is counted (a call has at most five loops), and the recursion of the constructor is at most log2 n + 2 deep.", "quantifier": "every initial sequence, every history of valid calls, every monoid and operator type", "why_tests_cant": "A single call may take linear time, so only a worst case over all histories separates an amortised logarithm from quadratic behaviour; a splay that rotates in the wrong order (single rotations) or a descent without splay answers every query correctly.", "anchors": ["include/mtl/splay_tree_list.hpp:28-40", "include/mtl/splay_tree_list.hpp:105-239", "include/mtl/splay_tree.hpp:65-118"]}
{"id": "C130", "title": "Dinic needs at most |V| rounds, whatever the capacities", "statement": "Dinic::flow finds the maximum flow within |V| rounds (level graph plus augmentation), so that its running time depends on the numbers of vertices and edges and not on the capacities.", "quantifier": "every network (parallel edges allowed), every capacity, every sequence of add_edge and flow calls", "why_tests_cant": "a test shows the number of rounds for one network; the bound needs the argument that the sink moves away from the source, and bad inputs are rare", "anchors": ["include/mtl/max_flow.hpp: Dinic::flow, Dinic::dfs (line 82)"]}
{"id": "C131", "title": "Mo's algorithm moves the window O(n sqrt q) times", "statement": "With q queries whose right ends are at most n > 0 and the block size ceil(n / sqrt q), MoSolver::solve calls the four window callbacks at most 2 n floor(sqrt q) + 5 n + q times in total, and MoSolver::solve_rollback calls its push callbacks at most 2 n floor(sqrt q) + 3 n + q times, whichever of the two block grids is chosen and however the sort breaks ties.", "quantifier": "all segment lists with 0<=l<=r and some r>0, both block grids, all sorted orders", "why_tests_cant": "The running time is what makes the algorithm usable; a test sees only some layouts of the segments, while the worst case depends on how left ends cluster in blocks and how right ends alternate.", "anchors": ["include/mtl/mo.hpp: calc_mos_move", "include/mtl/mo.hpp: MoSolver::solve", "include/mtl/mo.hpp: MoSolver::solve_rollback"]}
{"id": "C132", "title": "FibonacciHeap operations have amortised constant and logarithmic cost", "statement": "Starting from an empty FibonacciHeap for N keys, every history of p calls of push/update and r calls of pop/erase takes at most 8 p + (8 floor(log2 N) + 12) r steps, a step being an operation, a cut (_Consolidate call), an expanded child, a meld, or a round of _ExtractTop; in every reachable state one push/update costs at most 8 plus, and one pop/erase at most 4 times the size of the degree table plus, the decrease of a potential.", "quantifier": "all strict weak orders, all N, all histories of push/update, pop and erase of a key not on top", "why_tests_cant": "The cost bound is a statement about sequences; a single pop may take linear time and only the sum over an arbitrary history is bounded, and cascading cuts need adversarial update orders to show up.", "anchors": ["include/mtl/fibonacci_heap.hpp: FibonacciHeap::push/update", "include/mtl/fibonacci_heap.hpp: FibonacciHeap::pop/erase", "include/mtl/fibonacci_heap.hpp: _Consolidate, _ExtractTop, _ExpandChildren"]}
{"id": "C133", "title": "MeldableHeap: expected logarithmic cost of push, pop and meld", "statement": "After any program on any number of MeldableHeap objects (melded-in heaps are cleared, see C78) and any outcome of the earlier calls of rand(), with fair independent coins for the coming calls: push on a heap of n values calls rand() at most log2(n+1)+1 times on average, pop at most 2 log2(n+1)-2 times, meld of heaps with n1 and n2 values at most log2(n1+1)+log2(n2+1) times. The shape of the heaps plays no part: the bound holds even for a heap that earlier coins made a path. A _meld with d calls of rand() recurses at most 2d+2 deep, so these bounds are bounds on time and stack up to a constant.", "quantifier": "all programs, all earlier random outcomes, all heap shapes and sizes, all strict weak orders; the average is over all outcomes of the coming coins", "why_tests_cant": "An expectation over all coin sequences and every reachable heap shape cannot be established by runs; a single run with a bad outcome legitimately takes linear time.", "anchors": ["include/mtl/meldable_heap.hpp:19-32", "include/mtl/meldable_heap.hpp:43-70"]}
{"id": "C134", "title": "dijkstra_search takes O(m + n log n) time", "statement": "On every directed graph with n vertices and m edges (parallel edges and loops included) with non-negative weights that fit in an int, for every source and INF > 0, dijkstra_search takes at most 9m + (8 floor(log2 n) + 13)n + 9 steps, where a step is a test of the main loop, a look at one edge, or an elementary step of the FibonacciHeap (as in C132): every vertex leaves the heap at most once, every edge is looked at at most once, and raising a key in the heap is amortised constant.", "quantifier": "all graphs, all weights, all sources, all orders in which edges were added", "why_tests_cant": "Tests time a few graphs; a worst-case bound over all graphs needs both that no vertex re-enters the heap and the amortised heap analysis over every possible sequence of key changes.", "anchors": ["include/mtl/dijkstra.hpp:5-23", "include/mtl/fibonacci_heap.hpp:74-138", "include/mtl/graph.hpp:98-105"]}
{"id": "C135", "title": "z_algorithm is linear", "statement": "On every non-empty sequence of length n, z_algorithm compares at most 2(n-1) pairs of elements, runs its main loop at most n-1 times, and tests the condition of its inner copying loop at most n-1 times.", "quantifier": "all element types with decidable equality, all sequences, all lengths", "why_tests_cant": "A quadratic slip (such as comparing again inside the matched block) shows only on repetitive inputs of particular shape; a worst-case bound over all sequences cannot be tested.", "anchors": ["include/mtl/string/z_algorithm.hpp:5-30"]}
{"id": "C136", "title": "PersistentSkewbinaryList operations take logarithmic time in every version", "statement": "After every history of pushed, popped, updated_at, dropped and extended on arbitrary earlier versions (with the two excluded uses of C16), in every version of length n, with L = floor(log2(n+1)): there are at most L+1 digits, get_at(i) and updated_at(i, v) run their loops fewer than 2L times, dropped(i) at most 2L+1 times, and extended(m, v) at most 3 floor(log2(n+m+1)) + 1 times, however large m is. pushed and popped have no loop.", "quantifier": "all histories branching from any version, all lengths, all indices, all element types", "why_tests_cant": "The digits must stay canonical after every mix of operations, also after extended, which builds lumps; a slip there leaves all results right and only makes some later version slow.", "anchors": ["include/mtl/skewbinary_list.hpp:88-263"]}
{"id": "C137", "title": "DynamicAcMachine: searching after insertions and erasures", "statement": "After an insert and any further insert and erase calls (of non-empty keys) on a DynamicAcMachine, find_all reports exactly the occurrences of the keys that are in the machine: no erased key, no missed key, and no call reads outside of a vector.", "quantifier": "all key types, all histories of insert and erase starting with an insert, all visiting orders of the hash sets, all texts", "why_tests_cant": "whether a fail link still points into the trie after an erase depends on the whole history of links; stale entries of the inverse-link sets show up only for particular orders of overlapping keys", "anchors": ["include/mtl/string/dynamic_ac_machine.hpp:96-131", "include/mtl/string/dynamic_ac_machine.hpp:28-94"]}
{"id": "C138", "title": "DoubleEndedPriorityQueue keeps its documented complexities", "statement": "The constructor from n elements does O(n) comparisons and swaps of elements, push, pop_min and pop_max O(log n) each, and min, max, size and empty none (double_ended_priority_queue.hpp:8-16), in every history of calls.", "quantifier": "all linearly ordered element types, all start ranges, all histories of calls", "why_tests_cant": "a test measures particular inputs; the worst case over all vectors and the constant cannot be observed by running the code", "anchors": ["include/mtl/double_ended_priority_queue.hpp:7-16", "include/mtl/double_ended_priority_queue.hpp:28-44", "include/mtl/double_ended_priority_queue.hpp:46-126"]}
{"id": "C139", "title": "Listing functions of WaveletMatrix meet their documented complexities", "statement": "For every sequence and every non-empty range [l, r): the loop of top_k(l, r, k), hence of sum(l, r), runs O(min(r-l, sigma) log sigma) rounds (documented for sum); range_list(l, r, x, y) runs O(k log sigma) rounds where k is the number of values returned; and range_list_k, range_min_k and range_max_k run O(k log sigma) rounds where k is the requested number of values.", "quantifier": "all sequences of values below 2^64, all heights that hold them, all ranges, all k, all value intervals", "why_tests_cant": "A unit test sees the results, not the number of nodes visited; that a request for k values costs work proportional to k and not to the size of the alphabet is a statement about all inputs.", "anchors": ["include/mtl/succinct/wavelet_matrix.hpp:282", "include/mtl/succinct/wavelet_matrix.hpp:291-326", "include/mtl/succinct/wavelet_matrix.hpp:256-281"]}
{"id": "C140", "title": "A search with AcMachine costs time linear in the text", "statement": "In a built machine, reading a text of n letters makes O(n) transitions in total (amortised constant per push), find_suffix(text) takes O(n) steps, and find_all(text) and find(text) take O(n + number of results) steps, whatever the keys.", "quantifier": "all key sets, all orders of insertion, all iteration orders of the edge maps, all texts", "why_tests_cant": "The cost of single pushes varies with the failure links; the amortised bound and its failure concern all machines and texts, and tests observe only results.", "anchors": ["include/mtl/string/ac_machine.hpp:180-188", "include/mtl/string/ac_machine.hpp:205-211", "include/mtl/string/ac_machine.hpp:222-253"]}
{"id": "C141", "title": "Building the failure links of an AcMachine takes time linear in the total length of the keys", "statement": "After any insertions, build() calls _go while computing the failure links at most twice the total number of letters of the inserted keys, and visits each node of the trie (at most one more than that number of letters) once, whatever the order of iteration over the edge maps.", "quantifier": "all alphabets, all key sequences (with duplicates, prefixes, empty keys, earlier rebuilds), all iteration orders of the edge maps", "why_tests_cant": "The bound is amortised over the depth of the failure links along every key; a test measures the time of some key sets, not that no key set makes the chains of failure links quadratic.", "anchors": ["include/mtl/string/ac_machine.hpp:95-116"]}
{"id": "C142", "title": "The Dirichlet convolutions meet their documented complexities O(n log n) and O(n log log n)", "statement": "On sequences of sizes n+1 (within the sizes for which the int arithmetic is defined), DirichletConvolution makes at most n (floor(log2 n) + 2) loop rounds in all, and DirichletMultinomialConvolution with a multiplicative sequence makes at most 22 n (floor(log2(floor(log2 n))) + 1) loop rounds in all, the rounds of the sieve and of the prime list included.", "quantifier": "all n, all coefficient types and sequences", "why_tests_cant": "The growth rate is a statement about all n; that the primes are rare enough for n log log n is a theorem of number theory (Chebyshev's bound), which no timing of some sizes establishes.", "anchors": ["include/mtl/dirichlet.hpp:6-32", "include/mtl/dirichlet.hpp:34-48", "include/mtl/dirichlet.hpp:50-79"]}
{"id": "C143", "title": "The sparse product of Fps costs time proportional to the product of the numbers of non-zero terms", "statement": "Multiplying a series with N non-zero terms by one with K non-zero terms with the sparse algorithm of operator*= takes O(N K) time, as its comment documents.", "quantifier": "all moduli below 2^31, all series", "why_tests_cant": "Sparse series of every length and number of terms are infinitely many; a timing of dense or short factors does not show the scan over the zero coefficients.", "anchors": ["include/mtl/fps.hpp:110-116", "include/mtl/fps.hpp:122-134"]}
{"id": "C144", "title": "DualSparseTable::build takes O(n log n) time", "statement": "After any apply calls on a table of n > 0 elements with an idempotent commutative operation, build() runs its inner loop (two operator calls) exactly n L + 1 - 2^L times for L = floor(log2 n), so at most n log2 n times.", "quantifier": "all sizes, operations and histories of apply calls", "why_tests_cant": "An exact count for every n is an infinite family of cases; tests time some sizes.", "anchors": ["include/mtl/dual_sparse_table.hpp:34-46"]}
{"id": "C145", "title": "Fft computes the discrete Fourier transform, its inverse and polynomial products", "statement": "In exact arithmetic: Fft(size) has the least power of two n >= size as its size; fft(f) cuts or pads f to length n and returns the n sums of f[t] e^(-2 pi i k t / n); ifft(F) returns the n sums of F[k] e^(2 pi i k t / n) divided by n; ifft(fft(f)) is f cut or padded; if |f| + |g| - 1 <= n then ifft of the pointwise product of fft(f) and fft(g) is the product of the polynomials f and g. No access is out of range.", "quantifier": "all sizes and all complex vectors", "why_tests_cant": "Tests compare a few transforms up to an epsilon; the identity over all vectors and all powers of two needs the induction over the stages and the bit reversal.", "anchors": ["include/mtl/fft.hpp:13-17", "include/mtl/fft.hpp:21-41", "include/mtl/fft.hpp:44-75"]}
{"id": "C146", "title": "bisect_float returns a point within eps of a change of the predicate", "statement": "For doubles ok, ng with fn(ok) true and fn(ng) false, and the default eps or any eps > 0, bisect_float(ok, ng, fn, eps) terminates and returns an x with fn(x) true such that fn fails at some y with |x - y| <= eps; x and y lie between ok and ng.", "quantifier": "all doubles ok, ng, all predicates and eps > 0", "why_tests_cant": "Tests call it on intervals near 1, where doubles are dense; the loop hangs where neighbouring doubles are farther apart than eps.", "anchors": ["include/mtl/search.hpp:24-35", "include/mtl/search.hpp:9"]}
{"id": "C147", "title": "golden_ratio_search finds the maximum of a unimodal function to within eps", "statement": "In exact arithmetic: for l <= r, eps > 0 and fn that increases strictly up to m in [l, r] and decreases strictly after it, golden_ratio_search(l, r, fn, eps) and trisect_float return a point of [l, r] at distance at most eps from m, together with the value of fn there.", "quantifier": "all intervals, unimodal functions into a linear order, and eps > 0", "why_tests_cant": "Tests run a few parabolas; the bracket invariant must hold for every unimodal function and every interval, also the shortest.", "anchors": ["include/mtl/search.hpp:99-124"]}
{"id": "C148", "title": "SegmentTree operations take logarithmic time", "statement": "On a SegmentTree of n >= 1 elements reached by any construction and set calls, with L = floor(log2 n): set recomputes at most L + 1 inner nodes, query makes at most L + 2 rounds of its loop, and max_right and min_left make at most L + 2 rounds upwards, keep at most L + 2 entries on their stack, and make at most L + 1 rounds downwards.", "quantifier": "all sizes n >= 1, histories, ranges and predicates", "why_tests_cant": "Timing some sizes does not bound the rounds for every size, range and predicate.", "anchors": ["include/mtl/segment_tree.hpp:46-55", "include/mtl/segment_tree.hpp:68-75", "include/mtl/segment_tree.hpp:77-147"]}
{"id": "C149", "title": "FenwickTree add and sum take logarithmic time", "statement": "On a FenwickTree of n elements, 1 <= n < 2^63 - 1, reached by any construction and additions, add(i, x) and sum(i) with i < n make at most floor(log2 n) + 1 rounds of their loops.", "quantifier": "all sizes, histories and indices", "why_tests_cant": "The number of rounds depends on the bits of the index and the size; tests time some of them.", "anchors": ["include/mtl/fenwick_tree.hpp:30-33", "include/mtl/fenwick_tree.hpp:35-40"]}
{"id": "C150", "title": "SparseTable and DisjointSparseTable are built with O(n log n) operator calls", "statement": "The constructor of SparseTable on n >= 1 elements calls the operator exactly (n+1) L + 2 - 2^(L+1) times, L = floor(log2 n). The constructor of DisjointSparseTable calls it exactly L 2^L + 2 - 2^(L+1) times, with 2^L the least power of two that is at least n.", "quantifier": "all element sequences and associative operations (idempotent ones for SparseTable)", "why_tests_cant": "Counts for some sizes do not determine the count for every size.", "anchors": ["include/mtl/sparse_table.hpp:17-31", "include/mtl/disjoint_sparse_table.hpp:13-30"]}
{"id": "C151", "title": "DualSegmentTree operations multiply logarithmically often", "statement": "On a DualSegmentTree of n elements, with L = floor(log2 n), every update multiplies elements of M at most 6(L+2) times, every set and get at most 4(L+2) times, in any state reached by earlier calls; m calls together multiply at most 6m(L+2) times and give the answers of the plain sequence.", "quantifier": "all monoids, all n with 2n < 2^64, all histories of update, set and get meeting their asserts", "why_tests_cant": "A test measures the work on a few sizes and histories; the bound has to hold for every size (also not a power of two), every range and every distribution of pending operators.", "anchors": ["include/mtl/dual_segment_tree.hpp:50-110"]}
{"id": "C152", "title": "LazySegmentTree operations are logarithmic", "statement": "On a lazy segment tree with size_ = n (a power of two), with L = floor(log2 n), in any state: range_update makes at most 10(L+2) node operations, set at most 3(L+2), query at most 4(L+2) and get at most 2(L+2)+1. A node operation is a call of _propagate, a composition onto a node or a recomputation of a node from its children.", "quantifier": "all monoids and operators, all sizes with 2n < 2^64, all trees (states), all ranges and indices", "why_tests_cant": "A test measures the work on a few sizes and histories; the bound has to hold for every size, every range and every distribution of pending operators.", "anchors": ["include/mtl/lazy_segment_tree.hpp:53-150"]}
{"id": "C153", "title": "LazySegmentTree max_right and min_left are logarithmic", "statement": "On a lazy segment tree with size_ = n >= 1, with L = floor(log2 n), in any state and for any predicate: max_right and min_left make at most L+2 rounds upwards and at most L+1 rounds downwards, and their stack never holds more than L+2 entries.", "quantifier": "all monoids, operators and predicates (also non-monotone), all sizes, all trees (states), all begin and all end <= n", "why_tests_cant": "A test measures the work on a few sizes and predicates; the bound has to hold for every size, range, predicate and distribution of pending operators.", "anchors": ["include/mtl/lazy_segment_tree.hpp:153-243"]}
