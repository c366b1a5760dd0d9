{
 "claims": [
  {
   "property": "C01",
   "status": "proved",
   "theorems": [
    "Verif.UnionFind.C01_are_union",
    "Verif.UnionFind.C01_unite_result",
    "Verif.UnionFind.C01_size_of",
    "Verif.UnionFind.C01_root"
   ],
   "note": "All histories of valid calls; int overflow of par_ not modelled (sizes below 2^31)."
  },
  {
   "property": "C02",
   "status": "proved",
   "theorems": [
    "Verif.Fenwick.C02_sum",
    "Verif.Fenwick.C02_range_sum"
   ],
   "note": "Any commutative monoid / group T; sizes below 2^63-1."
  },
  {
   "property": "C03",
   "status": "proved",
   "theorems": [
    "Verif.Fenwick.C03_lower_bound"
   ],
   "note": "Ordered commutative monoid with non-negative values; for size 0 the shift amount starts at -1 so the loop is not entered."
  },
  {
   "property": "C04",
   "status": "proved",
   "theorems": [
    "Verif.SegTree.C04_query_get"
   ],
   "note": "Any monoid, any size."
  },
  {
   "property": "C05",
   "status": "proved",
   "theorems": [
    "Verif.SegTree.C05_max_right",
    "Verif.SegTree.C05_max_right_maximal",
    "Verif.SegTree.C05_min_left",
    "Verif.SegTree.C05_min_left_maximal"
   ],
   "note": "Includes absence of out-of-range reads and of assertion failures; boundary needs no monotonicity."
  },
  {
   "property": "C06",
   "status": "partial",
   "theorems": [
    "Verif.LazySegTree.C06_history_partial",
    "Verif.LazySegTree.C06_history_size_partial",
    "Verif.LazySegTree.C06_capacity",
    "Verif.LazySegTree.C06_violated_set_get",
    "Verif.LazySegTree.C06_violated_set_query"
   ],
   "note": "All histories of range_update/get/query, with set before the first range_update. set after a range_update is wrong in the code (leaf's and siblings' pending operators not flushed): two witnesses."
  },
  {
   "property": "C07",
   "status": "proved",
   "theorems": [
    "Verif.DualSegTree.C07_history",
    "Verif.DualSegTree.C07_history_size"
   ],
   "note": "update, set, get and _propagate/_set_ids modelled for every size (not only powers of two); every history gives the answers of a plain list, and fails only on a call's own assert. Iterators: C123."
  },
  {
   "property": "C08",
   "status": "proved",
   "theorems": [
    "Verif.SegDnC.C08_dfs"
   ],
   "note": "Any number of instants and any registered ranges within them; the containers are lists to which set appends one item, callbacks are replayed on a stack by a separate specification."
  },
  {
   "property": "C09",
   "status": "proved",
   "theorems": [
    "Verif.SparseTable.C09_query"
   ],
   "note": "SparseTable, all sizes and ranges, idempotent associative operation."
  },
  {
   "property": "C10",
   "status": "proved",
   "theorems": [
    "Verif.SparseTable.C10_query"
   ],
   "note": "DisjointSparseTable, all sizes and ranges, associative operation."
  },
  {
   "property": "C100",
   "status": "proved",
   "theorems": [
    "Verif.Rrr.C100_rrr",
    "Verif.Rrr.C100_ofBitmap"
   ],
   "note": "The binomial table, both decoders and the encoder (including the complement path for dense blocks) are proved against the rank of a bit string among those with the same length and number of ones; build against the concatenation of the encoded blocks. One build() per object (a second build() is not modelled by the theorem)."
  },
  {
   "property": "C101",
   "status": "partial",
   "theorems": [
    "Verif.BinSet.C101_set_partial",
    "Verif.BinSet.C101_upper_bound_violated",
    "Verif.BinSet.C101_end_violated"
   ],
   "note": "All queries are proved for all inputs except upper_bound(2^32-1), which wraps and returns the minimum, and the past-the-end value when the number of bits exceeds 2^32 (truncated to a small number); both are proved to be violations."
  },
  {
   "property": "C102",
   "status": "partial",
   "theorems": [
    "Verif.BinSet.C102_multiset_partial",
    "Verif.BinSet.C102_violated",
    "Verif.BinSet.C102_upper_bound_violated"
   ],
   "note": "size, rank and get for all inputs; count and contains for x up to the number of zero bits; lower/upper_bound where an element exists. Beyond that the code is wrong: with the single value 62 contains(63) is true, count(64) is 2^64-1, lower_bound(63) is 62; upper_bound(2^32-1) wraps."
  },
  {
   "property": "C103",
   "status": "partial",
   "theorems": [
    "Verif.Skip.C103_skiplist_partial",
    "Verif.Skip.C103_violated"
   ],
   "note": "Full behaviour (iteration, size, get_at, returned iterators, after any history) for all draws except 0. A draw of 0 gives height 64 = __builtin_ctzll(0) (undefined) and indexing beyond the head's 33 levels; shown by C103_violated."
  },
  {
   "property": "C104",
   "status": "partial",
   "theorems": [
    "Verif.Skip.C104_set_partial",
    "Verif.Skip.C104_violated"
   ],
   "note": "All queries and returned values after any history of insert, erase_at and erase(v), except draws of 0 and erase(v) of a value whose predecessor node is lower than its own node. In that case the code leaves the node linked on the low levels (size decreases, the value is still found): C104_violated."
  },
  {
   "property": "C105",
   "status": "partial",
   "theorems": [
    "Verif.Ors.C105_freq_partial",
    "Verif.Ors.C105_sum_partial",
    "Verif.Ors.C105_shift_violated",
    "Verif.Ors.C105_empty_violated",
    "Verif.Ors.C105_negative_violated",
    "Verif.Ors.C105_missing_point"
   ],
   "note": "freq and sum after any weight_adds at points, for ORS<int,W>, coordinates and bounds in [0,2^31), 1 to 2^31-1 points (freq: also 0), assuming 1ull << -1 gives 2^63. The code has undefined behaviour there (C105_shift_violated), divides by zero without points, and converts negative bounds to uint32_t."
  },
  {
   "property": "C106",
   "status": "partial",
   "theorems": [
    "Verif.Ors.C106_enumerate_partial",
    "Verif.Ors.C106_enumerate_violated"
   ],
   "note": "enumerate always returns the empty list (the leaf callback is never reached: at the last level every node is inside or outside), so it is right exactly when the rectangle has no points; both directions proved for all inputs."
  },
  {
   "property": "C107",
   "status": "partial",
   "theorems": [
    "Verif.DynBitmap.C107_bitmap_partial",
    "Verif.DynBitmap.C107_rank_end_violated",
    "Verif.DynBitmap.C107_init_violated",
    "Verif.DynBitmap.C107_select_end_violated"
   ],
   "note": "Proved for both working constructors and all updates, except rank(size) when the size is a positive multiple of 64, which reads past the array (proved for all contents). Bitmap(size, true) is refuted: its counts stay 0."
  },
  {
   "property": "C108",
   "status": "partial",
   "theorems": [
    "Verif.WTree.C108_partial",
    "Verif.WTree.C108_zero_violated",
    "Verif.WTree.C108_violated"
   ],
   "note": "Proved for every sequence with a non-zero element and value arguments below 2^h (h the bit length of the maximum); refuted for all-zero sequences (constructor writes out of bounds, all lengths) and for larger value arguments (high bits ignored). range_freq does not compile."
  },
  {
   "property": "C109",
   "status": "partial",
   "theorems": [
    "Verif.Yft.C109_yfast_partial",
    "Verif.Yft.C109_largest_key_loses_elements",
    "Verif.Yft.C109_range_counts_duplicates",
    "Verif.Yft.C109_wrong_hint"
   ],
   "note": "Proved for all widths, histories and draws except two cases where the code is wrong: inserting the key 2^W-1 when its node is drawn as pivot drops the whole last bucket, and a sorted range with duplicate keys is counted with duplicates (both proved by witnesses). A hint other than lower_bound(x) is outside the claim; the witness shows it corrupts the map. Iterators kept across a modifying call are outside the claim."
  },
  {
   "property": "C11",
   "status": "proved",
   "theorems": [
    "Verif.SparseTable.C11_dual_sparse",
    "Verif.SparseTable.C11_dual_disjoint"
   ],
   "note": "Both dual tables, any sequence of apply calls."
  },
  {
   "property": "C110",
   "status": "partial",
   "theorems": [
    "Verif.Yft.C110_copy_partial",
    "Verif.Yft.C110_copy_assignment_undefined",
    "Verif.Yft.C110_move_breaks",
    "Verif.Yft.C110_moved_from_destroy"
   ],
   "note": "Copy construction is proved. Copy assignment is undefined for all operands, a moved map loses its search tables and the moved-from map cannot be destroyed (proved)."
  },
  {
   "property": "C111",
   "status": "partial",
   "theorems": [
    "Verif.Wavelet.C111_listing_partial",
    "Verif.Wavelet.C111_violated"
   ],
   "note": "Proved for non-empty sequences, k > 0, y > 0 for wide unsigned value types, and not the empty range at the end with height 1; the excluded cases fail (witnesses)."
  },
  {
   "property": "C112",
   "status": "partial",
   "theorems": [
    "Verif.Wavelet.C112_top_k_sum_partial",
    "Verif.Wavelet.C112_violated"
   ],
   "note": "Proved for non-empty sequences, k > 0, and for top_k not the empty range at the end with height 1; the excluded cases fail (witnesses)."
  },
  {
   "property": "C113",
   "status": "proved",
   "theorems": [
    "Verif.PrimRoot.C113_primitive_root",
    "Verif.PrimRoot.C113_convolution"
   ],
   "note": "All primes below 2^31, tabulated or searched."
  },
  {
   "property": "C114",
   "status": "proved",
   "theorems": [
    "Verif.ConvBig.C114_garner"
   ],
   "note": "Composition of the transforms of C54 with the reconstruction of C28; the lengths of the three results are shown to agree and the coefficients to lie below the reconstruction bound."
  },
  {
   "property": "C115",
   "status": "partial",
   "theorems": [
    "Verif.ConvBig.C115_large_partial",
    "Verif.ConvBig.C115_violated"
   ],
   "note": "All odd primes below 2^31. Violated for the tabulated modulus 2: ctz(Mod-1) = 0 and the shift amount 0u-1 is undefined (C115_violated)."
  },
  {
   "property": "C116",
   "status": "partial",
   "theorems": [
    "Verif.ConvBig.C116_ints_partial",
    "Verif.ConvBig.C116_violated",
    "Verif.ConvBig.C116_violated_large"
   ],
   "note": "Proved for non-negative vectors whose product coefficients are below 998244353. Violated in general: vectors with more than 60 entries get residues modulo 998244353 instead of negative or larger coefficients."
  },
  {
   "property": "C117",
   "status": "partial",
   "theorems": [
    "Verif.SparseFps.C117_construct",
    "Verif.SparseFps.C117_to_fps",
    "Verif.SparseFps.C117_eq_partial",
    "Verif.SparseFps.C117_violated_eq",
    "Verif.SparseFps.C117_scalar",
    "Verif.SparseFps.C117_mul",
    "Verif.SparseFps.C117_inv",
    "Verif.SparseFps.C117_div",
    "Verif.SparseFps.C117_diff_partial",
    "Verif.SparseFps.C117_violated_diff"
   ],
   "note": "Violated: == is wrong if a zero coefficient is stored ({1}-1 against {}); inline_diff of a series with constant term stores exponent 2^64-1. The remaining operations are proved for all sorted term vectors. Members that do not compile (pre, +, -, * of two sparse series, diff, inte, log) are left out."
  },
  {
   "property": "C118",
   "status": "partial",
   "theorems": [
    "Verif.SparseFps.C118_exp_partial",
    "Verif.SparseFps.C118_violated_exp",
    "Verif.SparseFps.C118_pow_partial",
    "Verif.SparseFps.C118_violated_pow",
    "Verif.SparseFps.C118_violated_pow0"
   ],
   "note": "Violated: exp truncates exponents to int (2^32+1 is treated as 1); pow is wrong if the vector starts with a stored zero coefficient and writes out of bounds for n=0. Proved for exponents up to 2^31 (exp), and for n>0 without stored leading zero (pow)."
  },
  {
   "property": "C119",
   "status": "partial",
   "theorems": [
    "Verif.Fps.C119_eq",
    "Verif.Fps.C119_normalize",
    "Verif.Fps.C119_pre",
    "Verif.Fps.C119_add_sub",
    "Verif.Fps.C119_constants",
    "Verif.Fps.C119_dot",
    "Verif.Fps.C119_shift",
    "Verif.Fps.C119_self_partial",
    "Verif.Fps.C119_violated"
   ],
   "note": "All operators proved; f *= f only if f has fewer than 100 terms or the second argument is initialised first (order unspecified in C++), with a 130-term witness otherwise."
  },
  {
   "property": "C12",
   "status": "proved",
   "theorems": [
    "Verif.Persistent.C12_versions"
   ],
   "note": "heap model of shared nodes; every version of any branching history of set keeps reading its own contents"
  },
  {
   "property": "C120",
   "status": "proved",
   "theorems": [
    "Verif.AcMachine.C120_all_output"
   ],
   "note": "All insertions, all texts, all iteration orders of the hash maps. As in C50 a key that is a beginning of an earlier key is not stored (kept)."
  },
  {
   "property": "C121",
   "status": "partial",
   "theorems": [
    "Verif.DynAc.C121_sound",
    "Verif.DynAc.C121_complete_partial",
    "Verif.DynAc.C121_exact_partial",
    "Verif.DynAc.C121_violated",
    "Verif.DynAc.C121_violated_empty"
   ],
   "note": "Soundness for all insertion sequences; completeness under FreshOrder (a beginning of a key occurs inside an earlier key only if it is a beginning of an earlier key). The full property is false: lines 82-83 erase from a copy of the node, so after abc, bc, c the key bc is missed (C121_violated). erase is not part of this property."
  },
  {
   "property": "C122",
   "status": "proved",
   "theorems": [
    "Verif.Sps.C122_trans_poly"
   ],
   "note": "T = Modular<p>. Composed from the models of TransposedSpsCompositionEgf (C95, over the residues) and convolution_ntt (C54)."
  },
  {
   "property": "C123",
   "status": "partial",
   "theorems": [
    "Verif.DualSegTree.C123_iterators_partial",
    "Verif.DualSegTree.C123_iterators_size_partial",
    "Verif.DualSegTree.C123_range_for_partial",
    "Verif.DualSegTree.C123_violated_plus",
    "Verif.DualSegTree.C123_violated_postfix"
   ],
   "note": "Proved for prefix ++ and -- (any number of iterators, interleaved with get, set and update; range-for visits exactly the represented list). The code violates the statement for += 2 and for postfix ++ (stale reads, witnesses given)."
  },
  {
   "property": "C124",
   "status": "partial",
   "theorems": [
    "Verif.IntSet.C124_history_partial",
    "Verif.IntSet.C124_history_fails",
    "Verif.IntSet.C124_erase_last",
    "Verif.IntSet.C124_lost_element",
    "Verif.IntSet.C124_erase_result_fails",
    "Verif.IntSet.C124_erase_absent_fails",
    "Verif.IntSet.C124_hint_fails"
   ],
   "note": "The code violates the property in four ways, each shown by a witness: erasing the only element leaves null pointers in the root (C124_erase_last for every reachable trie with one element, C124_history_fails, C124_lost_element), erase returns the previous element, erase of a key above all stored keys reads the key of end(), and emplace_hint into an empty trie of 64-bit keys shifts by 64. C124_history_partial covers every other history: the last element is not erased, an absent key is erased only below the greatest stored one, with 64-bit keys a hint is given only for a key that shares its top bit with a stored one, and the iterator erase returns is that of the previous element. Not covered: insert of an lvalue, range insertion and copying, which do not compile (lines 148, 220, 246)."
  },
  {
   "property": "C125",
   "status": "partial",
   "theorems": [
    "Verif.IntSetY.C125_history_partial",
    "Verif.IntSetY.C125_history_fails",
    "Verif.IntSetY.C125_erase_result_fails",
    "Verif.IntSetY.C125_erase_result_back",
    "Verif.IntSetY.C125_erase_absent_fails",
    "Verif.IntSetY.C125_first_pivot_fails"
   ],
   "note": "Proved for all histories except three kinds of calls in which the code fails (witnesses proved). (1) The iterator returned by erase of an element that is a pivot and not the largest key: xft_.erase returns the leaf before, and the treap iterator is the sentinel of a dropped treap or, when the next treap was empty, the smallest key moved there; the erasure itself is right, so histories that do not use the result are covered. (2) erase(x) of an absent key greater than all stored keys reads the uninitialised key of end(). (3) With BITS = 64, the default, a new pivot whose top bit no pivot has (the first one below 2^63) makes the X-fast trie shift by 64. YFastTrieMAP does not compile when something is inserted and is not covered."
  },
  {
   "property": "C126",
   "status": "partial",
   "theorems": [
    "Verif.TreapM.C126_history_partial",
    "Verif.TreapM.C126_lower_fails",
    "Verif.TreapM.C126_count_fails",
    "Verif.TreapM.C126_range_fails",
    "Verif.TreapM.C126_join_fails",
    "Verif.TreapM.C126_erase_end_fails",
    "Verif.TreapM.C126_hint_fails"
   ],
   "note": "Every allowed history follows the specification (order, positions, results, size without split/range erase).  False, with witnesses: lower_bound of a key that occurs several times is the highest such node, not the first; count is at most 1; erase(b, e) and absorb assert when equal keys meet; the iterator of erase(b, end()) and size() after range erase; emplace_hint with a bad hint."
  },
  {
   "property": "C127",
   "status": "proved",
   "theorems": [
    "Verif.TreapShape.C127_heap",
    "Verif.TreapShape.C127_shape",
    "Verif.TreapShape.C127_path",
    "Verif.TreapShape.C127_average",
    "Verif.TreapShape.C127_insert_average"
   ],
   "note": "All histories of the C40 model. The average is a finite sum over the n! orders of the priorities; that the random engine draws all orders equally often is outside the model."
  },
  {
   "property": "C128",
   "status": "proved",
   "theorems": [
    "Verif.UnionFind.C128_depth",
    "Verif.Persistent.UF.C13_versions"
   ],
   "note": "C128_depth covers UnionFind; for the persistent variant C13_versions runs every program with any recursion budget K > log2 n and shows it ends without overflow."
  },
  {
   "property": "C129",
   "status": "proved",
   "theorems": [
    "Verif.SplayList.C129_amortized",
    "Verif.SplayList.C129_default"
   ],
   "note": "Over the C85 heap model; budgets are the fuel of each call, which bounds the rounds of each of its loops. prod on an empty range is excluded (C85_prod_empty_range)."
  },
  {
   "property": "C13",
   "status": "proved",
   "theorems": [
    "Verif.Persistent.UF.C13_versions"
   ],
   "note": "over the heap model of PersistentArray; branching programs of leader/size_of/same/merge/copy; recursion budget of leader: any K > log2 n"
  },
  {
   "property": "C130",
   "status": "partial",
   "theorems": [
    "Verif.MaxFlow.C130_rounds_partial",
    "Verif.MaxFlow.C130_max_flow_partial",
    "Verif.MaxFlow.C130_violated",
    "Verif.MaxFlow.C130_violated_simple"
   ],
   "note": "Proved: every flow call ends within (|V|-1)|E|+1 rounds, independent of capacities. The bound |V| is violated by the code: the loop at line 82 advances the arc iterator past an arc that still has capacity, so a round need not block all shortest paths (3 vertices, 6 rounds)."
  },
  {
   "property": "C131",
   "status": "proved",
   "theorems": [
    "Verif.Mo.C131_moves",
    "Verif.Mo.C131_blocks",
    "Verif.Mo.C131_rollback_moves",
    "Verif.Mo.C131_rollback"
   ],
   "note": "Moves are counted in the trace of callback calls of the model of C48/C60. C131_blocks and C131_rollback hold for every block size b > 0; C131_moves and C131_rollback_moves take b as the exact ceiling of n / sqrt q (IsCeil), rounding of the double computation is not modelled. All right ends zero is excluded: there b = 0 and the code divides by zero (C48_zero, C60_zero)."
  },
  {
   "property": "C132",
   "status": "proved",
   "theorems": [
    "Verif.FibHeap.C132_history",
    "Verif.FibHeap.C132_amortised"
   ],
   "note": "Steps are counted by versions of the model functions with a counter, proved to return the same heaps (pushC_fst, popC_fst, eraseC_fst). Histories that erase the key on top are excluded (that call leaves a broken heap, C39_violation). The logarithm is in the capacity N given to the constructor, not in the current size, because _ExtractTop scans the whole degree table."
  },
  {
   "property": "C133",
   "status": "proved",
   "theorems": [
    "Verif.Meldable.C133_push",
    "Verif.Meldable.C133_pop",
    "Verif.Meldable.C133_meld",
    "Verif.Meldable.C133_depth"
   ],
   "note": "Expectation over fair coins of the coming operation, for every state reached by a program; rand()%2 is idealised as a fair independent coin."
  },
  {
   "property": "C134",
   "status": "proved",
   "theorems": [
    "Verif.Dijkstra.C134_dijkstra_time"
   ],
   "note": "Steps counted in solveC, proved equal to the model of C76 after dropping the counter; dist.assign and the constructors of heap and graph (loops over n and m) are not counted."
  },
  {
   "property": "C135",
   "status": "proved",
   "theorems": [
    "Verif.ZAlg.C135_linear"
   ],
   "note": "Counters proved not to change the result."
  },
  {
   "property": "C136",
   "status": "proved",
   "theorems": [
    "Verif.Skew.C136_logarithmic"
   ],
   "note": "For the histories that C16_versions_partial covers; the others hit null dereferences."
  },
  {
   "property": "C137",
   "status": "partial",
   "theorems": [
    "Verif.DynAc.C137_sound",
    "Verif.DynAc.C137_exact_partial",
    "Verif.DynAc.C137_violated",
    "Verif.DynAc.C137_violated_before",
    "Verif.DynAc.C137_violated_empty",
    "Verif.DynAc.C137_violated_new"
   ],
   "note": "Soundness for all histories (no UB, only true reports of live keys); exactness when every inserted key's beginnings occur inside live keys only as beginnings. Otherwise false: insert abc, c, bc; erase c loses bc (witness), because insert erases from a copy of the inverse-link set. erase(\"\") and erase on a never-filled machine are UB (proved)."
  },
  {
   "property": "C138",
   "status": "proved",
   "theorems": [
    "Verif.Depq.C138_build",
    "Verif.Depq.C138_calls",
    "Verif.Depq.C138_history"
   ],
   "note": "Constructor at most 15n+7 comparisons and swaps; push at most 4 log2(n+1)+6, pops at most 7 log2 n + 7, other calls 0; for every vector and history, also those after the faulty constructor (C38)."
  },
  {
   "property": "C139",
   "status": "partial",
   "theorems": [
    "Verif.Wavelet.C139_rounds_partial",
    "Verif.Wavelet.C139_violated"
   ],
   "note": "The bounds of sum/top_k and range_list are proved, with explicit constants, in rounds of the loops. The bound documented for range_list_k, range_min_k and range_max_k in terms of the requested k is violated: the std::queue makes the search breadth-first, so for all h-bit values the request for one value takes at least 2^h rounds (C139_violated)."
  },
  {
   "property": "C14",
   "status": "proved",
   "theorems": [
    "Verif.Persistent.Stack.C14_versions"
   ],
   "note": "heap of shared nodes; branching histories of push/pop/concat/reverse"
  },
  {
   "property": "C140",
   "status": "partial",
   "theorems": [
    "Verif.AcMachine.C140_search_partial",
    "Verif.AcMachine.C140_violated"
   ],
   "note": "Transitions are at most 2n in every search and find_suffix is linear. find_all and find are not linear: to_exact walks the failure links at every position; the bound (min(longest key, n) + 1) n is proved and C140_violated shows n(n+3)/2 steps with no result for every n."
  },
  {
   "property": "C141",
   "status": "proved",
   "theorems": [
    "Verif.AcMachine.C141_build_linear"
   ],
   "note": "counts the calls of _go in lines 110-111; map look-ups are one step each"
  },
  {
   "property": "C142",
   "status": "proved",
   "theorems": [
    "Verif.Dirichlet.C142_convolution",
    "Verif.Dirichlet.C142_multinomial"
   ],
   "note": "counts the rounds of all loops; sizes as in C56 and C57 (int must not overflow); allocation and copying of the vectors are linear and not counted"
  },
  {
   "property": "C143",
   "status": "partial",
   "theorems": [
    "Verif.Fps.C143_rounds_partial",
    "Verif.Fps.C143_violated"
   ],
   "note": "exactly N K multiplications, but |f| + |r| + N K loop rounds; the documented O(N K) is false for sparse factors (proved for every constant)"
  },
  {
   "property": "C144",
   "status": "proved",
   "theorems": [
    "Verif.SparseTable.C144_build"
   ],
   "note": "apply has no loop and two operator calls, which is visible in the model"
  },
  {
   "property": "C145",
   "status": "proved",
   "theorems": [
    "Verif.Fft.C145_size",
    "Verif.Fft.C145_fft",
    "Verif.Fft.C145_ifft",
    "Verif.Fft.C145_round_trip",
    "Verif.Fft.C145_product",
    "Verif.Fft.C145_complex_fft",
    "Verif.Fft.C145_complex_ifft",
    "Verif.Fft.C145_complex_round_trip",
    "Verif.Fft.C145_complex_product"
   ],
   "note": "Exact arithmetic, as the statement says: rounding of double and of cos/sin is not modelled. The general theorems are over any field with a tower of 2-power roots of unity; the complex ones instantiate them with the program's cos/sin factors."
  },
  {
   "property": "C146",
   "status": "partial",
   "theorems": [
    "Verif.SearchFloat.C146_result_partial",
    "Verif.SearchFloat.C146_double_partial",
    "Verif.SearchFloat.C146_returns_partial",
    "Verif.SearchFloat.C146_default_partial",
    "Verif.SearchFloat.C146_exact_partial",
    "Verif.SearchFloat.C146_threshold_partial",
    "Verif.SearchFloat.C146_violated",
    "Verif.SearchFloat.C146_violated_all"
   ],
   "note": "Termination is false for doubles: bisect_float(2^30, 2^30+1, x <= 2^30) with the default eps never returns (C146_violated, with a model of IEEE rounding to nearest even, unbounded exponents), and likewise for every magnitude 2^e when eps < 2^(e-52) (C146_violated_all). For |ok|, |ng| <= 2^e and eps >= 2^(e-52) it returns (C146_returns_partial; with the default eps up to 2^22 within 275 rounds, C146_default_partial). If it returns, the result is right for every rounding (C146_result_partial), and with doubles x and y lie between ok and ng (C146_double_partial). In exact arithmetic it always returns."
  },
  {
   "property": "C147",
   "status": "partial",
   "theorems": [
    "Verif.SearchFloat.C147_golden_partial",
    "Verif.SearchFloat.C147_returns_partial",
    "Verif.SearchFloat.C147_violated",
    "Verif.SearchFloat.C147_violated_hang",
    "Verif.SearchFloat.C147_violated_far"
   ],
   "note": "Proved if eps < r - l. If r - l <= eps the loop is skipped and the value-initialised pair (0, 0) is returned, which need not lie in [l, r] (C147_violated). These results are in exact arithmetic. With doubles it can hang (C147_violated_hang: a tent on [2^30, 2^30+1], default eps) and can return a point more than 700 eps away from the maximum (C147_violated_far: -x on the same interval)."
  },
  {
   "property": "C148",
   "status": "proved",
   "theorems": [
    "Verif.SegTree.C148_set_query",
    "Verif.SegTree.C148_search"
   ],
   "note": "The rounds budget of each loop of the model counts tests of the loop condition; the theorems show that a logarithmic budget gives the same result."
  },
  {
   "property": "C149",
   "status": "proved",
   "theorems": [
    "Verif.Fenwick.C149_rounds"
   ],
   "note": "The rounds budget of the loops counts tests of the loop condition; a budget of floor(log2 n) + 2 gives the same result as the larger one of the model."
  },
  {
   "property": "C15",
   "status": "proved",
   "theorems": [
    "Verif.Persistent.Queue.C15_versions",
    "Verif.Persistent.Queue.C15_drain",
    "Verif.Persistent.Queue.C15_proc_alive"
   ],
   "note": "shared mutable nodes and streams; also the raw pointer proc_ never dangles"
  },
  {
   "property": "C150",
   "status": "proved",
   "theorems": [
    "Verif.SparseTable.C150_sparse",
    "Verif.SparseTable.C150_disjoint"
   ],
   "note": "Counting versions of the model functions; erasing the counter gives the functions of C09 and C10."
  },
  {
   "property": "C151",
   "status": "proved",
   "theorems": [
    "Verif.DualSegTree.C151_calls",
    "Verif.DualSegTree.C151_history",
    "Verif.DualSegTree.C151_from_start"
   ],
   "note": "Counts calls of operator*= of M in a model with a counter whose erasure is the model of C07. The number of rounds of the loops of _set_ids and update is bounded by the same lemmas (Common/SegCost.lean)."
  },
  {
   "property": "C152",
   "status": "proved",
   "theorems": [
    "Verif.LazySegTree.C152_bounds",
    "Verif.LazySegTree.C152_returns"
   ],
   "note": "Counts node operations in a model with a counter whose erasure is the model of C06. The bounds hold in every state, also after the calls of set that C06 shows to be wrong; max_right and min_left are in C153."
  },
  {
   "property": "C153",
   "status": "proved",
   "theorems": [
    "Verif.LazySegTree.C153_rounds"
   ],
   "note": "The loops of the model take a budget of rounds; the theorem shows that logarithmic budgets give the same results as the generous ones of the model of C55, in every state. Each round makes at most two calls of _propagate."
  },
  {
   "property": "C16",
   "status": "partial",
   "theorems": [
    "Verif.Skew.C16_versions_partial",
    "Verif.Skew.C16_violated_drop",
    "Verif.Skew.C16_violated_extend"
   ],
   "note": "all histories except dropped on lists derived from extended and extended of an empty list; both excluded uses are proved to dereference null"
  },
  {
   "property": "C17",
   "status": "proved",
   "theorems": [
    "Verif.Compress.C17_release",
    "Verif.Compress.C17_order"
   ],
   "note": "Any history of add/clear/release; index counter modelled without int overflow (needs fewer than 2^31 distinct values)."
  },
  {
   "property": "C18",
   "status": "proved",
   "theorems": [
    "Verif.Bisect.C18_bisect_int",
    "Verif.Bisect.C18_bisect_monotone"
   ],
   "note": "All integers whose difference fits the type, arbitrary predicates, termination within |ng-ok| rounds."
  },
  {
   "property": "C19",
   "status": "proved",
   "theorems": [
    "Verif.ZAlg.C19_z_algorithm",
    "Verif.ZAlg.C19_empty_undefined"
   ],
   "note": "All non-empty sequences over any alphabet with decidable equality; the empty sequence is undefined behaviour (second theorem)."
  },
  {
   "property": "C20",
   "status": "proved",
   "theorems": [
    "Verif.Modular.C20_ring",
    "Verif.Modular.C20_eq",
    "Verif.Modular.C20_range_needed"
   ],
   "note": "All expressions, all moduli 1..2^31; the last theorem shows the range is needed for DynamicModular. Stream input is not modelled."
  },
  {
   "property": "C21",
   "status": "proved",
   "theorems": [
    "Verif.Modular.C21_inv",
    "Verif.Modular.C21_div",
    "Verif.Modular.C21_pow"
   ],
   "note": "Prime moduli up to 2^31; pow for every modulus up to 2^31 and every non-negative long long exponent."
  },
  {
   "property": "C22",
   "status": "partial",
   "theorems": [
    "Verif.Modular.C22_dynamic",
    "Verif.Modular.C22_static_partial",
    "Verif.Modular.C22_violated_zero",
    "Verif.Modular.C22_violated_two"
   ],
   "note": "Full for DynamicModular (all primes up to 2^31). For Modular the claim is false at element 0 (throws) and for modulus 2 (endless search); proved for the rest."
  },
  {
   "property": "C23",
   "status": "proved",
   "theorems": [
    "Verif.Modular.C23_table"
   ],
   "note": "Every prime up to 2^31, every sequence of requests in 1..p-1."
  },
  {
   "property": "C24",
   "status": "partial",
   "theorems": [
    "Verif.Enumerate.C24_history_partial",
    "Verif.Enumerate.C24_history_default_partial",
    "Verif.Enumerate.C24_fact",
    "Verif.Enumerate.C24_violated"
   ],
   "note": "Proved when every query is within the constructed size or at most p/2; false otherwise (table doubling past the modulus zeroes new inverse factorials; witness MOD=7)."
  },
  {
   "property": "C25",
   "status": "partial",
   "theorems": [
    "Verif.Fraction.C25_add",
    "Verif.Fraction.C25_sub",
    "Verif.Fraction.C25_neg",
    "Verif.Fraction.C25_mul",
    "Verif.Fraction.C25_inv",
    "Verif.Fraction.C25_div",
    "Verif.Fraction.C25_beq",
    "Verif.Fraction.C25_cmp",
    "Verif.Fraction.C25_defined",
    "Verif.Fraction.C25_reduct_partial",
    "Verif.Fraction.C25_reduct_signed_partial",
    "Verif.Fraction.C25_int_partial",
    "Verif.Fraction.C25_div_int_partial",
    "Verif.Fraction.C25_div_int_small",
    "Verif.Fraction.C25_div_int_zero",
    "Verif.Fraction.C25_left_partial",
    "Verif.Fraction.C25_cmp_int",
    "Verif.Fraction.C25_violated_ub",
    "Verif.Fraction.C25_violated_value",
    "Verif.Fraction.C25_violated_zero"
   ],
   "note": "Arithmetic and comparison, also with integers on either side, are those of the rationals whenever no overflow occurs (guaranteed below 2^31). reduct narrows the gcd to int: undefined or wrong for gcd >= 2^31 (witnesses, one with operands up to 65536), proved below."
  },
  {
   "property": "C26",
   "status": "partial",
   "theorems": [
    "Verif.BoundInt.C26_ctor",
    "Verif.BoundInt.C26_add",
    "Verif.BoundInt.C26_sub",
    "Verif.BoundInt.C26_mul_partial",
    "Verif.BoundInt.C26_div",
    "Verif.BoundInt.C26_mul_zero_undefined",
    "Verif.BoundInt.C26_mul_claim_false"
   ],
   "note": "Code violates the claim: multiplication by a zero right operand divides by zero. Everything else proved."
  },
  {
   "property": "C27",
   "status": "partial",
   "theorems": [
    "Verif.BitManip.C27_popcnt",
    "Verif.BitManip.C27_popcnt_e8",
    "Verif.BitManip.C27_ctz",
    "Verif.BitManip.C27_cto",
    "Verif.BitManip.C27_bytes_partial",
    "Verif.BitManip.C27_violated_log2p1_zero",
    "Verif.BitManip.C27_summary",
    "Verif.BitManip.C27_clz",
    "Verif.BitManip.C27_clo",
    "Verif.BitManip.C27_bit_width",
    "Verif.BitManip.C27_bit_floor",
    "Verif.BitManip.C27_bit_ceil",
    "Verif.BitManip.C27_has_single_bit",
    "Verif.BitManip.C27_bextr",
    "Verif.BitManip.C27_bit_reverse"
   ],
   "note": "portable branch; all 64-bit functions proved for every word, byte functions for every byte. Partial because the code violates it at one point: log2p1(0) is 1, not 0 (C27_violated_log2p1_zero). bit_ceil above 2^63 is an undefined shift (C27_bit_ceil)."
  },
  {
   "property": "C28",
   "status": "proved",
   "theorems": [
    "Verif.Garner.C28_garner",
    "Verif.Garner.C28_bound_sharp",
    "Verif.Garner.C28_bound_enough"
   ],
   "note": "the lambda garner with Modular arithmetic and all long long/int ranges; bound shown sharp and sufficient for the longest supported convolution"
  },
  {
   "property": "C29",
   "status": "proved",
   "theorems": [
    "Verif.Bitwise.C29_zeta",
    "Verif.Bitwise.C29_mobius",
    "Verif.Bitwise.C29_inverse",
    "Verif.Bitwise.C29_or",
    "Verif.Bitwise.C29_and",
    "Verif.Bitwise.lg_eq_clz"
   ],
   "note": "in-place transforms with the cache-oblivious loop order, in any additive group, n<32 (1u<<n); OR convolution in place, AND convolution with zero padding. The copying SubsetZeta/BitwiseOrConvolution do not compile when instantiated and are not modelled."
  },
  {
   "property": "C30",
   "status": "partial",
   "theorems": [
    "Verif.Bitwise.C30_modular_partial",
    "Verif.Bitwise.C30_integral_partial",
    "Verif.Bitwise.C30_other_half",
    "Verif.Bitwise.C30_violated"
   ],
   "note": "proved for modular and (non-overflowing) integral element types; violated for all other types (double, complex): every entry is half the convolution."
  },
  {
   "property": "C31",
   "status": "proved",
   "theorems": [
    "Verif.SubsetConv.C31_subset_convolution",
    "Verif.SubsetConv.C31_square",
    "Verif.SubsetConv.C31_limit_needed"
   ],
   "note": "Over any commutative ring, all lengths not both 0, lg(max length) <= LIM and < 31; the assert beyond LIM is shown to fail. SubsetRankedZeta/Mobius loops modelled statement by statement; arithmetic of T is exact."
  },
  {
   "property": "C32",
   "status": "partial",
   "theorems": [
    "Verif.MatrixM.C32_add",
    "Verif.MatrixM.C32_neg",
    "Verif.MatrixM.C32_smul",
    "Verif.MatrixM.C32_mul",
    "Verif.MatrixM.C32_pow",
    "Verif.MatrixM.C32_ident",
    "Verif.MatrixM.C32_transpose",
    "Verif.MatrixM.C32_eq",
    "Verif.MatrixM.C32_sub_actual",
    "Verif.MatrixM.C32_sub_violated"
   ],
   "note": "Code violates the claim for subtraction (a-b returns -b, proved). All other operators proved for every dimension and exponent < 2^64."
  },
  {
   "property": "C33",
   "status": "partial",
   "theorems": [
    "Verif.Dirichlet.C33_sieve_partial",
    "Verif.Dirichlet.C33_primes_partial",
    "Verif.Dirichlet.C33_violated_overflow"
   ],
   "note": "Proved for all n < 2^30+3. For all n >= 2^30+3 the code overflows int (i*2 at the prime 2^30+3), proved. No n is left open."
  },
  {
   "property": "C34",
   "status": "proved",
   "theorems": [
    "Verif.Graph.C34_bfs",
    "Verif.Graph.C34_small_inf"
   ],
   "note": "bfs gives shortest walk lengths and INF for unreachable vertices, for every graph; precondition INF >= n (C34_small_inf shows a precondition on INF is needed: INF=-1 leaves everything unreached). dist type is modelled as exact integers."
  },
  {
   "property": "C35",
   "status": "proved",
   "theorems": [
    "Verif.Graph.C35_topological_sort"
   ],
   "note": "all graphs incl. loops and parallel edges; recursion shown to end within n nested calls"
  },
  {
   "property": "C36",
   "status": "partial",
   "theorems": [
    "Verif.MaxFlow.C36_ford_fulkerson_partial",
    "Verif.MaxFlow.C36_dinic_partial",
    "Verif.MaxFlow.C36_ford_fulkerson",
    "Verif.MaxFlow.C36_dinic",
    "Verif.MaxFlow.C36_violated"
   ],
   "note": "The limit is not passed to the augmentation, so the result may exceed it (witness). Proved for every history of add_edge and flow: valid residual network, value = feasible flow, maximum unless the limit was reached; with the default limit the maximum flow."
  },
  {
   "property": "C37",
   "status": "proved",
   "theorems": [
    "Verif.Heap.C37_history"
   ],
   "note": "All programs over any number of heaps, every coin sequence, any strict weak order. A heap passed to meld is consumed: its nodes are shared afterwards in the C++ code, later use of it (and melding a heap with itself) is outside the precondition."
  },
  {
   "property": "C38",
   "status": "partial",
   "theorems": [
    "Verif.Depq.C38_history",
    "Verif.Depq.C38_build_partial",
    "Verif.Depq.C38_violated",
    "Verif.Depq.C38_violated_push"
   ],
   "note": "All histories from the empty queue proved; construction from a range proved for lengths not 3 mod 4. For lengths 3 mod 4 the constructor never compares the single last element with its parent's minimum: {5,3,1}.min() is 3 (witness)."
  },
  {
   "property": "C39",
   "status": "partial",
   "theorems": [
    "Verif.FibHeap.C39_partial",
    "Verif.FibHeap.C39_new",
    "Verif.FibHeap.C39_violation",
    "Verif.FibHeap.C39_violation_pop"
   ],
   "note": "Proved for every strict weak order, number of keys and history of push/update, pop and erase of keys other than the top one, with progress (assertions, table bounds by the Fibonacci degree argument, termination). False for erase of the top key: root_ keeps pointing to the erased node (violation theorems)."
  },
  {
   "property": "C40",
   "status": "partial",
   "theorems": [
    "Verif.Treap.C40_partial",
    "Verif.Treap.C40_size_violation",
    "Verif.Treap.C40_erase_violation"
   ],
   "note": "Every history of all operations on any number of treaps (insert, hinted insert, erase by key, iterator and range, searches, iteration, split, absorb, copy, clear) with any priorities behaves as on sorted lists; size() is right without split and range erase. Recorded: size() is wrong after split/range erase, and erase(b, end()) returns begin()."
  },
  {
   "property": "C41",
   "status": "partial",
   "theorems": [
    "Verif.Succinct.C41_select64",
    "Verif.Succinct.C41_bv",
    "Verif.Succinct.C41_bitvector_partial",
    "Verif.Succinct.C41_violated"
   ],
   "note": "rank1, rank0, select1, select0 are right for every word size up to 64 and every source with zeros beyond the end, and for BitVector after every history leaving zeros beyond the end. BitVector(10,true) violates it: rank1(10)=64 (witness)."
  },
  {
   "property": "C42",
   "status": "partial",
   "theorems": [
    "Verif.Succinct.C42_history_partial",
    "Verif.Succinct.C42_violated_pop",
    "Verif.Succinct.C42_violated_resize",
    "Verif.Succinct.C42_iterator_partial",
    "Verif.Succinct.C42_violated_iterator"
   ],
   "note": "Every history of push_back, pop_back, growing resize, assign, get, set, |=, &=, range_set, range_get from either constructor agrees with a sequence of booleans, except pop_back emptying a word and shrinking resize, after which later pushes are wrong (witnesses). Iterators: ++, --, +=, -= agree with positions except -= (or += of a negative) borrowing across a word (witness)."
  },
  {
   "property": "C43",
   "status": "partial",
   "theorems": [
    "Verif.IntVector.C43_push_get_partial",
    "Verif.IntVector.C43_get_violated",
    "Verif.IntVector.C43_set_violated"
   ],
   "note": "Code violates the claim (get does not mask, set erases higher elements); proved: push-only histories, low w bits."
  },
  {
   "property": "C44",
   "status": "proved",
   "theorems": [
    "Verif.TY.C44_get"
   ],
   "note": "Every admissible sequence of every length."
  },
  {
   "property": "C45",
   "status": "partial",
   "theorems": [
    "Verif.Wavelet.C45_partial",
    "Verif.Wavelet.C45_violated"
   ],
   "note": "For every sequence, get, range_rank, rank, rank_3way, range_select, select, range_freq and quantile agree with the plain sequence for value arguments below 2^h (range_freq: any bounds, h < 64). Witnesses: on {0,1} rank(2,2)=1; on {2^63} range_freq shifts by 64."
  },
  {
   "property": "C46",
   "status": "proved",
   "theorems": [
    "Verif.LiChao.C46_history",
    "Verif.LiChao.C46_empty",
    "Verif.LiChao.C46_inv_needed"
   ],
   "note": "all lengths 1..2^63, strictly increasing coordinates, all histories of add_line/add_segment_idx/add_segment/get_idx/get, std::less and std::greater; exact integer values. Preconditions found necessary: intercept and covered values differ from INV (C46_inv_needed), nonempty coordinates (C46_empty: endless recursion)."
  },
  {
   "property": "C47",
   "status": "proved",
   "theorems": [
    "Verif.Cht.C47_deque",
    "Verif.Cht.C47_empty",
    "Verif.Cht.C47_inc_needed"
   ],
   "note": "all histories of push_back/push_front/get/get_incremental/get_decremental, for std::less and std::greater; exact integer arithmetic (no overflow of T), fewer than 2^31 operations"
  },
  {
   "property": "C48",
   "status": "partial",
   "theorems": [
    "Verif.Mo.C48_solve_partial",
    "Verif.Mo.C48_comparisons",
    "Verif.Mo.C48_zero"
   ],
   "note": "Proved for every order when n>0 or q<2; with all right ends 0 and q>=2 the comparison divides by zero (C48_zero). Comparisons proved strict weak orders."
  },
  {
   "property": "C49",
   "status": "proved",
   "theorems": [
    "Verif.SegHld.C49_plain",
    "Verif.SegHld.C49_lazy"
   ],
   "note": "Every non-empty sequence of positive weights, every monoid, every operator type obeying the laws, every history of calls; both constructors. The weights are arbitrary positive numbers (those of an Hld are: size minus size of the heavy child)."
  },
  {
   "property": "C50",
   "status": "partial",
   "theorems": [
    "Verif.AcMachine.C50_partial",
    "Verif.AcMachine.C50_kept",
    "Verif.AcMachine.C50_find",
    "Verif.AcMachine.C50_find_suffix",
    "Verif.AcMachine.C50_violation",
    "Verif.AcMachine.C50_empty"
   ],
   "note": "Fails when a key is a prefix of an earlier key: such a key is silently dropped (C50_violation); building a machine without keys is undefined (C50_empty). Proved for all lists of non-empty keys of which none is a prefix of an earlier one; C50_kept says for every list which keys survive and that their occurrences are reported exactly."
  },
  {
   "property": "C51",
   "status": "partial",
   "theorems": [
    "Verif.AmBinom.C51_violation",
    "Verif.AmBinom.C51_violation_use"
   ],
   "note": "False for all arguments: whenever enabled() holds the constructor writes out of bounds (ptb rows beyond k, st_[mid]), so nothing positive can be proved."
  },
  {
   "property": "C52",
   "status": "partial",
   "theorems": [
    "Verif.Fps.C52_quotient_partial",
    "Verif.Fps.C52_remainder_partial",
    "Verif.Fps.C52_violation",
    "Verif.Fps.C52_violation_quotient",
    "Verif.Fps.C52_violation_assert"
   ],
   "note": "The property is false of the code: / multiplies with r.size() terms of the series reciprocal, so x^2 % (1+x) is x^4. Proved instead: what / and % compute."
  },
  {
   "property": "C53",
   "status": "proved",
   "theorems": [
    "Verif.Fps.C53_dense",
    "Verif.Fps.C53_sparse",
    "Verif.Fps.C53_inv",
    "Verif.Fps.C53_agree"
   ],
   "note": "Both algorithms, the choice between them, and that they return the same list."
  },
  {
   "property": "C54",
   "status": "proved",
   "theorems": [
    "Verif.Ntt.C54_dft",
    "Verif.Ntt.C54_inverse",
    "Verif.Ntt.C54_inverse_exact",
    "Verif.Ntt.C54_convolution_ntt",
    "Verif.Ntt.C54_convolution_naive",
    "Verif.Ntt.C54_convolution",
    "Verif.Ntt.C54_roots"
   ],
   "note": "Radix-4/radix-2 passes, bit reversal, coefficient tables, splitting step and naive loop modelled on 32-bit residues with 64-bit intermediates; for every prime modulus below 2^31 with a generator (proved for the six tabulated moduli), every supported length and every vector. Convolutions may append zeros; convolution_ntt itself needs non-empty inputs (convolution checks this)."
  },
  {
   "property": "C55",
   "status": "partial",
   "theorems": [
    "Verif.LazySegTree.C55_max_right_partial",
    "Verif.LazySegTree.C55_min_left_partial",
    "Verif.LazySegTree.C55_violated_max_right",
    "Verif.LazySegTree.C55_violated_min_left"
   ],
   "note": "Proved for histories without range_update; with a pending operator the code returns a wrong boundary: witnesses."
  },
  {
   "property": "C56",
   "status": "proved",
   "theorems": [
    "Verif.Dirichlet.C56_dirichlet",
    "Verif.Dirichlet.C56_short"
   ],
   "note": "Entry 0 is 0; a shorter b is an out-of-range read (C56_short)."
  },
  {
   "property": "C57",
   "status": "proved",
   "theorems": [
    "Verif.Dirichlet.C57_multinomial",
    "Verif.Dirichlet.C57_needs_multiplicative"
   ],
   "note": "Uses the sieve theorem, hence n < 2^30+3."
  },
  {
   "property": "C58",
   "status": "proved",
   "theorems": [
    "Verif.Dirichlet.C58_optimal",
    "Verif.Dirichlet.C58_zeta",
    "Verif.Dirichlet.C58_zetaPair",
    "Verif.Dirichlet.C58_identityPair",
    "Verif.Dirichlet.C58_zero_undefined",
    "Verif.Dirichlet.C58_needs_sqrt"
   ],
   "note": "sqrt(double) of an int is modelled as the exact integer square root; pow is an arbitrary positive k. n = 0 divides by zero (C58_zero_undefined)."
  },
  {
   "property": "C59",
   "status": "proved",
   "theorems": [
    "Verif.Graph.C59_scc"
   ],
   "note": "Kosaraju's two passes for every graph; recursion depth bounded by n+1"
  },
  {
   "property": "C60",
   "status": "partial",
   "theorems": [
    "Verif.Mo.C60_rollback_partial",
    "Verif.Mo.C60_zero"
   ],
   "note": "Proved for n>0; with all right ends 0 solve_rollback always divides by zero (C60_zero)."
  },
  {
   "property": "C61",
   "status": "proved",
   "theorems": [
    "Verif.MaxFlow.C61"
   ],
   "note": ""
  },
  {
   "property": "C62",
   "status": "partial",
   "theorems": [
    "Verif.MaxFlow.C62_partial",
    "Verif.MaxFlow.C62_violated"
   ],
   "note": "solve() is optimal; selections() is inverted (witness)."
  },
  {
   "property": "C63",
   "status": "partial",
   "theorems": [
    "Verif.Treap.C63_partial",
    "Verif.Treap.C63_lower_bound_partial",
    "Verif.Treap.C63_noticed_partial",
    "Verif.Treap.C63_order_violation",
    "Verif.Treap.C63_duplicate_violation"
   ],
   "note": "Proved for end(), lower_bound(x), every hint next to the place of x, and wrong hints that the parent check notices; for other hints the code breaks the order or inserts a present key again (witnesses)."
  },
  {
   "property": "C64",
   "status": "partial",
   "theorems": [
    "Verif.Fps.C64_product_partial",
    "Verif.Fps.C64_product_sparse",
    "Verif.Fps.C64_violation"
   ],
   "note": "False for an empty left factor and a dense right factor of 130 coefficients (back() of an empty vector); proved for every non-empty left factor."
  },
  {
   "property": "C65",
   "status": "partial",
   "theorems": [
    "Verif.Fps.C65_log",
    "Verif.Fps.C65_dense",
    "Verif.Fps.C65_sparse_partial",
    "Verif.Fps.C65_violation",
    "Verif.Fps.C65_violation_one",
    "Verif.Fps.C65_mul"
   ],
   "note": "log and log_dense in full. log_sparse(n) is right for 2 <= n <= size; for n > size it pads the quotient with zeros (1+x, n=5) and for n = 1 it fails an assertion."
  },
  {
   "property": "C66",
   "status": "proved",
   "theorems": [
    "Verif.Fps.C66_exp",
    "Verif.Fps.C66_sparse",
    "Verif.Fps.C66_dense",
    "Verif.Fps.C66_add",
    "Verif.Fps.C66_exp_log"
   ],
   "note": "Coefficients not stored count as zero: exp_sparse of an empty series returns a single coefficient."
  },
  {
   "property": "C67",
   "status": "proved",
   "theorems": [
    "Verif.Fps.C67_pow"
   ],
   "note": "Transform sizes: 2*size <= 2^k with 2^(k+1) dividing p-1 (only needed for series with 100 or more terms)."
  },
  {
   "property": "C68",
   "status": "proved",
   "theorems": [
    "Verif.Fps.C68_sqrt",
    "Verif.Fps.C68_dense",
    "Verif.Fps.C68_sparse",
    "Verif.Fps.C68_is_square"
   ],
   "note": "Uses C22 for the root of the first coefficient, which is never zero."
  },
  {
   "property": "C69",
   "status": "proved",
   "theorems": [
    "Verif.Hld.C69",
    "Verif.Hld.C69_unique"
   ],
   "note": "all trees, edge orders, roots; recursion depth and int range not bounded (assumed sufficient)"
  },
  {
   "property": "C70",
   "status": "proved",
   "theorems": [
    "Verif.Hld.C70",
    "Verif.Hld.C70_comm",
    "Verif.Hld.C70_update"
   ],
   "note": "result is e * product * e where e is a default-initialised T (line 77 declares T um, vm without initialiser): the caller must use a T whose default constructor gives the unit; built-in number types would be read uninitialised"
  },
  {
   "property": "C71",
   "status": "proved",
   "theorems": [
    "Verif.Hld.C71_interval",
    "Verif.Hld.C71_sum"
   ],
   "note": "weights in any commutative monoid; A and S are assumed to be point addition and interval sum"
  },
  {
   "property": "C72",
   "status": "proved",
   "theorems": [
    "Verif.Hld.C72"
   ],
   "note": "bound on depth and on the number of calls of U; query makes its calls on the same chains but its call count is not stated"
  },
  {
   "property": "C73",
   "status": "proved",
   "theorems": [
    "Verif.Reroot.C73"
   ],
   "note": "merge/e must be a commutative monoid (the suffix products are accumulated in reverse order)."
  },
  {
   "property": "C74",
   "status": "partial",
   "theorems": [
    "Verif.Reroot.C74_partial",
    "Verif.Reroot.C74_violated"
   ],
   "note": "Network<W>::Path keeps the weight in an int: proved for weights in int range, violated for 2^32 with W = long long."
  },
  {
   "property": "C75",
   "status": "proved",
   "theorems": [
    "Verif.Euler.C75",
    "Verif.Euler.C75_lca"
   ],
   "note": ""
  },
  {
   "property": "C76",
   "status": "partial",
   "theorems": [
    "Verif.Dijkstra.C76_partial",
    "Verif.Dijkstra.C76_violated"
   ],
   "note": "Network<W>::Path keeps the weight in an int: proved for weights below 2^31, violated for W = long long and weight 2^32+5."
  },
  {
   "property": "C77",
   "status": "proved",
   "theorems": [
    "Verif.Seg2D.C77"
   ],
   "note": "rectangle products after any history of set, any n and m, any commutative monoid"
  },
  {
   "property": "C78",
   "status": "partial",
   "theorems": [
    "Verif.Meldable.C78_partial",
    "Verif.Meldable.C78_violation",
    "Verif.Meldable.badOps_out",
    "Verif.Meldable.C78_violation_size"
   ],
   "note": "proved when a melded-in heap is cleared or never used again; violated otherwise: meld leaves b sharing its nodes with a, so b.push(1) after a.meld(b) makes 1 come out of a, and b.size() is unchanged"
  },
  {
   "property": "C79",
   "status": "proved",
   "theorems": [
    "Verif.MinCost.C79",
    "Verif.MinCost.C79_nonneg"
   ],
   "note": "All graphs without negative cycles (witnessed by potentials), all lists of limits, on the verified Fibonacci heap. Costs are exact integers with |cost| <= C and 2nC < INF; the total cost (value times path cost) is assumed to fit the cost type."
  },
  {
   "property": "C80",
   "status": "proved",
   "theorems": [
    "Verif.Gauss.C80_det"
   ],
   "note": "equal to Mathlib's Matrix.det of the leading block"
  },
  {
   "property": "C81",
   "status": "partial",
   "theorems": [
    "Verif.Gauss.C81_solve_partial",
    "Verif.Gauss.C81_wide_out_of_range"
   ],
   "note": "proved when the kernel has dimension at most R; the result type has R+1 rows, so systems with more free unknowns write outside it (witness)"
  },
  {
   "property": "C82",
   "status": "proved",
   "theorems": [
    "Verif.Gauss.C82_inv"
   ],
   "note": ""
  },
  {
   "property": "C83",
   "status": "proved",
   "theorems": [
    "Verif.Gauss.C83_gauss"
   ],
   "note": "rank is Mathlib's Matrix.rank"
  },
  {
   "property": "C84",
   "status": "proved",
   "theorems": [
    "Verif.LinkCut.C84_link_cut_tree"
   ],
   "note": "Whole-history refinement: heap of nodes with parent/child indices against a ghost forest of splay trees (paths of a rooted forest); link, cut, set, update, path update and prod."
  },
  {
   "property": "C85",
   "status": "partial",
   "theorems": [
    "Verif.SplayList.C85_splay_tree_list_partial",
    "Verif.SplayList.C85_default_partial",
    "Verif.SplayList.C85_prod_empty_range"
   ],
   "note": "Proved for all monoids, actions, initial sequences and call histories whose prod ranges are non-empty; prod(l,l) is proved to dereference a null pointer for every list and every l. Nodes dropped by erase stay in the heap model; the constructor is modelled for multi-pass iterators."
  },
  {
   "property": "C86",
   "status": "proved",
   "theorems": [
    "Verif.Trie.C86_history",
    "Verif.Trie.C86_range_history"
   ],
   "note": "All legal histories for every W > 0; range construction for sorted and unsorted ranges."
  },
  {
   "property": "C87",
   "status": "partial",
   "theorems": [
    "Verif.Trie.C87_history_fails",
    "Verif.Trie.C87_history_partial",
    "Verif.Trie.C87_range_history"
   ],
   "note": "Violated: in a default-constructed X-fast trie the root is not in tb_[0], so emplace_hint/operator[] of a key that parts from its hint at the root fails the assert of xft.hpp:119. Proved for default construction without hints before a clear, and in full for range construction."
  },
  {
   "property": "C88",
   "status": "partial",
   "theorems": [
    "Verif.Trie.C88_copyMove_fails",
    "Verif.Trie.C88_moved_from_destroy",
    "Verif.Trie.C88_selfAssign_undefined",
    "Verif.Trie.C88_xfast_move_loses",
    "Verif.Trie.C88_copyMove_partial"
   ],
   "note": "Violated: the destructor of every moved-from trie dereferences null; self assignment too; a moved X-fast trie loses its table; X-fast assignment has no return. Copies, targets of plain moves and ordinary destruction are proved."
  },
  {
   "property": "C89",
   "status": "proved",
   "theorems": [
    "Verif.Trie.C89_traverse_rule",
    "Verif.Trie.C89_xor_min"
   ],
   "note": "Every sound rule, every reachable trie."
  },
  {
   "property": "C90",
   "status": "proved",
   "theorems": [
    "Verif.Sps.C90_exp"
   ],
   "note": "All commutative rings; asserts are preconditions."
  },
  {
   "property": "C91",
   "status": "partial",
   "theorems": [
    "Verif.Sps.C91_egf_partial",
    "Verif.Sps.C91_short_wrong"
   ],
   "note": "Proved for |F| > n or |F| <= 1. False for 2 <= |F| <= n: the merge is skipped at k = d-1 (sps.hpp:88)."
  },
  {
   "property": "C92",
   "status": "partial",
   "theorems": [
    "Verif.Sps.C92_poly_partial",
    "Verif.Sps.C92_zero_wrong",
    "Verif.Sps.C92_short_wrong"
   ],
   "note": "Proved for A[0] != 0 and |F| > n or |F| <= 1. False for A[0] = 0 (factor i! missing, sps.hpp:117) and for 2 <= |F| <= n."
  },
  {
   "property": "C93",
   "status": "proved",
   "theorems": [
    "Verif.Sps.C93_log",
    "Verif.Sps.C93_log_exp"
   ],
   "note": "All commutative rings."
  },
  {
   "property": "C94",
   "status": "proved",
   "theorems": [
    "Verif.Sps.C94_inv",
    "Verif.Sps.C94_one_needed"
   ],
   "note": "Constant term 1 is a precondition that the code does not check; C94_one_needed shows what happens otherwise."
  },
  {
   "property": "C95",
   "status": "proved",
   "theorems": [
    "Verif.Sps.C95_conv",
    "Verif.Sps.C95_egf",
    "Verif.Sps.C95_egf_transpose",
    "Verif.Sps.C95_egf_vector"
   ],
   "note": "TransposedSpsCompositionPoly (uses convolution_fft) is not modelled."
  },
  {
   "property": "C96",
   "status": "partial",
   "theorems": [
    "Verif.Sais.suffix_array_partial",
    "Verif.Sais.suffix_array_unique",
    "Verif.Sais.suffix_array_sort_irrelevant",
    "Verif.Sais.suffix_array_violated",
    "Verif.Sais.suffix_array_violated_wide",
    "Verif.Sais.suffix_array_violated_unsigned"
   ],
   "note": "Proved for non-empty strings of int values. Violated: the empty range dereferences minmax_element's end; 64-bit values equal modulo 2^32 are confused by the (int) casts; unsigned values from 2^31 on give negative indices."
  },
  {
   "property": "C97",
   "status": "proved",
   "theorems": [
    "Verif.Sais.sa_is_sorts",
    "Verif.Sais.sa_is_needs_distinct"
   ],
   "note": "Assertions and bounds are part of the model (none), so the result also shows safety."
  },
  {
   "property": "C98",
   "status": "proved",
   "theorems": [
    "Verif.ChtMap.C98_history",
    "Verif.ChtMap.C98_nonempty_needed",
    "Verif.ChtMap.C98_order_needed",
    "Verif.ChtMap.C98_limit_needed"
   ],
   "note": "Full statement; the preconditions are shown to be needed."
  },
  {
   "property": "C99",
   "status": "proved",
   "theorems": [
    "Verif.Rmq.C99_rmq",
    "Verif.Rmq.C99_empty_undefined"
   ],
   "note": "For every nonempty array of integers and every recursion height the structure is built and every query with l < r <= n returns the first position of the minimum; l >= r throws. Construction from an empty range is undefined (C99_empty_undefined)."
  }
 ]
}