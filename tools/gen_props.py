#!/usr/bin/env python3
"""Writes properties.jsonl (one JSON object per line)."""
import json, os
P=[]
def p(id,title,statement,quantifier,why,anchors):
    P.append(dict(id=id,title=title,statement=statement,quantifier=quantifier,why_tests_cant=why,anchors=anchors))

I="intervals/include/roughpy/intervals/"
IS="intervals/src/"
p("C01","Dyadic comparison agrees with numeric value",
  "For two dyadic rationals (k,n) and (m,l), the operators <, <=, > and >= return exactly the answer obtained by comparing the real numbers k/2^n and m/2^l.",
  "every pair of multipliers and powers","The pairs form an infinite four-parameter family; the answer depends on the sign of the power difference, which a few examples do not cover.",
  [IS+"dyadic.cpp: operator<, operator<=, operator>, operator>="])
p("C02","Rebasing a dyadic never changes its value",
  "After rebase(r) the dyadic denotes the same real number; the call returns true exactly when the power is now r, and when it returns false no coarser power between r and the result can represent the number.",
  "every multiplier, power and requested resolution (exact integers; within the documented 32-bit guard range)","The reduction loop depends on the number of trailing zero bits of an arbitrary multiplier.",
  [IS+"dyadic.cpp: Dyadic::rebase", I+"dyadic.h"])
p("C03","The dyadic interval built around a real number contains it",
  "DyadicInterval(x, n, type) has length 2^-n, contains x according to its end-point convention, and is the only dyadic interval of that length and type that does.",
  "every real x, resolution n and both interval types","x ranges over a continuum and the boundary cases are a dense set.",
  [I+"dyadic_interval.h: DyadicInterval(param_t, dyadic_depth_t, IntervalType)"])
p("C04","The dyadic interval built around a dyadic point contains it",
  "DyadicInterval(d, n, type) yields the interval of length 2^-n of that type which contains the point d, whenever d is at least as fine as n; if d is coarser it starts at d.",
  "every dyadic, every resolution, both types","Negative multipliers and ceil/floor rounding interact for arbitrary power differences.",
  [IS+"dyadic_interval.cpp: DyadicInterval(Dyadic, power, type)"])
p("C05","Dyadic dissection is an exact partition",
  "to_dyadic_intervals(I, tol, Clopen) terminates and returns dyadic intervals no finer than tol that are listed in order, are pairwise adjacent (each begins where the previous ends) and whose union is the interval from floor(inf) to floor(sup) on the 2^-tol grid.",
  "every interval and every tolerance","Unbounded loop over dyadic scales; correctness is an invariant of the two while loops, not of any finite sample.",
  [IS+"dyadic_interval.cpp: to_dyadic_intervals"])
p("C06","contains_dyadic is set inclusion",
  "a.contains_dyadic(b) is true exactly when b, viewed as a set of reals, is a subset of a (for intervals of the same type).",
  "every pair of dyadic intervals of equal type","Infinite family over multiplier/power pairs including negatives.",
  [IS+"dyadic_interval.cpp: DyadicInterval::contains_dyadic"])
p("C07","Shrinking and flipping move within the dyadic tree",
  "The left and right halves of a dyadic interval partition it; shrink_to_contained_end keeps the included end; flip_interval returns the sibling and is an involution; expand_interval returns a dyadic interval of the same type containing the original.",
  "every dyadic interval of either type","Depends on parity and sign of arbitrary integers, for both end-point conventions.",
  [IS+"dyadic_interval.cpp: shrink_*, expand_interval, flip_interval"])
p("C08","DyadicInterval ordering is a strict weak order",
  "operator< on dyadic intervals of one type is irreflexive, transitive, total up to equality, and orders a parent before all its descendants, so that it can key an ordered map.",
  "every triple of dyadic intervals","Transitivity is a statement about all triples across three power-comparison branches.",
  [IS+"dyadic_interval.cpp: operator<(DyadicInterval)", "streams/include/roughpy/streams/dyadic_caching_layer.h"])
p("C09","Intersection and union of intervals have set semantics",
  "intersection(a,b) contains exactly the points in both intervals; interval_union is the smallest interval that contains both.",
  "every pair of intervals of the same type","The quantifier is over all reals; the disjoint case is a separate branch.",
  [IS+"intersection_and_union.cpp"])
p("C10","A partition's pieces tile its interval",
  "The sub-intervals of a Partition, in index order, start at the interval's inf, end at its sup, and each begins where the previous ends; this is preserved by refine_midpoints, insert_intermediate and merge.",
  "every interval, every list of points, every sequence of operations","Invariant over arbitrary operation histories.",
  [IS+"partition.cpp", I+"partition.h"])
p("C11","Partition mesh is the largest gap",
  "mesh() returns the length of the largest sub-interval, as the documentation says.",
  "every partition","Universal over all point lists.",
  [IS+"partition.cpp: Partition::mesh", "roughpy/src/intervals/partition.cpp"])
p("C12","Tensor words and flat indices correspond one to one",
  "For fixed width and depth, mapping a word to its flat index and back is the identity in both directions, indices of words of degree d occupy exactly the block [start(d), start(d+1)), concatenation and reversal of words act on indices as documented.",
  "every width, depth and word","Base-w arithmetic over all words.",
  ["roughpy_compute/common/basis.hpp: TensorBasis", "vendored/libalgebra_lite/basis/tensor_basis.cpp"])
p("C13","Dense free-tensor multiply-add equals the truncated concatenation product",
  "ft_fma(out,a,b) changes the coefficient of every word u of degree at most the depth by exactly the sum over factorisations u = vw of a(v)b(w), and touches no memory outside its operands; hence multiplication is associative, unital and distributive.",
  "every width, depth and coefficient arrays (exact scalars)","Nested loops over levels for all widths and depths.",
  ["roughpy_compute/dense/basic/free_tensor_fma.hpp: ft_fma"])
p("C14","In-place multiplication equals out-of-place multiplication",
  "ft_inplace_mul(a,b) leaves in a exactly the product a*b of the values held before the call.",
  "every width, depth and arrays","The overwriting order (descending degree) must never destroy a value still needed.",
  ["roughpy_compute/dense/basic/free_tensor_inplace_mul.hpp"])
p("C15","Tensor exponential is the exponential series",
  "ft_exp returns, up to the truncation depth, the sum over n of x^n/n! (with the scalar part of x ignored), independent of what the output buffer held before.",
  "every width, depth and tensor","The Horner loop works on growing truncations; correctness needs an induction on depth.",
  ["roughpy_compute/dense/intermediate/free_tensor_exp.hpp"])
p("C16","log and exp are mutually inverse",
  "log(exp(x)) = x for every tensor with zero scalar part and exp(log(g)) = g for every tensor with scalar part one, up to the truncation depth.",
  "every width, depth and tensor","An identity of infinite power series truncated at an arbitrary depth.",
  ["roughpy_compute/dense/intermediate/free_tensor_log.hpp", "vendored/libalgebra_lite/free_tensor.h: log, exp"])
p("C17","fmexp is multiplication by an exponential",
  "ft_fmexp(out,a,x) returns a*exp(x) up to the truncation depth, although intermediate levels of out temporarily hold unrelated values.",
  "every width, depth and tensors","Correctness relies on stale levels always being overwritten before use, at any depth.",
  ["roughpy_compute/dense/intermediate/free_tensor_fmexp.hpp", "vendored/libalgebra_lite/free_tensor.h: fmexp, fmexp_inplace"])
p("C18","The antipode is an anti-automorphism and inverts group-like elements",
  "antipode(antipode(x)) = x, antipode(a*b) = antipode(b)*antipode(a), and antipode(exp(x)) * exp(x) = 1 for x a Lie element (in particular for every signature).",
  "every width, depth >= 1 and tensors","Index reversal at every level for all widths.",
  ["roughpy_compute/dense/basic/free_tensor_antipode.hpp", "vendored/libalgebra_lite/free_tensor.h: antipode_helper"])
p("C19","The shuffle product is the commutative, associative shuffle",
  "st_fma(out,a,b) adds to the coefficient of u the sum over all splittings of the positions of u into two sub-words v, w of a(v)b(w); the induced product is commutative, associative and unital and equals the recursively defined shuffle used by the half-shuffle multiplier.",
  "every width, depth and tensors","Sum over 2^n masks for every n.",
  ["roughpy_compute/dense/basic/shuffle_tensor_product.hpp: st_fma", "vendored/libalgebra_lite/algebra/half_shuffle_multiplier.cpp"])
p("C20","Half shuffles sum to the shuffle",
  "For non-empty words the left and right half-shuffle products add up to the shuffle product; with the empty word 1, left(a,1)=a, left(1,b)=0, right(1,b)=b, right(a,1)=0.",
  "every pair of words","All words of all lengths.",
  ["vendored/libalgebra_lite/algebra/half_shuffle_multiplier.cpp"])
p("C21","ft_adjoint_left_mul is the adjoint of left multiplication",
  "For all tensors a, x and functional f: <ft_adj_lmul(a,f), x> = <f, a*x> under the word pairing.",
  "every width, depth and coefficients","Bilinear identity over all tensors.",
  ["roughpy_compute/dense/basic/free_tensor_adjoint_left_mul.hpp"])
p("C22","Signatures satisfy the shuffle identity",
  "For every signature S computed by the library (a product of exponentials of Lie elements), the pairing with a shuffle product is the product of pairings: <S, u sh v> = <S,u><S,v> for all words with |u|+|v| <= depth.",
  "every sequence of Lie increments, all words","Algebraic identity over all paths and word pairs.",
  ["algebra/src/lite_context.h: compute_signature", "streams/src/stream_base.cpp: signature"])
p("C23","The log-signature is a Lie element and exponentiates back to the signature",
  "exp(lie_to_tensor(log_signature)) equals the signature: converting the tensor logarithm of a product of exponentials of Lie elements to Hall coordinates with tensor_to_lie and back with lie_to_tensor loses nothing.",
  "every finite sequence of Lie elements, every width and depth","Dynkin-Specht-Wever/Friedrichs theorem, universal over paths.",
  ["algebra/src/context.cpp: cbh", "vendored/libalgebra_lite/maps.cpp: rbracketing", "roughpy/compute/_src/lie_basis.c: construct_new_t2l"])
p("C24","cbh is associative",
  "cbh of a list of Lie elements equals the cbh of the cbh of any two consecutive sub-lists; cbh with zero elements omitted is unchanged.",
  "every list and every split point","All lists of Lie elements.",
  ["algebra/src/context.cpp: cbh"])
p("C25","The Lie bracket table is the commutator",
  "The product of two Hall keys returned by the multiplication table maps under lie_to_tensor to the commutator of their images; the computation terminates for every pair.",
  "every width, depth and pair of keys","Recursion on the Hall set of arbitrary size.",
  ["vendored/libalgebra_lite/algebra/lie_multiplier.cpp: key_prod_impl", "roughpy/compute/_src/lie_multiplication_cache.cpp: compute_bracket_slow"])
p("C26","The Hall set construction yields a Hall basis table",
  "The default LieBasis lists the letters first; every later element is a pair (i,j) of earlier keys with i < j and left-parent(j) <= i; every such pair of total degree at most depth is listed exactly once; keys of degree d occupy one contiguous block, sorted.",
  "every width and depth","Triple-nested growth loop, all widths and depths.",
  ["roughpy/compute/_src/lie_basis.c: construct_lie_basis", "vendored/libalgebra_lite/basis/hall_set.cpp: grow_up"])
p("C27","LieBasis key degree and word lookup are exact",
  "degree(key) is the d with degree_begin[d] <= key < degree_begin[d+1]; find_word returns the key whose parents are the given pair if it is in the basis and -1 otherwise.",
  "every basis produced by the constructor and every query","Binary searches over arbitrary-length tables.",
  ["roughpy/compute/_src/lie_basis.c: PyLieBasis_degree, PyLieBasis_find_word"])
p("C28","The Lie multiplication cache does not make answers depend on history",
  "The bracket returned for a pair of keys, and hence the tensor_to_lie matrix, is the same whatever other bases of the same width were created and queried before.",
  "every history of basis constructions and queries","Quantifies over call histories across a process-wide cache.",
  ["roughpy/compute/_src/lie_multiplication_cache.cpp: get_lie_multiplication_cache, PyLieMultiplicationCache_get"])
p("C29","Sparse matrix assembly and application are faithful",
  "Inserting values frame by frame yields the compressed matrix whose (row,col) entry is the sum of the inserted values, with sorted indices and no explicit zeros; applying it to a vector gives the matrix-vector product, in CSC and CSR form alike.",
  "every sequence of insertions","Stateful builder with in-place shifting and reallocation.",
  ["roughpy/compute/_src/sparse_matrix.c: smh_*", "roughpy_compute/dense/basic/apply_sparse_linear_map.hpp"])
p("C30","Compute functions accept operands of different depth",
  "ft_fma, ft_inplace_mul, ft_exp, ft_log, ft_fmexp, st_mul and ft_adjoint_left_mul on operands of equal width but different depth give the product truncated to the output depth and never access memory outside the arrays.",
  "every combination of operand depths","Depth triples are unbounded; the failure is a memory error that tests may not notice.",
  ["roughpy/compute/__init__.py", "roughpy/compute/_src/dense_basic.cpp", "roughpy/compute/_src/dense_intermediate.cpp", "roughpy/compute/_src/call_config.cpp"])
p("C31","Equal bases have equal hashes",
  "If two TensorBasis (or LieBasis) objects compare equal then hash() returns the same number for both, however they were obtained.",
  "every pair of basis objects and construction histories","Hash contract over all objects.",
  ["roughpy/compute/_src/tensor_basis.c: tensor_basis_truncate, tensor_basis_hash"])
p("C32","check_lie_basis_data accepts only Hall tables",
  "If check_lie_basis_data returns True then every letter row is (0,letter), row zero is (0,0) and every later row satisfies the Hall conditions.",
  "every pair of integer arrays","Adversarial inputs.",
  ["roughpy/compute/_src/lie_basis.c: check_lie_data_standard_ordering"])
S="streams/src/"
p("C33","Chen's identity at a fixed resolution",
  "For adjacent intervals with end-points on the resolution grid, signature([a,c)) = signature([a,b)) * signature([b,c)) when all three are computed at the same resolution.",
  "every stream, every grid points a<=b<=c and resolution","All streams and intervals; needs the dissection and caching recursion to agree.",
  [S+"stream_base.cpp", S+"dyadic_caching_layer.cpp", S+"stream.cpp"])
p("C34","Chen's identity through the default-resolution API",
  "signature([a,c)) = signature([a,b)) * signature([b,c)) for the user-facing Stream methods that choose the resolution themselves.",
  "every stream and a<=b<=c","Depends on the lengths of arbitrary intervals.",
  [S+"stream.cpp: Stream::log_signature, refine_interval"])
p("C35","Stream queries do not depend on earlier queries",
  "The (log-)signature returned for an interval, resolution and context is a function of these and the stream data only: earlier queries, at any resolution or depth, never change it.",
  "every history of queries","Stateful cache; quantifies over all histories.",
  [S+"dyadic_caching_layer.cpp"])
p("C36","Every increment is counted exactly once",
  "For a Lie-increment stream, the increments used for an interval are exactly those with time stamp in the interval under its end-point convention; for a partition into consecutive intervals each increment is used exactly once, in time order.",
  "every list of time-stamped increments and interval","Boundary coincidences of time stamps and end points.",
  [S+"lie_increment_stream.cpp: log_signature_impl"])
p("C37","No input increment is lost",
  "Every increment supplied to the stream constructor contributes to the signature over the whole support.",
  "every list of (time, increment) pairs","Duplicate time stamps are a measure-zero case random tests miss.",
  [S+"lie_increment_stream.cpp: constructor"])
p("C38","Piecewise abelian streams scale increments linearly with overlap",
  "The log-signature of a piecewise-abelian stream over an interval is the cbh of the pieces, each scaled by the fraction of the piece that lies in the interval.",
  "every list of consecutive pieces and query interval","All overlap configurations.",
  [S+"piecewise_abelian_stream.cpp"])
p("C39","External arrival streams are additive over adjacent intervals",
  "Arrivals at a shared end point of two adjacent intervals are used in exactly one of them.",
  "every arrival list and interval type","Boundary coincidence.",
  [S+"arrival_stream.cpp"])
p("C40","Tick stream tree memoisation is faithful",
  "The recursively memoised log-signature of a dyadic interval equals the cbh in time order of the data increments inside it.",
  "every finite tick data set and dyadic interval","Recursion over an arbitrary-depth tree.",
  [S+"tick_stream.cpp"])
p("C41","Dynamically constructed stream stays tree consistent",
  "After any sequence of queries, the stored value of every non-leaf node equals the cbh of its left and right children's values, and answers already given at an accuracy do not change.",
  "every history of queries","Mutable tree with root expansion and refinement.",
  [S+"dynamically_constructed_stream.cpp"])
p("C42","Storing and loading the stream cache round-trips",
  "Saving the cache of a dynamically constructed stream and loading it reproduces the same map, with the same sibling and parent links.",
  "every reachable cache","Iterator/index translation for arbitrary maps.",
  [S+"dynamically_constructed_stream.cpp: store_cache/load_cache"])
p("C43","Schema channel/dimension mapping is a bijection",
  "stream_dim_to_channel and channel_variant_to_stream_dim are inverse to each other between stream dimensions and (channel, variant) pairs; the width is the total number of variants.",
  "every schema","Channel lists with arbitrary variant counts.",
  [S+"schema.cpp"])
p("C44","Schema labels identify channels",
  "find(label) returns a channel whose label is a prefix match (exact, or followed by ':') of the argument; inserting a new label does not change any existing lookup; an existing label is never inserted twice.",
  "every history of inserts and every query string","All strings; prefix ambiguities.",
  [S+"schema.cpp: compare_labels, insert"])
p("C45","Tick construction helper routes values to the right coordinate",
  "Each add_* overload of the tick helper with the same channel (by index or label) and variant records the same Lie key, equal to 1 + the stream dimension of that channel and variant.",
  "every schema and channel/variant","Overloads over all schemas.",
  [S+"stream_construction_helper.cpp"])
p("C46","The signature derivative is the derivative",
  "sig_derivative returns the directional derivative (epsilon coefficient) of the product of exponentials of X_i + epsilon*Y_i.",
  "every list of (X_i, Y_i)","Infinite series identity at arbitrary depth.",
  ["algebra/src/lite_context.h: sig_derivative_impl, derive_series_compute, Ad_x_n"])
p("C47","Inverse of a free tensor",
  "inverse(x)*x = 1 for every tensor whose scalar part is invertible.",
  "every tensor with invertible scalar part","Power-series identity.",
  ["vendored/libalgebra_lite/free_tensor.h: inverse"])
p("C48","Sparse vectors never hold explicit zeros and add like functions",
  "After any sequence of sparse-vector operations no stored coefficient is zero, and the operations act coefficient-wise; equality of representation coincides with equality of coefficients.",
  "every history of vector operations","Invariant over histories including aliased operands.",
  ["vendored/libalgebra_lite/sparse_vector.h"])
p("C49","Dense vectors of different lengths add as zero-padded vectors",
  "Binary and in-place operations on dense vectors give the coefficient-wise result where missing trailing coefficients count as zero.",
  "every pair of lengths and values","All length combinations.",
  ["vendored/libalgebra_lite/dense_vector.h"])
p("C50","Context sizes are the dimensions of the algebras",
  "lie_size(d) and tensor_size(d) of a context are the dimensions of the truncated free Lie and tensor algebras for every d up to the depth.",
  "every width and depth","Number-theoretic formula for all degrees.",
  ["algebra/src/context.cpp: ContextBase", "algebra/src/hall_set_size.cpp"])
p("C51","Resolution chosen for an interval length is fine enough",
  "param_to_resolution(len) returns n with 2^-n <= len < 2^(1-n) when len < 1, and zero otherwise; refining the query interval never makes the resolution coarser than needed to see its end points at a quarter of its length.",
  "every positive length","Continuum of lengths.",
  [S+"stream_base.cpp: param_to_resolution", S+"stream.cpp"])
p("C52","Restricting a stream restricts its support",
  "The support of s.restrict(I) is contained in the support of s and in I; queries outside the support return the zero log-signature / unit signature.",
  "every stream, restriction and query","All histories of nested restrictions.",
  [S+"stream.cpp: restrict_support, refine_interval"])
p("C53","Membership, overlap and containment tests of intervals have set semantics",
  "contains_point(x) is membership of x; intersects_with holds exactly if the two intervals share a point; contains holds exactly if the argument is a subset.",
  "every pair of non-empty intervals of any types, every point","All end-point coincidences and type combinations.",
  ["intervals/src/interval.cpp: contains_point, intersects_with, contains"])
p('C54','Partition equality compares the points',
  'p == q holds exactly if the two partitions have the same interval and the same intermediate points.',
  'every pair of partitions','Quantifies over all pairs; the wrong overload is selected silently.',
  ['intervals/include/roughpy/intervals/partition.h: operator=', 'roughpy/src/intervals/partition.cpp'])
p('C55','TensorKey operations act on words',
  'A TensorKey built from letters 1..width and converted back with to_letters gives the same letters, to_index is the position of the word in the graded-lexicographic order, reverse() reverses the word, key1 * key2 is the concatenated word (letters of key1 first), split_n(n) splits off the last n letters, equal keys have equal hashes.',
  'every width, depth and word','Radix arithmetic over all words; tests use a few short words.',
  ['roughpy/src/algebra/tensor_key.cpp: PyTensorKey, construct_key, operator*, hash_value'])
p('C56','The shuffle adjoint kernel is the transpose of the shuffle product',
  'For the dense kernel st_adj_mul, <st_adj_mul(a, f), x> = <f, a shuffled with x> for all x up to the truncation.',
  'every width, depth and all a, f, x','Mask enumeration over all words of all lengths.',
  ['roughpy_compute/dense/basic/shuffle_tensor_product.hpp', 'roughpy_compute/dense/basic/shuffle_tensor_adjoint_mul.hpp'])
p('C57','Concurrent queries return what a single query would',
  'Any number of Python threads may query the same stream (signature/log_signature release the GIL). Under every interleaving of their cache accesses each query that finishes returns the value it would return alone on a fresh stream, and no query is blocked for ever by the others.',
  'every stream, every finite set of concurrent queries in one context, every schedule','Schedules cannot be enumerated by tests; a race shows up only under particular interleavings.',
  ['roughpy/src/streams/stream.cpp: signature, log_signature (gil_scoped_release)', 'streams/src/dyadic_caching_layer.cpp: DyadicCachingLayer::log_signature, m_compute_lock'])
p('C58','The time channel telescopes',
  'When a time channel is included, the time-channel increments inserted alongside the data add up, up to any time stamp, to that time stamp minus the start of the data, whatever the sampling.',
  'every list of time-stamped increments','Depends on the order and multiplicity of arbitrary time stamps.',
  ['streams/src/lie_increment_stream.cpp: LieIncrementStream constructors'])
p('C59','Function stream answers use the resolution asked for',
  "The log-signature a function stream returns for a dyadic interval at resolution r is the combination (cbh, in order) of the user function's values on the dyadic cells of level r inside it.",
  'every user function, dyadic interval and resolution','Depends on the order in which the lazily built tree is refined; a test compares a handful of resolutions.',
  ['streams/src/dynamically_constructed_stream.cpp: refine_accuracy', 'roughpy/src/streams/function_stream.cpp'])
p('C60','Labels of stream dimensions lead back to the dimension',
  'For every schema and every stream dimension, label_of_stream_dim gives a label, and label_to_stream_dim of this label is the dimension again.',
  'every schema obtained by insertions, variants, lead-lag settings and finalisation; every stream dimension','labels are free text with a separator inside; collisions appear only for particular combinations of labels and orders of insertion',
  ['streams/src/schema.cpp:StreamSchema::label_of_stream_dim', 'streams/src/schema.cpp:StreamSchema::label_to_stream_dim'])
p('C61','Finalising a schema pads it to the requested width',
  'finalize(n) fails when 0 < n < width and otherwise gives a schema of width max(n, width) which keeps the existing channels; StreamSchema(n) has width n.',
  'every schema and every requested width','the padding channels get generated labels; a test would have to guess the labels with which they collide',
  ['streams/src/schema.cpp:StreamSchema::finalize', 'streams/src/schema.cpp:StreamSchema::StreamSchema'])
p('C62','get_labels lists the label of every stream dimension',
  'get_labels returns exactly one label per stream dimension, in order, each the one label_of_stream_dim gives.',
  'every schema','quantifies over all mixtures of channel types and flags',
  ['roughpy/src/streams/schema.cpp:get_labels'])
p('C63','Recorded increments of a value channel add up to its last value',
  'For every sequence of ticks given to TickStream.from_data, the degree one increments recorded in the coordinates of a value channel add up to the last value given for this channel.',
  'every schema with a value channel, every sequence of ticks of all channels','telescoping over arbitrary interleavings of ticks of other channels',
  ['roughpy/src/streams/tick_stream.cpp:construct', 'streams/include/roughpy/streams/tick_stream.h'])
p('C64','Parsed ticks are returned in time order, ties in insertion order',
  'After every sequence of additions and reads, ticks() returns all ticks ordered by time and, for equal times, in the order in which they were added.',
  'every history of additions and reads of a tick helper, every correct sorting algorithm','the sort used is not stable; the order of ties depends on the precedence numbers given over the whole history',
  ['roughpy/src/streams/r_py_tick_construction_helper.cpp:RPyTickConstructionHelper::ticks', 'roughpy/src/streams/r_py_tick_construction_helper.cpp:RPyTickConstructionHelper::add_tick'])
p('C65','The size of a LieBasis is the dimension of the free Lie algebra',
  "For every positive depth the constructor stays within the arrays it allocates; the numbers of keys of each degree satisfy Witt's formula, compute_lie_degree_dim and compute_lie_dim return these numbers, and LieBasis.size() is their sum.",
  'every width and every positive depth','Number-theoretic formula against a growth loop, for all widths and depths.',
  ['roughpy/compute/_src/lie_basis.c: construct_lie_basis, compute_lie_dim, compute_lie_degree_dim, mobius_func, int_pow, lie_basis_size'])
p('C66','lie_to_tensor is the linear map sending every Hall key to its commutator polynomial',
  'lie_to_tensor(x, scale_factor=s) returns s times the sum of x_k e_k where e_k is the k-th letter or the commutator of the parents of key k; arrays of any other size are refused.',
  'every width and depth, every coordinate array, every scale factor','The matrix is assembled by an in-place sparse algorithm whose cancellations depend on the whole basis.',
  ['roughpy/compute/_src/lie_basis.c: construct_new_l2t, insert_l2t_commutator, add_product', 'roughpy/compute/__init__.py: lie_to_tensor', 'roughpy/compute/_src/dense_basic.cpp: py_dense_lie_to_tensor'])
p('C67','tensor_to_lie is the normalised Dynkin operator',
  'tensor_to_lie(t, scale_factor=s) returns the (unique) Hall coordinates of s times the sum over words u of t(u)/|u| times the right-nested bracket of u, whatever products were computed before.',
  'every width and depth, every tensor array, every history of the shared multiplication cache','Depends on cache state and on all words of the tensor algebra.',
  ['roughpy/compute/_src/lie_basis.c: construct_new_t2l, insert_t2l_rbracket, t2l_normalize_cols', 'roughpy/compute/__init__.py: tensor_to_lie', 'roughpy/compute/_src/dense_basic.cpp: py_dense_tensor_to_lie'])
p('C68','Tensor expressions evaluate in the truncated tensor algebra',
  'Any expression built from words by sums, differences, scaling, in-place addition, products, commutators, exp, log and fmexp of free tensors evaluates without error or out-of-bounds access, in sparse and in dense storage, to its value in the tensor algebra truncated at the context depth; == on results is equality there, so the ring laws hold.',
  'every width, depth, expression and coefficient','An infinite family of expressions; operands of different lengths and degrees meet in every product.',
  ['vendored/libalgebra_lite/algebra.h: base_multiplication, operator*, commutator', 'vendored/libalgebra_lite/free_tensor.h: free_tensor_multiplication::fma, fma_dense_traditional', 'vendored/libalgebra_lite/vector.h'])
p('C69','exp, log and fmexp of free tensors are inverse and consistent',
  'For a tensor x without scalar part, exp(x) is the exponential series up to the depth and log(exp(x)) = x; for g with scalar part one, exp(log(g)) = g; a.fmexp(x) = a*exp(x). In both storage modes.',
  'every width, depth and tensor','Power-series identities for all tensors and depths.',
  ['vendored/libalgebra_lite/free_tensor.h: exp, log, fmexp, fmexp_inplace, resize_to_degree'])
p('C70','Arithmetic on Lie elements computes in the truncated free Lie algebra',
  'Every expression built from Lie elements with +, -, scalar multiplication and division, the bracket * and the in-place forms evaluates, for sparse and dense elements, without reading or writing out of bounds, to the element whose image in the tensor algebra is the value of the expression with brackets read as commutators, up to the depth; == holds exactly when the values agree.',
  'every width, depth, expression, and every history of earlier products of that width (any depth)','Unbounded expressions, all Hall sets, and a process-wide cache of products that is shared between depths.',
  ['vendored/libalgebra_lite/algebra/lie_multiplier.cpp: operator()', 'vendored/libalgebra_lite/lie.h: lie_multiplication', 'vendored/libalgebra_lite/algebra.h: base_multiplication::fma, operator*, operator*=, commutator'])
p('C71','The Lie bracket satisfies the laws of a Lie algebra',
  'As compared by ==, a*b equals -(b*a), a*a is zero, the Jacobi identity holds, the bracket is linear in both arguments, and the in-place forms agree with the others; also when the two sides are computed at different times with different contents of the product cache.',
  'every width, depth, triple of Lie elements given by expressions, scalar, and pair of cache histories','Laws over all elements and histories.',
  ['vendored/libalgebra_lite/algebra/lie_multiplier.cpp: operator()', 'vendored/libalgebra_lite/lie.h: lie'])
p('C72','lie_to_tensor of a context expands keys into commutators',
  'Context.lie_to_tensor of a Lie element is the linear combination, with the coefficients of the element, of the commutator polynomials of its keys, in the storage type of the element.',
  'every width, depth, sparse or dense Lie element and every history of the maps','The expansions of keys are computed recursively and remembered; only a proof covers every history and element.',
  ['algebra/src/lite_context.h: lie_to_tensor', 'vendored/libalgebra_lite/maps.cpp: expand'])
p('C73','tensor_to_lie of a context is the normalised Dynkin operator',
  'Context.tensor_to_lie sends a tensor to the sum over words of its coefficient divided by the length times the right-nested bracket of the word; tensors that are Lie polynomials are sent to themselves.',
  'every width, depth, sparse or dense tensor and every history of the maps','Bracketings are computed recursively and remembered, using a shared cache of products; tests sample a few words.',
  ['algebra/src/lite_context.h: tensor_to_lie', 'vendored/libalgebra_lite/maps.cpp: rbracketing'])
p('C74','Constructing and converting elements keeps their value',
  'An element constructed from an array has the values of the array at the keys named by it; converting an element to another storage type or another depth keeps all coefficients up to the smaller depth; building an element from the keys and values another one shows gives an equal element.',
  'every array, element, pair of storage types and pair of depths','Errors show only for particular combinations of storage type, depth and key.',
  ['algebra/src/lite_context.h: construct_impl, convert_impl', 'algebra/src/libalgebra_lite_internal/lie_basis_info.h: convert_from_impl'])
p('C75','The signature of a context is the product of the exponentials',
  'Context.signature of a sequence of increments is the product of the exponentials of the increments, log_signature its logarithm, and the signature of two sequences one after the other is the product of their signatures.',
  'every sequence of rows, width, depth and storage type','Statement about all sequences; involves all terms of the series.',
  ['algebra/src/lite_context.h: compute_signature, signature, log_signature'])
p('C76','Contexts return the storage type asked for',
  'Functions of a context that take a storage type return an element of that storage type.',
  'every argument and storage type','Depends on the combination of storage types of arguments and result.',
  ['algebra/src/context.cpp: cbh', 'algebra/src/lite_context.h: convert, signature, construct_free_tensor'])
p('C77','Shuffle products of tensors',
  'shuffle_multiply and half_shuffle_multiply of two tensors of the context, and * and *= of shuffle tensors, return the (half) shuffle product of the elements the arguments stand for, up to the depth, in the storage type of the left argument, whatever products were computed before.',
  'every width, every depth of at least 1, every pair of tensors, dense or sparse, every history of products','Infinitely many tensors; results depend on a cache filled by earlier calls.',
  ['vendored/libalgebra_lite/algebra/half_shuffle_multiplier.cpp', 'vendored/libalgebra_lite/algebra/shuffle_multiplier.cpp', 'vendored/libalgebra_lite/shuffle_tensor.h:shuffle_multiply,half_shuffle_multiply', 'algebra/src/lite_context.h:LiteContext::shuffle_multiply,half_shuffle_multiply'])
p('C78','Laws of shuffle products',
  'shuffle_multiply is commutative and associative with the unit tensor as unit; for tensors without constant term the half shuffles x<y and y<x add up to the shuffle, and (x<y)<z = x<(y sh z). Results in the same storage type compare equal with ==.',
  'every width, every depth of at least 1, all tensors, every history of products','Laws over all triples of tensors.',
  ['algebra/src/lite_context.h:LiteContext::shuffle_multiply,half_shuffle_multiply', 'vendored/libalgebra_lite/shuffle_tensor.h'])
p('C79','Results of shuffle products can be used in further arithmetic',
  'A tensor returned by shuffle_multiply, half_shuffle_multiply or * can be used like any other tensor with the same coefficients: sums, differences and products that involve it give the right result and read no memory outside their storage.',
  'every pair of tensors, every further expression','Depends on degrees recorded in dense vectors that no comparison of coefficients shows.',
  ['vendored/libalgebra_lite/dense_vector.h', 'vendored/libalgebra_lite/algebra.h:base_multiplication::fma,multiply', 'algebra/src/lite_context.h:LiteContext::shuffle_multiply'])
p('C80','Bases are compared by their contents',
  'Two TensorBasis (or LieBasis) objects compare equal exactly if their width, depth, offsets and (for Lie bases) rows of parents are the same, whatever happened to the objects before; the comparison has no visible effect.',
  'every pair of basis objects and every history of constructions, hashes, comparisons and modifications','Comparison goes through cached hashes; needs all histories and all tables.',
  ['roughpy/compute/_src/tensor_basis.c: tensor_basis_test_equal', 'roughpy/compute/_src/lie_basis.c: lie_basis_test_equal, lie_basis_hash'])
p('C81','Names of indeterminates are read faithfully',
  'Two names given to Monomial denote the same indeterminate exactly if they have the same letter and the same number; the printed name of an indeterminate is read back as the same indeterminate.',
  'every pair of names, every indeterminate','Needs all names; collisions occur only at particular letters and numbers.',
  ['roughpy/src/scalars/r_py_polynomial.cpp: indeterminate_from_string, monomial_new', 'vendored/libalgebra_lite/packed_integer.h'])
p('C82','Products of monomials add exponents',
  'The product of two monomials has, for every indeterminate, the sum of the exponents; a monomial made from names and powers has the powers given. No product reads freed memory.',
  'every pair of monomials and every list of names and powers','Whether an iterator has become invalid depends on both factors; a test that happens to pass shows nothing about undefined behaviour.',
  ['vendored/libalgebra_lite/polynomial_basis.h: monomial::operator*=', 'vendored/libalgebra_lite/basis/monomial.cpp', 'roughpy/src/scalars/r_py_polynomial.cpp: monomial_mul, construct_new_monomial'])
p('C83','Operators on monomials and polynomials are those of the ring of Laurent polynomials',
  'For operands that are monomials, polynomials and numbers, +, -, *, / by a number, ** and unary - give the value of the operation in the ring of Laurent polynomials with rational coefficients, whichever side the number is on; == holds exactly if the values are equal.',
  'every pair of operands of all types, every exponent','A ring law needs all values; the dispatch has one case per pair of types.',
  ['roughpy/src/scalars/r_py_polynomial.cpp: monomial_add, monomial_sub, monomial_mul, monomial_div, polynomial_add, polynomial_sub, polynomial_mul, polynomial_pow, polynomial_div', 'vendored/libalgebra_lite/algebra/polynomial_multiplier.cpp'])
p('C84','Evaluation of a monomial is the product of powers',
  'The value of a monomial at values of the indeterminates is the product of their powers.',
  'every monomial and all values','Needs all monomials and all values.',
  ['vendored/libalgebra_lite/polynomial_basis.h: monomial::eval, power'])
p('C85','In-place operators agree with the operators',
  'x op= y binds to x the value of x op y, for monomials and polynomials, also if both operands are the same object.',
  'every operator, every pair of operands','Needs all pairs of types and values, and the case of one object on both sides.',
  ['roughpy/src/scalars/r_py_polynomial.cpp: monomial_inplace_*, polynomial_inplace_*'])
p('C86','In-place operators keep objects alive',
  'After x op= y every variable refers to a live object and no object is leaked.',
  'every operator, all operands, every namespace','Depends on reference counts; an object freed too early usually still looks intact.',
  ['roughpy/src/scalars/r_py_polynomial.cpp: monomial_inplace_mul, polynomial_inplace_mul, polynomial_inplace_add, polynomial_inplace_sub, polynomial_inplace_div'])
p('C87','Items of polynomials',
  'p[m] is the coefficient of the monomial m in p, and p[m] = c sets it.',
  'every polynomial, every monomial, every number','Needs all polynomials and monomials.',
  ['roughpy/src/scalars/r_py_polynomial.cpp: polynomial_subscript, polynomial_ass_subscript'])
p('C88','Archives of monomials and polynomials',
  'A monomial or a polynomial written to an archive is read back as the same.',
  'every monomial and polynomial','A round trip for all values; the error shows only for some pairs of terms.',
  ['scalars/include/roughpy/scalars/scalar_serialization.h: save, load of monomial and polynomial'])
p('C89','Monomials are totally ordered',
  'The comparisons of monomials come from one total order in which lower degree comes first.',
  'every triple of monomials','Transitivity and totality range over all triples.',
  ['vendored/libalgebra_lite/polynomial_basis.h: monomial::operator<, operator==', 'roughpy/src/scalars/r_py_polynomial.cpp: monomial_richcompare'])
p('C90','Arrays given through DLPack are read element by element',
  'A one- or two-dimensional array handed over through DLPack becomes one row, or one row per first index, holding the elements of the array converted to the scalar type, whatever the element type, strides, offset and scalar type are; an array that cannot be read this way (another device, more dimensions, an element type without conversion) raises.',
  'every array (type, shape, strides, memory) and every scalar type','Layouts and types form an unbounded family; tests use dense arrays of doubles.',
  ['roughpy/src/args/dlpack_helpers.cpp', 'roughpy/src/args/strided_copy.cpp: stride_copy', 'roughpy/src/args/parse_data_argument.cpp: handle_dltensor'])
p('C91','Buffers are read element by element',
  'The same as for DLPack arrays, for objects with the buffer protocol.',
  'every buffer (item type, shape, strides, memory) and every scalar type','Layouts and types form an unbounded family.',
  ['roughpy/src/args/buffer_info.h: BufferInfo', 'roughpy/src/args/parse_data_argument.cpp: handle_buffer'])
p('C92','Time stamps given as a buffer are read element by element',
  'Time stamps given as a buffer of numbers are the elements of the buffer in order, whatever the strides are.',
  'every buffer of time stamps','Strides form an unbounded family.',
  ['roughpy/src/streams/lie_increment_stream.cpp: buffer_to_indices'])
p('C93','Type tags survive packing',
  'A type tag packed into a word together with a few flag bits is read back unchanged, whether it is a pointer to a type object or a description of a fundamental type.',
  'every aligned pointer, every type description and every value of the flags','All values of a packed word cannot be enumerated by hand.',
  ['scalars/include/roughpy/scalars/packed_scalar_type_ptr.h: PackedScalarTypePointer'])
p('C94','The scalar type of mixed data holds all of it',
  'The scalar type chosen for data of several types is the one asked for if there is one; otherwise it does not depend on the order of the data, and every number of the data is represented in it without loss.',
  'every list of types and every request','Order independence ranges over all permutations of all lists.',
  ['roughpy/src/args/parse_data_argument.cpp: compute_scalar_type'])
p('C95','Nested data is read as written',
  'A list or tuple of numbers is one row, a dictionary one sparse row, a list or tuple of rows is these rows in order, with every number converted to the scalar type; a stream made from it has these rows as increments; data of another form, or nested deeper than allowed, raises.',
  'every nested Python value','Nested values are an unbounded tree-shaped family.',
  ['roughpy/src/args/parse_data_argument.cpp: parse_data_argument, check_and_compute_type', 'roughpy/src/streams/lie_increment_stream.cpp: fill_ks_stream'])
p('C96','Increment streams get time stamps, support, width and resolution that fit the data',
  'LieIncrementStream.from_increments gives the rows the time stamps asked for (a list, a running sum of a column, or 0, 1, 2, ...), raises if their number is wrong, has a support that contains all time stamps and a width that fits all rows, keeps a resolution that is given, and otherwise chooses one that tells the time stamps apart.',
  'every list of rows, every form of time stamps, every resolution and width','Rows and time stamps are arbitrary lists of numbers.',
  ['roughpy/src/streams/lie_increment_stream.cpp: lie_increment_stream_from_increments', 'roughpy/src/args/kwargs_to_path_metadata.cpp: param_to_resolution'])
p('C97','Degree of a polynomial',
  'The degree of a polynomial other than zero is the largest degree of its monomials.',
  'every polynomial','A statement about a maximum over all polynomials.',
  ['roughpy/src/scalars/r_py_polynomial.cpp: polynomial_degree', 'vendored/libalgebra_lite/sparse_vector.h: degree'])
p('C98','Scalars do not leak or free twice',
  'Whatever a program does with scalars (making, copying, moving, assigning, adding, destroying), every object that the library allocates for a scalar belongs to exactly one living scalar and is freed exactly once; when all scalars are gone nothing is left, and nothing undefined happens on the way.',
  'every program over scalars, every sequence of operations','Ownership must hold after every history; a test follows one.',
  ['scalars/src/scalar.cpp: Scalar copy, move, destructor', 'scalars/src/scalar.cpp: Scalar::operator=', 'scalars/include/roughpy/scalars/scalar.h: change_type'])
p('C99','A copy of a scalar is equal and independent',
  'A copy of a scalar has the type and the value of the original; afterwards no operation on one changes the other, and moving from a scalar hands over its value.',
  'every scalar of every type and storage, every later history','Aliasing shows only after some later operation on one of the two.',
  ['scalars/src/scalar.cpp: Scalar(const Scalar&)', 'scalars/src/scalar.cpp: Scalar(Scalar&&)'])
p('C100','Assignment to a scalar',
  'After x = y the scalar x has the value of y converted to the type of x, y is unchanged, and a reference passes the value on to the element it refers to; assigning to a constant reference throws.',
  'all pairs of scalars of all types and storages','The outcome depends on the pair of storages and types and on the value.',
  ['scalars/src/scalar.cpp: Scalar::operator=(const Scalar&)', 'scalars/src/scalar.cpp: Scalar::operator=(Scalar&&)', 'scalars/include/roughpy/scalars/scalar.h: operator=(const T&)'])
p('C101','Sum, difference and product of scalars',
  "x += y, x -= y, x *= y (and x + y, x - y, x * y) give the sum, difference and product in the more general of the two types; for rational numbers and polynomials it is exact, for floating numbers it is the machine's operation, and for integers it is exact if the type can hold it.",
  'all pairs of types and all values','There are as many cases as pairs of types and storages, and the claim is about all values.',
  ['scalars/src/scalar/arithmetic.cpp: scalar_inplace_arithmetic', 'scalars/src/scalar/type_promotion.cpp: compute_type_promotion', 'scalars/src/scalar/casts.cpp: scalar_convert_copy'])
p('C102','Negative of a scalar',
  '-x has the type of x and the negative of its value.',
  'every scalar','A claim about all values of all types.',
  ['scalars/src/scalar/arithmetic.cpp: Scalar::operator-'])
p('C103','Equality of scalars',
  'x == y holds exactly if x and y stand for the same number or polynomial, whatever their types; it always answers, and it is symmetric.',
  'all pairs of scalars of all types','Equality across types is wrong only near limits of precision and for special values.',
  ['scalars/src/scalar/comparison.cpp: operator==', 'scalars/src/scalar/comparison.cpp: compare_wrap_equal', 'scalars/src/scalar.cpp: is_zero'])
p('C104','Quotient of scalars',
  'x /= y gives the quotient in the more general of the two types (exact for rational numbers, cut towards zero for integers), and throws if y is zero.',
  'all pairs of types and all values','There are as many cases as pairs of types.',
  ['scalars/src/scalar/arithmetic.cpp: Scalar::operator/=', 'scalars/include/roughpy/scalars/traits.h: rational_type_of'])
p('C105','Segmentation finds the parts where a predicate holds',
  'segment(interval, predicate, max_depth) with a predicate that tells whether an interval lies inside a set returns intervals that lie inside the set, in increasing order and apart from each other, such that a point of the given interval belongs to one of them exactly if the dyadic part of depth max_depth of the given interval around the point lies inside the set. For any predicate at all, what is returned is made of adjacent dyadic parts for which the predicate holds.',
  'all intervals, predicates, sets and depths','The search walks a tree of depth max_depth from right to left and skips what it has found already; a test tries a few sets.',
  ['intervals/include/roughpy/intervals/segmentation.h:segment', 'intervals/src/segmentation.cpp:segment', 'intervals/src/dyadic_searcher.cpp:DyadicSearcher', 'intervals/src/scaled_predicate.cpp:ScaledPredicate'])
p('C106','Segments lie inside the interval',
  'Every interval returned by segment(interval, predicate, max_depth) is part of the given interval.',
  'all intervals, predicates and depths','It depends on what the predicate says outside of the interval, which tests with sets inside of it never ask.',
  ['intervals/src/dyadic_searcher.cpp:expand_left', 'intervals/src/dyadic_searcher.cpp:expand_right'])
p('C107','A stream built from values has those values',
  'For every list of (time, value) pairs with distinct times, in any order, where the values are group-like tensors or Lie elements of one context, the tensor-valued stream built from the list starts at the earliest time with that value, ends with the latest value, and at every time in between (at least one resolution cell after a sample and not after the next one) has the value of the latest sample; whatever values, sub-streams or signatures were asked for before. Lists with unusable items are refused.',
  'all lists of samples, all orders, all resolutions, all times of the domain, all histories of earlier operations','the number, order and spacing of samples and the earlier operations that fill the shared cache are unbounded; tests use one evenly spaced list',
  ['roughpy/src/streams/tensor_valued_stream.cpp:stvs_from_values', 'streams/src/tensor_valued_stream.cpp:TensorValuedStream::value_at', 'streams/src/tensor_valued_stream.cpp:TensorValuedStream::terminal_value', 'roughpy/src/args/kwargs_to_path_metadata.cpp:param_to_resolution'])
p('C108','The value at the time of a sample is that sample',
  'For every stream built from values and every sample, the value of the stream at the time of the sample (for instance the initial value of a query starting there) is the value of that sample.',
  'all lists of samples with distinct times and all samples in them','a test with one list and a tolerance in time does not distinguish the value before from the value after',
  ['roughpy/src/streams/tensor_valued_stream.cpp:stvs_from_values', 'streams/src/tensor_valued_stream.cpp:TensorValuedStream::value_at'])
p('C109','Queries of a value stream agree with the stream',
  'For every value stream and every interval meeting its domain, the stream returned by a query covers the common part, starts with the value of the original stream there, has the same values as the original stream throughout and ends with the value of the original stream at its end; intervals apart from the domain and parameters outside of it are refused; none of this depends on what was asked before.',
  'all value streams over cached increments, all intervals, all parameters, all histories','streams, intervals and histories are unbounded and sub-streams share a cache with the original',
  ['streams/src/tensor_valued_stream.cpp:TensorValuedStream::query', 'streams/src/tensor_valued_stream.cpp:TensorValuedStream::value_at', 'intervals/src/intersection_and_union.cpp:intersection'])
p('C110','The signature of a value stream takes the initial to the terminal value',
  'For every value stream, the initial value times the signature over the domain is the terminal value; signatures over adjacent intervals multiply at every resolution, agree at all resolutions from the one of the increments on, and report nothing outside of the domain.',
  'all value streams over cached increments, all intervals, all resolutions, all histories','resolutions, intervals and histories are unbounded',
  ['streams/src/tensor_valued_stream.cpp:TensorValuedStream::log_signature_impl', 'streams/src/stream_base.cpp:StreamInterface::log_signature', 'roughpy/src/streams/tensor_valued_stream.cpp:stvs_signature'])
p('C111','Programs on tensors and Lie elements compute in the algebra',
  'Any sequence of the arithmetic operations a user can apply to free tensors (or Lie elements) of one context - sums, differences, products, scalar multiples and quotients, their in-place forms and the fused forms (add_scal_mul, sub_mul, ...) - with any mixture of dense, sparse and unset operands and with operands that are the same object gives the elements that the same sequence gives in the truncated tensor algebra (free Lie algebra), where an unset element counts as zero; every result keeps the storage type of its left operand.',
  'all contexts, all programs of any length, all values and storage types, all aliasing of variables','errors need a particular order of operations, storage types and aliasing; tests apply operations one at a time to operands of one storage type',
  ['algebra/include/roughpy/algebra/algebra_base_impl.h: AlgebraBase', 'algebra/include/roughpy/algebra/implementors/algebra_impl.h: AlgebraImplementation', 'roughpy/src/algebra/setup_algebra_type.h'])
p('C112','Operands of different contexts and zero divisors are refused',
  'An operation whose operands are set and do not all belong to one context raises an exception and does not return a value; so does every division by zero.',
  'all operations, all contexts, all elements, all positions of the foreign operand','the foreign operand may be any of up to three operands of twenty operations, of equal or different width',
  ['algebra/include/roughpy/algebra/algebra_base_impl.h: AlgebraBase', 'algebra/include/roughpy/algebra/implementors/algebra_impl.h: AlgebraImplementation', 'roughpy/src/algebra/setup_algebra_type.h', 'algebra/src/algebra_base.cpp: check_contexts_compatible'])
p('C113','Equality of elements',
  'x == y always answers; it is true if and only if x and y stand for the same element, whatever their storage types; an unset element equals exactly the elements that are zero; elements of different widths are different.',
  'all pairs of elements of all contexts and storage types, including unset ones','two dense vectors of different lengths, or a dense and a sparse one, can stand for one element in many ways',
  ['algebra/include/roughpy/algebra/algebra_base_impl.h: AlgebraBase', 'algebra/include/roughpy/algebra/implementors/algebra_impl.h: AlgebraImplementation', 'roughpy/src/algebra/setup_algebra_type.h'])
p('C114','Reading coefficients',
  't[i] is the coefficient of the i-th word of the basis for every tensor t and every i in the range of the basis, and l[n] is the coefficient that iteration shows for the key numbered n, whatever the storage type.',
  'all elements, all indices','a dense vector stores only a prefix of the coefficients, of any length',
  ['algebra/include/roughpy/algebra/algebra_base_impl.h: AlgebraBase', 'algebra/include/roughpy/algebra/implementors/algebra_impl.h: AlgebraImplementation', 'roughpy/src/algebra/setup_algebra_type.h', 'algebra/src/libalgebra_lite_internal/tensor_basis_info.h', 'algebra/src/libalgebra_lite_internal/lie_basis_info.h'])
p('C115','Pairing of shuffle tensors with tensors',
  's @ t is the sum over all words up to the depth of the product of the coefficients of s and t, whatever the storage types; tensors of different contexts are refused.',
  'all pairs of tensors, storage types and contexts','the sum ranges over all words and the storage of either side may be any prefix or subset',
  ['roughpy/src/algebra/shuffle_tensor.cpp: shuffle pairing', 'algebra/include/roughpy/algebra/algebra_base_impl.h: AlgebraBase', 'algebra/include/roughpy/algebra/implementors/algebra_impl.h: AlgebraImplementation', 'roughpy/src/algebra/setup_algebra_type.h'])
p('C116','The memory of scalar arrays is given back exactly once',
  'However arrays of scalars are created, copied, moved, assigned, sliced, viewed, converted and destroyed, the memory the library allocated for them stays available as long as an array owns it, is given back when the last owner is gone, and is never given back twice; memory of the user is never given back.',
  'every program of array operations, every order of destruction, every initial content of fresh memory','Reference counts go wrong only for particular histories of copies and destructions, and freshly allocated memory happens to be zero in most test runs.',
  ['scalars/src/scalar_array.cpp', 'scalars/include/roughpy/scalars/scalar_array.h', 'platform/include/roughpy/platform/devices/device_object_base.h ObjectBase', 'platform/src/devices/host/host_buffer.cpp'])
p('C117','Arrays of scalars hold what was last written to them',
  'Reading an element of an array gives the number last written to that element through any array that shares it: copies, slices and views of an array share its elements, a new array has zeros of its own, moving hands the elements over, and no operation changes an element it does not name.',
  'every program of array operations, every array, index and number','Which arrays share an element depends on the whole history of copies, slices and moves.',
  ['scalars/src/scalar_array.cpp', 'scalars/include/roughpy/scalars/scalar_array.h'])
p('C118','Bounds and constness of scalar arrays',
  'Indexing or slicing an array beyond its size raises; an array of constants cannot be written to, nor can anything made from it; memory handed to the library as constant is never changed, whatever is done with the arrays over it.',
  'every program of array operations, every index and every piece of memory','Tests index a few arrays; that constant memory is never changed is a statement about every possible program.',
  ['scalars/src/scalar_array.cpp', 'scalars/include/roughpy/scalars/scalar_array.h'])
p('C119','Assigning and converting arrays of scalars copies every element',
  'After a = b the array a has the type, size and elements of b in memory of its own; a converting copy sets every element of the target to the converted element of the source, leaves the source as it is, and raises if an element cannot be converted.',
  'every pair of arrays, of any storage, type and size','The outcome depends on the combination of storage modes, types and sizes of both arrays.',
  ['scalars/src/scalar_array.cpp', 'scalars/include/roughpy/scalars/scalar_array.h', 'scalars/src/scalar_type.cpp ScalarType::convert_copy', 'scalars/src/scalar_types/standard_scalar_type.h convert_copy', 'scalars/src/scalar/casts.cpp'])
p('C120','A LieKey built from a nested list is that bracket',
  'LieKey(obj) accepts a letter of the basis or a nested list of pairs of letters of the basis and nothing else; str of the key is the list as it was given, so keys with equal texts come from equal lists.',
  'every Python object and every width','There are infinitely many nested lists; the flattening into offsets depends on the shapes of all parts.',
  ['roughpy/src/algebra/lie_key.cpp', 'roughpy/src/algebra/lie_letter.h', 'parse_key ToLieKeyHelper PyLieKey::to_string'])
p('C121','Iterating over a Lie basis lists the Hall brackets in order',
  'Iterating over a Lie basis gives every Hall bracket of the letters up to the depth once, in increasing order, and nothing else; str(key) is the text of the bracket and is the text with which elements are printed, whatever was printed before. Key numbers and ranges outside the basis are refused.',
  'every width and depth, every range of an iterator, every history of texts asked for','The number of brackets grows exponentially with the depth, and the texts are cached globally.',
  ['roughpy/src/algebra/lie_key.cpp', 'roughpy/src/algebra/lie_letter.h', 'roughpy/src/algebra/lie_key_iterator.cpp', 'roughpy/src/algebra/basis.cpp', 'algebra/src/libalgebra_lite_internal/lie_basis_info.h', 'vendored/libalgebra_lite/hall_set.h hall_extension'])
p('C122','Reading a coefficient by its key reads that coefficient',
  'lie[key] is the coefficient of the basis element that key stands for, for keys from an iteration over the basis and for keys built from lists.',
  'every width and depth, every key of the basis','Every key takes its own path through the recursion that finds its number.',
  ['roughpy/src/algebra/lie_key.cpp', 'roughpy/src/algebra/lie_letter.h to_internal_key_recurse', 'roughpy/src/algebra/lie.cpp __getitem__'])
p('C123','Degree, parts and equality of a LieKey are those of its bracket',
  'In the C++ interface key.degree() is the number of letters, lparent and rparent are the two parts of the bracket, and keys are equal exactly if their brackets are.',
  'every pair of brackets, of any shape and size','Whether offsets are right depends on the shape of all parts of both brackets.',
  ['roughpy/src/algebra/lie_key.cpp', 'roughpy/src/algebra/lie_letter.h degree equals branches_equal trim_branch walk_tree lparent rparent'])
p('C124','Keys and indices of a Lie basis are inverse to each other',
  'basis.index_to_key(i) is the i-th key of the iteration for i below the dimension and raises beyond; basis.key_to_index inverts it; basis.parents(key) are the keys of the two parts.',
  'every width and depth, every index and key','Holds or fails for all keys of all bases at once.',
  ['roughpy/src/algebra/basis.cpp index_to_key key_to_index parents', 'algebra/src/libalgebra_lite_internal/lie_basis_info.h'])
p('C125','Queries are about the interval and the resolution given',
  'stream.signature and stream.log_signature accept an interval, or two end points, or a dyadic interval, or nothing, and a resolution as a level or as an accuracy. The query made is about exactly this interval (the support if none is given) at this resolution (the level, or the coarsest level that reaches the accuracy); everything else is rejected.',
  'all combinations of positional and keyword arguments, all intervals, numbers and resolutions','the parser distinguishes many combinations of argument types; tests try a few of them',
  ['roughpy/src/streams/signature_arguments.cpp: parse_sig_args, resolution_converter', 'streams/src/stream.cpp: Stream::signature, Stream::log_signature'])
p('C126','Queries are answered in the context asked for',
  'A query with ctx is answered in this context; without ctx, in the context of the stream with the depth and the scalar type that are given changed. Arguments that cannot be met raise an exception.',
  'all contexts, depths, scalar types in all the forms accepted, and streams','combinations of optional arguments; error branches that end the process cannot be tested in the process',
  ['roughpy/src/streams/signature_arguments.cpp: parse_sig_args', 'algebra/src/context.cpp: get_context'])
p('C127','Derivatives are taken along the perturbations given',
  'stream.signature_derivative accepts an interval and a perturbation, a pair, or a sequence of pairs, with a resolution and a depth. The derivative is computed from these pairs in this order, at the resolution and in the context the signature of the same arguments is computed in.',
  'all argument forms, all lists of pairs, all resolutions and depths','overloaded positional arguments; the forms that collide are found by case analysis only',
  ['roughpy/src/streams/stream.cpp: sig_deriv', 'streams/src/stream.cpp: Stream::signature_derivative'])
p('C128','simplify keeps the log signature over every piece',
  'stream.simplify(partition) gives a piecewise stream with one piece per interval of the partition, whose value is stream.log_signature over this interval in the context asked for; support and metadata are those of the stream.',
  'all streams, partitions, resolutions, contexts','must hold for every partition and every combination of optional arguments',
  ['roughpy/src/streams/stream.cpp: simplify_stream', 'streams/src/stream.cpp: Stream::simplify'])
p('C129','Metadata, context and schema of a new stream agree',
  'Whatever keyword arguments a stream is made with, width, depth and scalar type of its metadata are those of its context, and the schema has as many dimensions as the width.',
  'all combinations of schema, channel_types, include_time, ctx, width, depth, dtype, and all data','the combinations of ten optional arguments are far too many to test',
  ['roughpy/src/args/kwargs_to_path_metadata.cpp: kwargs_to_metadata', 'roughpy/src/streams/schema_finalization.cpp: finalize_schema', 'roughpy/src/streams/tick_stream.cpp', 'roughpy/src/streams/lie_increment_stream.cpp', 'roughpy/src/streams/brownian_stream.cpp', 'roughpy/src/streams/function_stream.cpp', 'roughpy/src/streams/piecewise_abelian_stream.cpp'])
p('C130','A stream is made with the context, width, depth and scalar type asked for',
  'If a constructor of a stream is given ctx, the stream has this context; otherwise it has a context with the width, depth and scalar type that are given. Requests that cannot be met raise an exception and are never replaced silently.',
  'all combinations of keyword arguments','conflicts between optional arguments are resolved in an order that only shows in rare combinations',
  ['roughpy/src/args/parse_algebra_configuration.cpp: parse_algebra_configuration', 'roughpy/src/args/kwargs_to_path_metadata.cpp: kwargs_to_metadata', 'roughpy/src/streams/schema_finalization.cpp: finalize_schema'])
p('C131','include_time adds a channel for time',
  'A stream made with include_time=True from data with n dimensions has width n + 1; time is the last channel and the n dimensions of the data are unchanged.',
  'all data, all widths, all keyword arguments','the collision of channels depends on how width is determined, which differs between constructors',
  ['roughpy/src/streams/lie_increment_stream.cpp: lie_increment_stream_from_increments', 'roughpy/src/streams/schema_finalization.cpp: last_minute_setup', 'streams/src/lie_increment_stream.cpp: LieIncrementStream', 'streams/src/schema.cpp: time_channel_to_lie_key'])
p('C132','Pickling intervals and partitions',
  'For every dyadic number, dyadic interval, real interval and partition x that a user can make, pickle.loads(pickle.dumps(x)) has the same ends, type and intermediate points as x.',
  'all dyadic numbers, dyadic intervals, real intervals of both types, and all partitions reachable by construction, insertion, refinement and merging','The states are unbounded; a test pickles a few partitions, and only those holding an end point of their interval, or out of order, come back changed.',
  ['roughpy/src/intervals/dyadic.cpp: py::pickle', 'roughpy/src/intervals/dyadic_interval.cpp: py::pickle', 'roughpy/src/intervals/real_interval.cpp: py::pickle', 'roughpy/src/intervals/partition.cpp: py::pickle', 'intervals/src/partition.cpp: Partition::Partition'])
p('C133','Pickling elements',
  'For every free tensor, shuffle tensor and Lie element x, of every width, depth, scalar type and storage type, set or not, pickle.loads(pickle.dumps(x)) succeeds and equals x: same context, same scalar type, same storage type, the same coefficient for every key.',
  'all contexts, all three classes, all coefficients and all numbers of stored entries, dense, sparse and unset elements','The archive depends on class, context, storage type, scalar type and every coefficient; a test pickles a few dense elements.',
  ['roughpy/src/algebra/setup_algebra_type.h: py::pickle', 'algebra/include/roughpy/algebra/algebra_base_impl.h: AlgebraBase::save, AlgebraBase::load', 'algebra/src/context.cpp: get_context_spec, from_context_spec', 'algebra/src/algebra_base.cpp: construct_dense_algebra, try_create_new_empty', 'scalars/src/scalar/raw_bytes.cpp: to_raw_bytes, from_raw_bytes', 'scalars/src/scalar.cpp: Scalar::operator=, Scalar::mut_pointer'])
p('C134','Damaged pickles of elements are refused',
  'Unpickling a byte string that is the pickle of an element cut short at any place, or the pickle of an element of another class, raises an exception: it never gives an element and never has undefined behaviour.',
  'all elements, all places at which a pickle can be cut, all pairs of classes','There are as many truncations as bytes and as many pickles as elements; a test tries a few.',
  ['roughpy/src/algebra/setup_algebra_type.h: py::pickle', 'algebra/include/roughpy/algebra/algebra_base_impl.h: AlgebraBase::load', 'scalars/include/roughpy/scalars/scalar_array.h: ScalarArray::load', 'algebra/src/algebra_base.cpp: construct_dense_algebra'])
p('C135','A schema written as a Python object gives the channels it describes',
  "StreamSchema.parse, and the argument schema of the stream constructors, turn a dict or a sequence of entries into a schema with exactly one channel per entry, in order, with the given label, type and options. The layouts {label: {'type': ..., **options}}, {label: (type, options)}, [{'label': ..., 'type': ..., **options}] and [(label, type, options)] mean the same, options may be left out, and an entry that is malformed or repeats a label raises an exception.",
  'every list of labels with types and options, and every Python object that writes it in one of the layouts','The nesting of Python objects, the labels and the options are unbounded; tests write a handful of schemas.',
  ['roughpy/src/args/parse_schema.cpp: parse_schema, handle_seq_item, handle_dict_item, insert_item_to_schema', 'streams/src/schema.cpp: StreamSchema::insert'])
p('C136','Tick data means the same in every layout',
  'TickStream.from_data and StreamSchema.from_data read ticks (time, label, type, data) from nested dicts, lists and tuples. Every accepted layout (flat tuples, records, dicts keyed by time, label or type, nested tuples, lists of these, and numbers or strings whose type is left out) gives exactly the ticks it stands for, in order; no object can be read in two ways, and an object in no layout raises an exception.',
  'every nested Python object made of dicts, lists, tuples and values','The layouts nest and combine without bound and the dispatch depends on lengths and key names; tests use a few fixed shapes.',
  ['roughpy/streams/tick_stream.py: StandardTickDataParser.visit, handle_dict, handle_list, handle_tuple, handle_any'])
p('C137','No tick is lost without an exception',
  'When a stream or a schema is built from tick data, every tick is recorded once, in order, under its label, with its time and data and according to its type; a tick whose type is not supported raises an exception.',
  'every list of ticks, and every type, spelled in any way','Ticks are dropped on a path with no observable effect but the absence of the tick; the space of types is infinite.',
  ['roughpy/streams/tick_stream.py: BaseTickDataParser.convert_channel_type, BaseTickDataParser.insert'])
p('C138','The time of a tick is the time given',
  'Ticks given to TickStream.from_data are recorded with the label, type and data given, at the time given (a number, or a date and time), with ties in the order given; the order of the data does not matter otherwise, and a time that cannot be used raises.',
  'all schemas and all finite lists of ticks with any Python objects as times','Tests use floats in order starting at 0; kinds of time stamps, order and mixtures of kinds are unbounded.',
  ['roughpy/src/streams/r_py_tick_construction_helper.cpp: add_tick', 'roughpy/src/args/convert_timestamp.cpp: convert_delta_from_datetimes, generic_to_timestamp, pytimedelta_to_param'])
p('C139','The schema found from tick data',
  'StreamSchema.from_data and TickStream.from_data find one channel for every label, in the order in which labels appear, of the type of its ticks, with the variants that appear; ticks of one label with different types are refused; a final schema is never changed.',
  'all finite lists of ticks','Labels, types and orders of ticks are unbounded; conflicts show only in particular orders.',
  ['roughpy/src/streams/r_py_tick_construction_helper.cpp: add_increment_to_schema, add_value_to_schema, add_categorical_to_schema', 'roughpy/src/streams/schema.cpp: schema_from_data'])
p('C140','A stream made from tick data has the signature of its ticks',
  'For the stream made by TickStream.from_data from increments and values, in any layout and order, the signature over an interval is the product in order of time of the signatures of the changes of the path at the ticks in the interval: a value changes its channel by the difference to the value before, an increment by its amount, and with include_time every tick changes the last channel by the time since the tick before.',
  'all data in all layouts, all keyword arguments without a schema, all intervals and resolutions','Tests query a few streams over the whole of [0,1); data, order of data, labels and intervals are unbounded.',
  ['roughpy/src/streams/tick_stream.cpp: construct', 'streams/src/tick_stream.cpp: TickStream::log_signature_impl, recursive_logsig', 'streams/src/stream.cpp: refine_interval, check_support_and_trim'])
p('C141','tensor_functions.Log is the linear extension of the logarithm',
  'For every tensor x of a context of any width and depth, Log(x) returns an element of the same context, Log is linear in x, and for every group-like x (constant term one, coefficients multiplicative on shuffle products up to the depth) Log(x) equals the logarithm series of x - 1 truncated at the depth, the value of x.log().',
  'all widths and depths, all tensors over a field of characteristic zero; group-like ones for the agreement','The agreement is an identity between power series in the coefficients that must hold on the whole group at every depth; the one test evaluates a depth-two example.',
  ['roughpy/tensor_functions.py: Log, _convolve, _tensor_product_functions, _concatenate, _adjoint_of_shuffle, _remove_constant', 'roughpy/src/algebra/tensor_key.cpp: operator* of keys', 'roughpy/src/args/parse_data_argument.cpp: RPY_CHECK(as_dict.size() > 0)'])
p('C142','TensorTensorProduct is the external tensor product',
  'TensorTensorProduct((x, y)) has, for every pair of words, the product of the coefficients of x and y; sums, scalar multiples and the fused updates add_scal_prod, add_scal_div and sub_scal_div act coefficientwise; and two products with the same coefficients hold the same entries.',
  'all pairs of tensors, all products and scalars over a field','Bilinearity and the absence of duplicate or cancelled entries must hold for all dictionaries of pairs of words; a test only sees a few.',
  ['roughpy/tensor_functions.py: TensorTensorProduct'])
p('C143','The antipode of a free tensor reverses its words with alternating sign',
  'For every free tensor t of a context, dense or sparse, t.antipode() returns a tensor of the same depth whose coefficient at a word of n letters is (-1)^n times the coefficient of t at the reversed word, without touching memory outside the two tensors; hence the antipode of the antipode is t, the antipode of a product is the product of the antipodes in the opposite order, and the antipode of a signature is its inverse.',
  'all widths, depths, coefficients, storage types and sizes of the tiles in which dense levels are reversed','The levels of a dense tensor are handled by three different loops, chosen by the depth, the degree and a tile size fixed at compile time; a test with small depth never reaches the tiles with a non-empty middle part, and no finite set of tensors covers every permutation of a level.',
  ['vendored/libalgebra_lite/free_tensor.h: antipode, antipode_helper', 'vendored/libalgebra_lite/basis/unpacked_tensor_word.cpp: advance, to_reverse_index', 'vendored/libalgebra_lite/tensor_basis.h: reverse_idx, reverse_key', 'algebra/src/libalgebra_lite_internal/free_tensor_impl.h'])
p('C144','adjoint_to_free_multiply is the adjoint of left multiplication',
  'For all tensors a, f of one context, FreeTensor or ShuffleTensor, dense or sparse, adjoint_to_free_multiply(a, f) returns a tensor r of the same context with <r, x> = <f, a*x> for every x, r can be used like any other tensor (in particular as an argument of the same function), and no memory outside the operands is accessed; objects that are not tensors raise an exception.',
  'every width, depth, pair of tensors, storage types, classes and every test tensor x','One kernel per pair of storage types, each with its own index arithmetic over all degrees; the tests use one dense pair of width 2 and depth 2 and do not use the result further.',
  ['roughpy/src/algebra/free_multiply_funcs.cpp:adjoint_to_free_multiply', 'vendored/libalgebra_lite/free_tensor.h:left_ftm_adjoint', 'algebra/src/lite_context.h:adjoint_to_left_multiply_by', 'vendored/libalgebra_lite/tensor_basis.h:parents'])
p('C145','Keyed scalar arrays own their keys',
  'An array of scalars with keys keeps each scalar with its key: a copy, an assignment and a move give the new array the keys of the original; keys that the library allocated are given back exactly once, when their owner is gone, and keys of the user never; no operation changes the keys of an array it does not name, reads keys out of bounds or after they were freed.',
  'every program of constructions, copies, moves, assignments, allocations of keys, writes of keys and destructions of keyed arrays','Ownership is recorded in a flag beside a raw pointer; what a copy or a destructor does depends on the whole history of the array. The tests construct single arrays.',
  ['scalars/src/key_scalar_array.cpp:KeyScalarArray', 'scalars/include/roughpy/scalars/key_scalar_array.h:KeyScalarArray'])
p('C146','Streams of rows give back the rows',
  'Rows pushed to a stream of scalar rows, with keys or without, are read back in order with the keys they were pushed with; the numbers of rows and columns are those pushed, and a row that does not exist raises. A stream of an array with a shape (rows, columns) has that many rows, element k of row i being element i*columns+k of the array, and raises when the array is too short.',
  'every sequence of rows, with and without keys, every array, shape and index','Keys and rows are kept in two lists that must stay aligned over every order of pushes; the tests do not push rows without keys after rows with keys, nor read beyond the end.',
  ['scalars/src/scalar_stream.cpp:ScalarStream', 'scalars/src/key_scalar_stream.cpp:KeyScalarStream'])
p('C147','Shared objects are destroyed once, after every use, in every schedule',
  'An object that any number of threads hold counted pointers to (buffers of arrays, types, devices, queues, events) stays alive while one of them has a pointer; when the last pointer is dropped, by whichever thread, it is destroyed exactly once, and every use by every thread happens before its destruction in the sense of the C++ memory model; ref_count() is the number of pointers.',
  'every number of threads, every interleaving of copies, moves, uses and drops, every memory order the hardware allows','A test runs a few schedules on one machine; the claim is about all interleavings and about memory orders weaker than those of the test machine.',
  ['platform/include/roughpy/platform/reference_counting.h:RefCountedMiddle', 'platform/include/roughpy/platform/devices/device_object_base.h:RefCountBase', 'platform/include/roughpy/platform/devices/device_object_base.h:ObjectBase'])
p('C148','The functions of roughpy.compute act on every tensor of a batch',
  'For arrays of any number of leading dimensions of equal sizes, with any strides of these dimensions, ft_fma, ft_mul, ft_inplace_mul, antipode, st_fma, ft_exp, ft_log, ft_fmexp and ft_adjoint_left_mul leave in the output, at every index of the batch, the result of the operation on the tensors at that index of the operands. Nothing else in memory changes. Operands that do not fit raise an error and nothing is read or written outside the arrays.',
  'all batch shapes, all strides of the batch dimensions, all places in memory, all widths and depths, all coefficients','tests use a few small contiguous batches; a wrong step of the index or a row read at the wrong place shows only for other shapes or strides',
  ['roughpy/compute/_src/py_binary_array_fn.hpp:binary_function_outer', 'roughpy/compute/_src/py_ternary_array_fn.hpp:ternary_function_outer', 'roughpy/compute/_src/check_dims.hpp:check_dims', 'roughpy/compute/__init__.py:ft_fma,ft_mul,ft_inplace_mul,antipode,st_fma,ft_exp,ft_log,ft_fmexp,ft_adjoint_left_mul'])
p('C149','Conversions between number types keep the number or say so',
  'A conversion between two of the built-in number types that is asked to be exact either gives the same number in the destination type or is refused, and then leaves the destination as it was; it is refused only if the number is not one of the destination type. A conversion that says it is always exact always gives the same number. Without the request an integer is taken modulo the range of the destination and a floating-point number loses its fraction; a number out of range is refused. The conversion that is looked up for two types is the one from the first to the second.',
  'every pair of built-in types, every number of the first, with and without the request for exactness','There are a hundred pairs of types with up to 2^64 numbers each; the tests look at the exactness flags of a few pairs and at conversions of small numbers.',
  ['platform/src/generics/builtin_types/conversion_helpers.h:ConversionHelper', 'platform/include/roughpy/generics/conversion_trait.h:ConversionTraitImpl', 'platform/src/generics/conversion_impl.h:build_conversion_to_table', 'platform/src/generics/builtin_types/builtin_type_methods.h:convert_to'])
p('C150','Values of run-time type compute and compare as the numbers they hold',
  'A generic value holds the number it was made from or assigned, converted to its type if it has one. The sum, difference, product and quotient of two values are those of their numbers, in a type that holds both; the operations with assignment leave the result in the left operand. Two values compare as their numbers do. Combinations that cannot be computed are refused with an exception.',
  'all values of the built-in types, all operations, all comparisons, values and references to objects elsewhere','The tests use two doubles. Other types and mixed types give thousands of combinations, most of them wrong only for some numbers.',
  ['platform/src/generics/value.cpp:Value::copy_assign_value', 'platform/src/generics/value_arithmetic.cpp:value_arithmetic', 'platform/src/generics/value_compare.cpp:value_compare_converting', 'platform/src/generics/type_promotion.cpp:compute_promotion'])
p('C151','Values on the heap are independent and each object is freed once',
  'Generic values of a type that is stored on the heap behave like independent numbers: whatever a program does with its variables - construction, copies, moves, assignments, writes through references, the end of their scopes - each variable holds what it was given last, no object is used after it was freed or freed twice, and when all variables are gone so are all objects.',
  'every sequence of declarations, copies, moves, assignments, writes and ends of scope, with any number of variables','Errors of ownership show only in some orders of operations, and often not at all until memory is reused; no test assigns by move.',
  ['platform/src/generics/value.cpp:Value::operator=', 'platform/include/roughpy/generics/values.h:ValueStorage'])
p('C152','Streams over sound files move by their samples',
  'For a stream opened from a sound file the log signature over an interval is that of the path which, at the time of each frame in the interval, moves by the samples of the frame (channels of increments) or by their change since the frame before (channels of values), frames in order, whatever has been queried before; adjoining intervals compose. Every query inside the support is answered. A query of the source outside the file raises an error instead of reading anything else. The resolution, support, channel types and time channel given when the stream is opened are respected.',
  'every sound file (number of channels, frames, sample rate), schema, interval, resolution, and history of queries on the shared file handle','The tests open one file and check the width, type, support and the size of the answer, never its value; the frame arithmetic, the frame before an interval and the shared position of the file handle range over all rates, intervals and histories.',
  ['streams/src/external_data_sources/sound_file_data_source.cpp:SoundFileDataSource::query_impl', 'streams/src/external_data_sources/sound_file_data_source.cpp:SoundFileDataSourceFactory::construct_stream', 'streams/src/external_data_stream.cpp:ExternalDataStream::log_signature_impl', 'roughpy/src/streams/externally_sourced_stream.cpp:external_stream_constructor'])
p('C153','Arithmetic of polynomial values is that of polynomials',
  'For values of the run-time polynomial type, the sum, difference, product and quotient by a number are defined for all operands (division by zero is an error) and evaluate, at every assignment of numbers to the indeterminates, to the sum, difference, product and quotient of what the operands evaluate to; this includes operands that are the same object. The results are again in normal form: monomials strictly increasing, no zero coefficients, no zero exponents.',
  'every pair of polynomials: any number of terms, indeterminates, exponents and rational coefficients, any capacity of the underlying vectors, operands aliased or not','The unit tests add and multiply a handful of polynomials with one or two terms; which terms are new, where they are inserted and whether the vector has room decide whether a kept end iterator is still the end.',
  ['platform/src/generics/polynomial_type/polynomial.cpp:poly_add_inplace', 'platform/src/generics/polynomial_type/polynomial.cpp:poly_sub_inplace', 'platform/src/generics/polynomial_type/polynomial.cpp:poly_mul_inplace', 'platform/src/generics/polynomial_type/monomial.cpp:Monomial::operator*=', 'platform/src/generics/polynomial_type/polynomial_number.cpp'])
p('C154','Polynomial values are equal, zero or a number exactly when their functions are',
  'Two values of the run-time polynomial type compare equal if and only if they evaluate to the same number everywhere; a value is zero if and only if it evaluates to zero everywhere; it converts to a number if and only if it is constant, and then to that constant; numbers become constant polynomials, the number zero the zero polynomial. Monomials are totally ordered, by degree first, and all comparison operators agree with that order. Equal fractions give equal coefficients.',
  'every pair of polynomials and of monomials in any number of indeterminates, every rational number and every fraction that represents it','Equality of functions ranges over all assignments of numbers to the indeterminates, and the order over all pairs of monomials; the tests compare a few literals.',
  ['platform/src/generics/polynomial_type/polynomial.h:Polynomial', 'platform/src/generics/polynomial_type/monomial.cpp:operator<=', 'platform/src/generics/polynomial_type/monomial.h:Monomial', 'platform/src/generics/polynomial_type/conversion_helpers.h', 'platform/src/generics/polynomial_type/polynomial_number.cpp:unsafe_from_rational'])
p('C155','Integers and fractions of arbitrary precision are numbers',
  'For values of the run-time types of arbitrary-precision integers and fractions, sums, differences, products, quotients, negatives, absolute values, powers and the six comparisons are exactly those of the numbers the values stand for; results of operations on fractions are in lowest terms. from_rational(n, d) gives n/d, or an error if the type has no such number; a fraction that is read from a string is the number written. Division by zero, operations the type does not have, and malformed input are errors; nothing aborts.',
  'every pair of integers and of fractions of any size, every 32-bit exponent, every 64-bit numerator and denominator, every formula built from the operations','The unit tests only ask whether the operations are supported and print one number; no sum, comparison or power is computed, and its correctness is over all pairs of numbers.',
  ['platform/src/generics/multiprecision_types/integer_arithmetic.cpp', 'platform/src/generics/multiprecision_types/rational_arithmetic.cpp:RationalArithmetic::unsafe_add_inplace', 'platform/src/generics/multiprecision_types/integer_comparison.cpp:IntegerComparison::unsafe_compare_equal', 'platform/src/generics/multiprecision_types/rational_comparison.cpp', 'platform/src/generics/multiprecision_types/integer_number.cpp:IntegerNumber::unsafe_from_rational', 'platform/src/generics/multiprecision_types/rational_number.cpp:RationalNumber::unsafe_pow', 'platform/src/generics/number_trait.cpp', 'platform/src/generics/comparison_trait.cpp:ComparisonTrait::compare_equal', 'platform/src/generics/value_math.cpp:math_fn'])
p('C156','Arrays of values of run-time type behave like lists of values',
  'Every sequence of constructions, copies, moves, assignments, resizes, reservations, reads and writes of generic arrays shows what it would show if every variable held a list of values with its type: new elements are zero, copies are independent, a moved-from array is empty and without a type, an index out of range or a missing type is reported and changes nothing, capacity that was reserved keeps elements in place. Every block of memory and every element is released exactly once.',
  'all programs over any number of arrays, all element types, sizes and indices','tests exercise single operations on built-in element types; growth of arrays whose elements own memory, assignment over existing contents and the release of memory depend on the history of the array',
  ['platform/src/generics/array.cpp: Array::copy_from, Array::reserve, Array::resize, Array::operator=', 'platform/include/roughpy/generics/array.h: Array::operator[], Array::get', 'platform/src/generics/builtin_types/builtin_type_methods.h: copy_or_fill', 'platform/src/generics/multiprecision_types/integer_type.cpp: copy_or_fill, destroy_range'])
p('C157','Polynomials written as text are read as those polynomials',
  'Reading the text of a polynomial gives the polynomial with these coefficients, indeterminates and powers, whatever the order of the terms; what is shown for a polynomial can be read back; text that is not a polynomial is refused; reading never ends the process.',
  'all polynomials and all texts','the grammar has infinitely many texts; the tests read a handful of them and compare no shown polynomial with what is read back',
  ['platform/src/generics/polynomial_type/polynomial_type.cpp: PolynomialType::parse_from_string, parse_monomial, parse_rat_coeff, parse_dbl_coeff, PolynomialType::display', 'platform/src/generics/polynomial_type/polynomial.cpp: poly_print', 'platform/src/generics/polynomial_type/monomial.cpp: operator<<', 'platform/src/generics/polynomial_type/indeterminate.cpp: operator<<'])
p('C158','The numpy array of an element has its coefficients',
  'numpy.array(x) of a Lie element, free tensor or shuffle tensor has one entry for every key of the basis, in the order of the basis, and each entry is the coefficient of that key, zero where there is none; its type is the type of the coefficients; this holds for dense and sparse elements, all coefficient types, with and without copy.',
  'all elements, storage types, coefficient types and dimensions','the tests convert dense elements of double precision; the statement is about every storage, coefficient type and length of the stored data',
  ['roughpy/src/args/numpy.h: algebra_to_array', 'roughpy/src/args/numpy.cpp: dense_data_to_array, new_zero_array_for_stype, write_entry_to_array, info_to_typenum', 'roughpy/src/algebra/setup_algebra_type.h: __array__', 'algebra/include/roughpy/algebra/implementors/algebra_impl.h: dense_data'])
p('C159','Iterating over a tensor basis lists every word once in order',
  'A loop over a TensorBasis gives the keys of all words with at most depth letters, each once, shorter words first and words of one length in the order of a dictionary. A TensorKeyIterator from one key to another gives the words in between in this order, and is exhausted after a loop.',
  'all widths, depths and pairs of keys','the number of keys grows exponentially with the depth; the tests iterate over elements of one small basis',
  ['roughpy/src/algebra/tensor_key_iterator.cpp: PyTensorKeyIterator, next, init_tensor_key_iterator', 'roughpy/src/algebra/basis.cpp: wordlike_basis_setup', 'roughpy/src/algebra/tensor_key.cpp: PyTensorKey::to_letters', 'algebra/src/libalgebra_lite_internal/tensor_basis_info.h: dimension'])
p('C160','Arithmetic written in Python computes what is written',
  'Operators in Python on elements and numbers compute the operation they stand for: elements are added, subtracted and multiplied with elements of the same class, multiplied with numbers on either side and divided by numbers, where a number (rp.Scalar, float, int, Fraction) stands for its exact value; an in-place operator computes the same and changes the object, so that every name of it sees the change; operators between rp.Scalar objects and numbers compute in the field; anything else raises TypeError.',
  'all programs of operator statements, all elements of a context in either storage, all scalars and Python numbers','which overload runs depends on the types of both operands and on conversions, for every operator; tests cover a few combinations',
  ['roughpy/src/algebra/setup_algebra_type.h:__truediv__', 'roughpy/src/algebra/setup_algebra_type.h:__rmul__', 'roughpy/src/algebra/setup_algebra_type.h:__imul__', 'roughpy/src/scalars/scalars.cpp:init_scalars'])
p('C161','Constructors give elements with the sizes and coefficients asked for',
  'FreeTensor(data, ...), ShuffleTensor(data, ...) and Lie(data, ...) return an element with the width, depth and scalar type of the context given, or those given one by one (depth 2 by default; without a width, data that is an array has degree one), with the storage type asked for (by default sparse for data with keys, dense otherwise), whose coefficients are the data: values in the order of the basis, or at the keys written with them or passed as keys; None is zero; everything else raises.',
  'all data arguments and all combinations of keyword arguments','the sizes, the type and the storage come from the interplay of optional arguments with arbitrary data; tests use few combinations',
  ['roughpy/src/algebra/free_tensor.cpp:construct_free_tensor', 'roughpy/src/algebra/shuffle_tensor.cpp:construct_shuffle', 'roughpy/src/algebra/lie.cpp:construct_lie', 'roughpy/src/args/kwargs_to_vector_construction.cpp:kwargs_to_construction_data'])
p('C162','Memory on the host device holds the elements asked for',
  'Memory allocated on the host device for n elements of a type holds n zeros; a view from an offset shows the elements from there on, as many as were asked for or as there are, and is refused past the end; writing through a view changes that element only; a copy to a memory with the same type and enough elements, or to a device, holds the same elements; memory that is read only is not written and memory that is write only is not read; memory that is not read only is freed when it is destroyed.',
  'all types, numbers of elements, alignments, offsets, counts, modes and contents','sizes and offsets range over all 64-bit numbers; the only test of this code reads one number',
  ['platform/src/device/host_device.cpp:HostDeviceHandle::allocate_memory,copy_memory,destroy_memory', 'platform/src/device/host_address_memory.cpp:HostAddressMemory', 'platform/src/device/memory.cpp:Memory::to', 'platform/include/roughpy/platform/alloc.h:ScopedSafePtr'])
p('C163','Scratch arrays have the size asked for and free their memory',
  'A scratch array of the dense kernels has the size it was made with or last given, has room for that many elements, each element reads as what was last written to it since then, and all memory it allocated is freed when it is destroyed.',
  'all inline sizes, all sizes, all histories of writes and changes of size','the state after a change of size depends on the sizes before; there is no test of this class',
  ['roughpy_compute/common/cache_array.hpp:CacheArray', 'roughpy_compute/dense/basic/shuffle_tensor_product.hpp:letters,tile'])
p('C164','== and != in Python compare values',
  'For scalars and elements, a == b is true exactly if both are numbers with the same value or both are the same element, false otherwise, on either side, and a != b is its opposite; neither raises.',
  'all scalars, elements and other objects, on both sides','the answer depends on the types and values of both operands; tests compare a few floats',
  ['roughpy/src/scalars/scalars.cpp:init_scalars', 'roughpy/src/algebra/setup_algebra_type.h:setup_algebra_type'])
p('C165','Iterating over an element gives its entries',
  'Iterating over a Lie element or tensor in Python hands out one item for each stored entry, in the order of storage, and then stops for good. Each item stays the entry it was handed out for, whatever happens later: other iterators, more calls of next, and the element or the iterator going out of scope.',
  'every element that is not changed meanwhile, and every program that takes any number of iterators, calls next on them in any order, reads items at any time and drops names at any time','Programs can interleave iterators, reads and drops in infinitely many ways; the tests read each item as it comes, and reading an invalid item is undefined behaviour that may look right.',
  ['roughpy/src/algebra/setup_algebra_type.h:__iter__', 'roughpy/src/algebra/algebra_iterator.cpp:init_iterator', 'algebra/include/roughpy/algebra/algebra_iterator.h:AlgebraIterator', 'algebra/include/roughpy/algebra/algebra_iterator_impl.h:AlgebraIteratorImplementation', 'algebra/include/roughpy/algebra/algebra_base_impl.h:begin'])
p('C166','Launch parameters describe the work',
  'For the launch parameters of a kernel, the total size is the number of work items and the number of directions is how many are used; the number of groups in each direction is the fewest that hold the work; the left-over is the number of places in those groups without a work item; and the mask made from the parameters has exactly one bit set for each work item.',
  'every size of the work and every group size in up to three directions','The sizes range over 64-bit numbers; errors sit at sizes that fill the groups, at multiples of the word size and one more, and near the limits of the number types.',
  ['platform/src/devices/kernel_launch_params.cpp:KernelLaunchParams', 'platform/src/devices/kernel.cpp:Kernel::construct_work_mask', 'core/include/roughpy/core/helpers.hpp:round_up_divide'])
p('C167','A scalar type is found by its name',
  'Asking for a scalar type by name gives the type that has exactly this name; any other name gives no type or an error, and never undefined behaviour. A name given as the dtype of a signature means that type.',
  'every string, and every scalar type','There are infinitely many names; tests use the names of the types, and the parser errs on others: extra text, odd numbers, large numbers and short names.',
  ['scalars/src/scalar_type.cpp:get_type', 'scalars/src/scalar_type.cpp:parse_id_to_type_info', 'core/include/roughpy/core/helpers.hpp:next_power_2', 'roughpy/src/streams/signature_arguments.cpp:dtype'])
here=os.path.dirname(os.path.abspath(__file__))
with open(os.path.join(here,"..","properties.jsonl"),"w") as f:
    for q in P: f.write(json.dumps(q)+"\n")
print(len(P))
