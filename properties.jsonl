{"id": "C01", "title": "Dyadic comparison agrees with numeric value", "statement": "For two dyadic rationals (k,n) and (m,l), the operators <, <=, > and >= return exactly the answer obtained by comparing the real numbers k/2^n and m/2^l.", "quantifier": "every pair of multipliers and powers", "why_tests_cant": "The pairs form an infinite four-parameter family; the answer depends on the sign of the power difference, which a few examples do not cover.", "anchors": ["intervals/src/dyadic.cpp: operator<, operator<=, operator>, operator>="]}
{"id": "C02", "title": "Rebasing a dyadic never changes its value", "statement": "After rebase(r) the dyadic denotes the same real number; the call returns true exactly when the power is now r, and when it returns false no coarser power between r and the result can represent the number.", "quantifier": "every multiplier, power and requested resolution (exact integers; within the documented 32-bit guard range)", "why_tests_cant": "The reduction loop depends on the number of trailing zero bits of an arbitrary multiplier.", "anchors": ["intervals/src/dyadic.cpp: Dyadic::rebase", "intervals/include/roughpy/intervals/dyadic.h"]}
{"id": "C03", "title": "The dyadic interval built around a real number contains it", "statement": "DyadicInterval(x, n, type) has length 2^-n, contains x according to its end-point convention, and is the only dyadic interval of that length and type that does.", "quantifier": "every real x, resolution n and both interval types", "why_tests_cant": "x ranges over a continuum and the boundary cases are a dense set.", "anchors": ["intervals/include/roughpy/intervals/dyadic_interval.h: DyadicInterval(param_t, dyadic_depth_t, IntervalType)"]}
{"id": "C04", "title": "The dyadic interval built around a dyadic point contains it", "statement": "DyadicInterval(d, n, type) yields the interval of length 2^-n of that type which contains the point d, whenever d is at least as fine as n; if d is coarser it starts at d.", "quantifier": "every dyadic, every resolution, both types", "why_tests_cant": "Negative multipliers and ceil/floor rounding interact for arbitrary power differences.", "anchors": ["intervals/src/dyadic_interval.cpp: DyadicInterval(Dyadic, power, type)"]}
{"id": "C05", "title": "Dyadic dissection is an exact partition", "statement": "to_dyadic_intervals(I, tol, Clopen) terminates and returns dyadic intervals no finer than tol that are listed in order, are pairwise adjacent (each begins where the previous ends) and whose union is the interval from floor(inf) to floor(sup) on the 2^-tol grid.", "quantifier": "every interval and every tolerance", "why_tests_cant": "Unbounded loop over dyadic scales; correctness is an invariant of the two while loops, not of any finite sample.", "anchors": ["intervals/src/dyadic_interval.cpp: to_dyadic_intervals"]}
{"id": "C06", "title": "contains_dyadic is set inclusion", "statement": "a.contains_dyadic(b) is true exactly when b, viewed as a set of reals, is a subset of a (for intervals of the same type).", "quantifier": "every pair of dyadic intervals of equal type", "why_tests_cant": "Infinite family over multiplier/power pairs including negatives.", "anchors": ["intervals/src/dyadic_interval.cpp: DyadicInterval::contains_dyadic"]}
{"id": "C07", "title": "Shrinking and flipping move within the dyadic tree", "statement": "The left and right halves of a dyadic interval partition it; shrink_to_contained_end keeps the included end; flip_interval returns the sibling and is an involution; expand_interval returns a dyadic interval of the same type containing the original.", "quantifier": "every dyadic interval of either type", "why_tests_cant": "Depends on parity and sign of arbitrary integers, for both end-point conventions.", "anchors": ["intervals/src/dyadic_interval.cpp: shrink_*, expand_interval, flip_interval"]}
{"id": "C08", "title": "DyadicInterval ordering is a strict weak order", "statement": "operator< on dyadic intervals of one type is irreflexive, transitive, total up to equality, and orders a parent before all its descendants, so that it can key an ordered map.", "quantifier": "every triple of dyadic intervals", "why_tests_cant": "Transitivity is a statement about all triples across three power-comparison branches.", "anchors": ["intervals/src/dyadic_interval.cpp: operator<(DyadicInterval)", "streams/include/roughpy/streams/dyadic_caching_layer.h"]}
{"id": "C09", "title": "Intersection and union of intervals have set semantics", "statement": "intersection(a,b) contains exactly the points in both intervals; interval_union is the smallest interval that contains both.", "quantifier": "every pair of intervals of the same type", "why_tests_cant": "The quantifier is over all reals; the disjoint case is a separate branch.", "anchors": ["intervals/src/intersection_and_union.cpp"]}
{"id": "C10", "title": "A partition's pieces tile its interval", "statement": "The sub-intervals of a Partition, in index order, start at the interval's inf, end at its sup, and each begins where the previous ends; this is preserved by refine_midpoints, insert_intermediate and merge.", "quantifier": "every interval, every list of points, every sequence of operations", "why_tests_cant": "Invariant over arbitrary operation histories.", "anchors": ["intervals/src/partition.cpp", "intervals/include/roughpy/intervals/partition.h"]}
{"id": "C11", "title": "Partition mesh is the largest gap", "statement": "mesh() returns the length of the largest sub-interval, as the documentation says.", "quantifier": "every partition", "why_tests_cant": "Universal over all point lists.", "anchors": ["intervals/src/partition.cpp: Partition::mesh", "roughpy/src/intervals/partition.cpp"]}
{"id": "C12", "title": "Tensor words and flat indices correspond one to one", "statement": "For fixed width and depth, mapping a word to its flat index and back is the identity in both directions, indices of words of degree d occupy exactly the block [start(d), start(d+1)), concatenation and reversal of words act on indices as documented.", "quantifier": "every width, depth and word", "why_tests_cant": "Base-w arithmetic over all words.", "anchors": ["roughpy_compute/common/basis.hpp: TensorBasis", "vendored/libalgebra_lite/basis/tensor_basis.cpp"]}
{"id": "C13", "title": "Dense free-tensor multiply-add equals the truncated concatenation product", "statement": "ft_fma(out,a,b) changes the coefficient of every word u of degree at most the depth by exactly the sum over factorisations u = vw of a(v)b(w), and touches no memory outside its operands; hence multiplication is associative, unital and distributive.", "quantifier": "every width, depth and coefficient arrays (exact scalars)", "why_tests_cant": "Nested loops over levels for all widths and depths.", "anchors": ["roughpy_compute/dense/basic/free_tensor_fma.hpp: ft_fma"]}
{"id": "C14", "title": "In-place multiplication equals out-of-place multiplication", "statement": "ft_inplace_mul(a,b) leaves in a exactly the product a*b of the values held before the call.", "quantifier": "every width, depth and arrays", "why_tests_cant": "The overwriting order (descending degree) must never destroy a value still needed.", "anchors": ["roughpy_compute/dense/basic/free_tensor_inplace_mul.hpp"]}
{"id": "C15", "title": "Tensor exponential is the exponential series", "statement": "ft_exp returns, up to the truncation depth, the sum over n of x^n/n! (with the scalar part of x ignored), independent of what the output buffer held before.", "quantifier": "every width, depth and tensor", "why_tests_cant": "The Horner loop works on growing truncations; correctness needs an induction on depth.", "anchors": ["roughpy_compute/dense/intermediate/free_tensor_exp.hpp"]}
{"id": "C16", "title": "log and exp are mutually inverse", "statement": "log(exp(x)) = x for every tensor with zero scalar part and exp(log(g)) = g for every tensor with scalar part one, up to the truncation depth.", "quantifier": "every width, depth and tensor", "why_tests_cant": "An identity of infinite power series truncated at an arbitrary depth.", "anchors": ["roughpy_compute/dense/intermediate/free_tensor_log.hpp", "vendored/libalgebra_lite/free_tensor.h: log, exp"]}
{"id": "C17", "title": "fmexp is multiplication by an exponential", "statement": "ft_fmexp(out,a,x) returns a*exp(x) up to the truncation depth, although intermediate levels of out temporarily hold unrelated values.", "quantifier": "every width, depth and tensors", "why_tests_cant": "Correctness relies on stale levels always being overwritten before use, at any depth.", "anchors": ["roughpy_compute/dense/intermediate/free_tensor_fmexp.hpp", "vendored/libalgebra_lite/free_tensor.h: fmexp, fmexp_inplace"]}
{"id": "C18", "title": "The antipode is an anti-automorphism and inverts group-like elements", "statement": "antipode(antipode(x)) = x, antipode(a*b) = antipode(b)*antipode(a), and antipode(exp(x)) * exp(x) = 1 for x a Lie element (in particular for every signature).", "quantifier": "every width, depth >= 1 and tensors", "why_tests_cant": "Index reversal at every level for all widths.", "anchors": ["roughpy_compute/dense/basic/free_tensor_antipode.hpp", "vendored/libalgebra_lite/free_tensor.h: antipode_helper"]}
{"id": "C19", "title": "The shuffle product is the commutative, associative shuffle", "statement": "st_fma(out,a,b) adds to the coefficient of u the sum over all splittings of the positions of u into two sub-words v, w of a(v)b(w); the induced product is commutative, associative and unital and equals the recursively defined shuffle used by the half-shuffle multiplier.", "quantifier": "every width, depth and tensors", "why_tests_cant": "Sum over 2^n masks for every n.", "anchors": ["roughpy_compute/dense/basic/shuffle_tensor_product.hpp: st_fma", "vendored/libalgebra_lite/algebra/half_shuffle_multiplier.cpp"]}
{"id": "C20", "title": "Half shuffles sum to the shuffle", "statement": "For non-empty words the left and right half-shuffle products add up to the shuffle product; with the empty word 1, left(a,1)=a, left(1,b)=0, right(1,b)=b, right(a,1)=0.", "quantifier": "every pair of words", "why_tests_cant": "All words of all lengths.", "anchors": ["vendored/libalgebra_lite/algebra/half_shuffle_multiplier.cpp"]}
{"id": "C21", "title": "ft_adjoint_left_mul is the adjoint of left multiplication", "statement": "For all tensors a, x and functional f: <ft_adj_lmul(a,f), x> = <f, a*x> under the word pairing.", "quantifier": "every width, depth and coefficients", "why_tests_cant": "Bilinear identity over all tensors.", "anchors": ["roughpy_compute/dense/basic/free_tensor_adjoint_left_mul.hpp"]}
{"id": "C22", "title": "Signatures satisfy the shuffle identity", "statement": "For every signature S computed by the library (a product of exponentials of Lie elements), the pairing with a shuffle product is the product of pairings: <S, u sh v> = <S,u><S,v> for all words with |u|+|v| <= depth.", "quantifier": "every sequence of Lie increments, all words", "why_tests_cant": "Algebraic identity over all paths and word pairs.", "anchors": ["algebra/src/lite_context.h: compute_signature", "streams/src/stream_base.cpp: signature"]}
{"id": "C23", "title": "The log-signature is a Lie element and exponentiates back to the signature", "statement": "exp(lie_to_tensor(log_signature)) equals the signature: converting the tensor logarithm of a product of exponentials of Lie elements to Hall coordinates with tensor_to_lie and back with lie_to_tensor loses nothing.", "quantifier": "every finite sequence of Lie elements, every width and depth", "why_tests_cant": "Dynkin-Specht-Wever/Friedrichs theorem, universal over paths.", "anchors": ["algebra/src/context.cpp: cbh", "vendored/libalgebra_lite/maps.cpp: rbracketing", "roughpy/compute/_src/lie_basis.c: construct_new_t2l"]}
{"id": "C24", "title": "cbh is associative", "statement": "cbh of a list of Lie elements equals the cbh of the cbh of any two consecutive sub-lists; cbh with zero elements omitted is unchanged.", "quantifier": "every list and every split point", "why_tests_cant": "All lists of Lie elements.", "anchors": ["algebra/src/context.cpp: cbh"]}
{"id": "C25", "title": "The Lie bracket table is the commutator", "statement": "The product of two Hall keys returned by the multiplication table maps under lie_to_tensor to the commutator of their images; the computation terminates for every pair.", "quantifier": "every width, depth and pair of keys", "why_tests_cant": "Recursion on the Hall set of arbitrary size.", "anchors": ["vendored/libalgebra_lite/algebra/lie_multiplier.cpp: key_prod_impl", "roughpy/compute/_src/lie_multiplication_cache.cpp: compute_bracket_slow"]}
{"id": "C26", "title": "The Hall set construction yields a Hall basis table", "statement": "The default LieBasis lists the letters first; every later element is a pair (i,j) of earlier keys with i < j and left-parent(j) <= i; every such pair of total degree at most depth is listed exactly once; keys of degree d occupy one contiguous block, sorted.", "quantifier": "every width and depth", "why_tests_cant": "Triple-nested growth loop, all widths and depths.", "anchors": ["roughpy/compute/_src/lie_basis.c: construct_lie_basis", "vendored/libalgebra_lite/basis/hall_set.cpp: grow_up"]}
{"id": "C27", "title": "LieBasis key degree and word lookup are exact", "statement": "degree(key) is the d with degree_begin[d] <= key < degree_begin[d+1]; find_word returns the key whose parents are the given pair if it is in the basis and -1 otherwise.", "quantifier": "every basis produced by the constructor and every query", "why_tests_cant": "Binary searches over arbitrary-length tables.", "anchors": ["roughpy/compute/_src/lie_basis.c: PyLieBasis_degree, PyLieBasis_find_word"]}
{"id": "C28", "title": "The Lie multiplication cache does not make answers depend on history", "statement": "The bracket returned for a pair of keys, and hence the tensor_to_lie matrix, is the same whatever other bases of the same width were created and queried before.", "quantifier": "every history of basis constructions and queries", "why_tests_cant": "Quantifies over call histories across a process-wide cache.", "anchors": ["roughpy/compute/_src/lie_multiplication_cache.cpp: get_lie_multiplication_cache, PyLieMultiplicationCache_get"]}
{"id": "C29", "title": "Sparse matrix assembly and application are faithful", "statement": "Inserting values frame by frame yields the compressed matrix whose (row,col) entry is the sum of the inserted values, with sorted indices and no explicit zeros; applying it to a vector gives the matrix-vector product, in CSC and CSR form alike.", "quantifier": "every sequence of insertions", "why_tests_cant": "Stateful builder with in-place shifting and reallocation.", "anchors": ["roughpy/compute/_src/sparse_matrix.c: smh_*", "roughpy_compute/dense/basic/apply_sparse_linear_map.hpp"]}
{"id": "C30", "title": "Compute functions accept operands of different depth", "statement": "ft_fma, ft_inplace_mul, ft_exp, ft_log, ft_fmexp, st_mul and ft_adjoint_left_mul on operands of equal width but different depth give the product truncated to the output depth and never access memory outside the arrays.", "quantifier": "every combination of operand depths", "why_tests_cant": "Depth triples are unbounded; the failure is a memory error that tests may not notice.", "anchors": ["roughpy/compute/__init__.py", "roughpy/compute/_src/dense_basic.cpp", "roughpy/compute/_src/dense_intermediate.cpp", "roughpy/compute/_src/call_config.cpp"]}
{"id": "C31", "title": "Equal bases have equal hashes", "statement": "If two TensorBasis (or LieBasis) objects compare equal then hash() returns the same number for both, however they were obtained.", "quantifier": "every pair of basis objects and construction histories", "why_tests_cant": "Hash contract over all objects.", "anchors": ["roughpy/compute/_src/tensor_basis.c: tensor_basis_truncate, tensor_basis_hash"]}
{"id": "C32", "title": "check_lie_basis_data accepts only Hall tables", "statement": "If check_lie_basis_data returns True then every letter row is (0,letter), row zero is (0,0) and every later row satisfies the Hall conditions.", "quantifier": "every pair of integer arrays", "why_tests_cant": "Adversarial inputs.", "anchors": ["roughpy/compute/_src/lie_basis.c: check_lie_data_standard_ordering"]}
{"id": "C33", "title": "Chen's identity at a fixed resolution", "statement": "For adjacent intervals with end-points on the resolution grid, signature([a,c)) = signature([a,b)) * signature([b,c)) when all three are computed at the same resolution.", "quantifier": "every stream, every grid points a<=b<=c and resolution", "why_tests_cant": "All streams and intervals; needs the dissection and caching recursion to agree.", "anchors": ["streams/src/stream_base.cpp", "streams/src/dyadic_caching_layer.cpp", "streams/src/stream.cpp"]}
{"id": "C34", "title": "Chen's identity through the default-resolution API", "statement": "signature([a,c)) = signature([a,b)) * signature([b,c)) for the user-facing Stream methods that choose the resolution themselves.", "quantifier": "every stream and a<=b<=c", "why_tests_cant": "Depends on the lengths of arbitrary intervals.", "anchors": ["streams/src/stream.cpp: Stream::log_signature, refine_interval"]}
{"id": "C35", "title": "Stream queries do not depend on earlier queries", "statement": "The (log-)signature returned for an interval, resolution and context is a function of these and the stream data only: earlier queries, at any resolution or depth, never change it.", "quantifier": "every history of queries", "why_tests_cant": "Stateful cache; quantifies over all histories.", "anchors": ["streams/src/dyadic_caching_layer.cpp"]}
{"id": "C36", "title": "Every increment is counted exactly once", "statement": "For a Lie-increment stream, the increments used for an interval are exactly those with time stamp in the interval under its end-point convention; for a partition into consecutive intervals each increment is used exactly once, in time order.", "quantifier": "every list of time-stamped increments and interval", "why_tests_cant": "Boundary coincidences of time stamps and end points.", "anchors": ["streams/src/lie_increment_stream.cpp: log_signature_impl"]}
{"id": "C37", "title": "No input increment is lost", "statement": "Every increment supplied to the stream constructor contributes to the signature over the whole support.", "quantifier": "every list of (time, increment) pairs", "why_tests_cant": "Duplicate time stamps are a measure-zero case random tests miss.", "anchors": ["streams/src/lie_increment_stream.cpp: constructor"]}
{"id": "C38", "title": "Piecewise abelian streams scale increments linearly with overlap", "statement": "The log-signature of a piecewise-abelian stream over an interval is the cbh of the pieces, each scaled by the fraction of the piece that lies in the interval.", "quantifier": "every list of consecutive pieces and query interval", "why_tests_cant": "All overlap configurations.", "anchors": ["streams/src/piecewise_abelian_stream.cpp"]}
{"id": "C39", "title": "External arrival streams are additive over adjacent intervals", "statement": "Arrivals at a shared end point of two adjacent intervals are used in exactly one of them.", "quantifier": "every arrival list and interval type", "why_tests_cant": "Boundary coincidence.", "anchors": ["streams/src/arrival_stream.cpp"]}
{"id": "C40", "title": "Tick stream tree memoisation is faithful", "statement": "The recursively memoised log-signature of a dyadic interval equals the cbh in time order of the data increments inside it.", "quantifier": "every finite tick data set and dyadic interval", "why_tests_cant": "Recursion over an arbitrary-depth tree.", "anchors": ["streams/src/tick_stream.cpp"]}
{"id": "C41", "title": "Dynamically constructed stream stays tree consistent", "statement": "After any sequence of queries, the stored value of every non-leaf node equals the cbh of its left and right children's values, and answers already given at an accuracy do not change.", "quantifier": "every history of queries", "why_tests_cant": "Mutable tree with root expansion and refinement.", "anchors": ["streams/src/dynamically_constructed_stream.cpp"]}
{"id": "C42", "title": "Storing and loading the stream cache round-trips", "statement": "Saving the cache of a dynamically constructed stream and loading it reproduces the same map, with the same sibling and parent links.", "quantifier": "every reachable cache", "why_tests_cant": "Iterator/index translation for arbitrary maps.", "anchors": ["streams/src/dynamically_constructed_stream.cpp: store_cache/load_cache"]}
{"id": "C43", "title": "Schema channel/dimension mapping is a bijection", "statement": "stream_dim_to_channel and channel_variant_to_stream_dim are inverse to each other between stream dimensions and (channel, variant) pairs; the width is the total number of variants.", "quantifier": "every schema", "why_tests_cant": "Channel lists with arbitrary variant counts.", "anchors": ["streams/src/schema.cpp"]}
{"id": "C44", "title": "Schema labels identify channels", "statement": "find(label) returns a channel whose label is a prefix match (exact, or followed by ':') of the argument; inserting a new label does not change any existing lookup; an existing label is never inserted twice.", "quantifier": "every history of inserts and every query string", "why_tests_cant": "All strings; prefix ambiguities.", "anchors": ["streams/src/schema.cpp: compare_labels, insert"]}
{"id": "C45", "title": "Tick construction helper routes values to the right coordinate", "statement": "Each add_* overload of the tick helper with the same channel (by index or label) and variant records the same Lie key, equal to 1 + the stream dimension of that channel and variant.", "quantifier": "every schema and channel/variant", "why_tests_cant": "Overloads over all schemas.", "anchors": ["streams/src/stream_construction_helper.cpp"]}
{"id": "C46", "title": "The signature derivative is the derivative", "statement": "sig_derivative returns the directional derivative (epsilon coefficient) of the product of exponentials of X_i + epsilon*Y_i.", "quantifier": "every list of (X_i, Y_i)", "why_tests_cant": "Infinite series identity at arbitrary depth.", "anchors": ["algebra/src/lite_context.h: sig_derivative_impl, derive_series_compute, Ad_x_n"]}
{"id": "C47", "title": "Inverse of a free tensor", "statement": "inverse(x)*x = 1 for every tensor whose scalar part is invertible.", "quantifier": "every tensor with invertible scalar part", "why_tests_cant": "Power-series identity.", "anchors": ["vendored/libalgebra_lite/free_tensor.h: inverse"]}
{"id": "C48", "title": "Sparse vectors never hold explicit zeros and add like functions", "statement": "After any sequence of sparse-vector operations no stored coefficient is zero, and the operations act coefficient-wise; equality of representation coincides with equality of coefficients.", "quantifier": "every history of vector operations", "why_tests_cant": "Invariant over histories including aliased operands.", "anchors": ["vendored/libalgebra_lite/sparse_vector.h"]}
{"id": "C49", "title": "Dense vectors of different lengths add as zero-padded vectors", "statement": "Binary and in-place operations on dense vectors give the coefficient-wise result where missing trailing coefficients count as zero.", "quantifier": "every pair of lengths and values", "why_tests_cant": "All length combinations.", "anchors": ["vendored/libalgebra_lite/dense_vector.h"]}
{"id": "C50", "title": "Context sizes are the dimensions of the algebras", "statement": "lie_size(d) and tensor_size(d) of a context are the dimensions of the truncated free Lie and tensor algebras for every d up to the depth.", "quantifier": "every width and depth", "why_tests_cant": "Number-theoretic formula for all degrees.", "anchors": ["algebra/src/context.cpp: ContextBase", "algebra/src/hall_set_size.cpp"]}
{"id": "C51", "title": "Resolution chosen for an interval length is fine enough", "statement": "param_to_resolution(len) returns n with 2^-n <= len < 2^(1-n) when len < 1, and zero otherwise; refining the query interval never makes the resolution coarser than needed to see its end points at a quarter of its length.", "quantifier": "every positive length", "why_tests_cant": "Continuum of lengths.", "anchors": ["streams/src/stream_base.cpp: param_to_resolution", "streams/src/stream.cpp"]}
{"id": "C52", "title": "Restricting a stream restricts its support", "statement": "The support of s.restrict(I) is contained in the support of s and in I; queries outside the support return the zero log-signature / unit signature.", "quantifier": "every stream, restriction and query", "why_tests_cant": "All histories of nested restrictions.", "anchors": ["streams/src/stream.cpp: restrict_support, refine_interval"]}
{"id": "C53", "title": "Membership, overlap and containment tests of intervals have set semantics", "statement": "contains_point(x) is membership of x; intersects_with holds exactly if the two intervals share a point; contains holds exactly if the argument is a subset.", "quantifier": "every pair of non-empty intervals of any types, every point", "why_tests_cant": "All end-point coincidences and type combinations.", "anchors": ["intervals/src/interval.cpp: contains_point, intersects_with, contains"]}
{"id": "C54", "title": "Partition equality compares the points", "statement": "p == q holds exactly if the two partitions have the same interval and the same intermediate points.", "quantifier": "every pair of partitions", "why_tests_cant": "Quantifies over all pairs; the wrong overload is selected silently.", "anchors": ["intervals/include/roughpy/intervals/partition.h: operator=", "roughpy/src/intervals/partition.cpp"]}
{"id": "C55", "title": "TensorKey operations act on words", "statement": "A TensorKey built from letters 1..width and converted back with to_letters gives the same letters, to_index is the position of the word in the graded-lexicographic order, reverse() reverses the word, key1 * key2 is the concatenated word (letters of key1 first), split_n(n) splits off the last n letters, equal keys have equal hashes.", "quantifier": "every width, depth and word", "why_tests_cant": "Radix arithmetic over all words; tests use a few short words.", "anchors": ["roughpy/src/algebra/tensor_key.cpp: PyTensorKey, construct_key, operator*, hash_value"]}
{"id": "C56", "title": "The shuffle adjoint kernel is the transpose of the shuffle product", "statement": "For the dense kernel st_adj_mul, <st_adj_mul(a, f), x> = <f, a shuffled with x> for all x up to the truncation.", "quantifier": "every width, depth and all a, f, x", "why_tests_cant": "Mask enumeration over all words of all lengths.", "anchors": ["roughpy_compute/dense/basic/shuffle_tensor_product.hpp", "roughpy_compute/dense/basic/shuffle_tensor_adjoint_mul.hpp"]}
{"id": "C57", "title": "Concurrent queries return what a single query would", "statement": "Any number of Python threads may query the same stream (signature/log_signature release the GIL). Under every interleaving of their cache accesses each query that finishes returns the value it would return alone on a fresh stream, and no query is blocked for ever by the others.", "quantifier": "every stream, every finite set of concurrent queries in one context, every schedule", "why_tests_cant": "Schedules cannot be enumerated by tests; a race shows up only under particular interleavings.", "anchors": ["roughpy/src/streams/stream.cpp: signature, log_signature (gil_scoped_release)", "streams/src/dyadic_caching_layer.cpp: DyadicCachingLayer::log_signature, m_compute_lock"]}
{"id": "C58", "title": "The time channel telescopes", "statement": "When a time channel is included, the time-channel increments inserted alongside the data add up, up to any time stamp, to that time stamp minus the start of the data, whatever the sampling.", "quantifier": "every list of time-stamped increments", "why_tests_cant": "Depends on the order and multiplicity of arbitrary time stamps.", "anchors": ["streams/src/lie_increment_stream.cpp: LieIncrementStream constructors"]}
{"id": "C59", "title": "Function stream answers use the resolution asked for", "statement": "The log-signature a function stream returns for a dyadic interval at resolution r is the combination (cbh, in order) of the user function's values on the dyadic cells of level r inside it.", "quantifier": "every user function, dyadic interval and resolution", "why_tests_cant": "Depends on the order in which the lazily built tree is refined; a test compares a handful of resolutions.", "anchors": ["streams/src/dynamically_constructed_stream.cpp: refine_accuracy", "roughpy/src/streams/function_stream.cpp"]}
{"id": "C60", "title": "Labels of stream dimensions lead back to the dimension", "statement": "For every schema and every stream dimension, label_of_stream_dim gives a label, and label_to_stream_dim of this label is the dimension again.", "quantifier": "every schema obtained by insertions, variants, lead-lag settings and finalisation; every stream dimension", "why_tests_cant": "labels are free text with a separator inside; collisions appear only for particular combinations of labels and orders of insertion", "anchors": ["streams/src/schema.cpp:StreamSchema::label_of_stream_dim", "streams/src/schema.cpp:StreamSchema::label_to_stream_dim"]}
{"id": "C61", "title": "Finalising a schema pads it to the requested width", "statement": "finalize(n) fails when 0 < n < width and otherwise gives a schema of width max(n, width) which keeps the existing channels; StreamSchema(n) has width n.", "quantifier": "every schema and every requested width", "why_tests_cant": "the padding channels get generated labels; a test would have to guess the labels with which they collide", "anchors": ["streams/src/schema.cpp:StreamSchema::finalize", "streams/src/schema.cpp:StreamSchema::StreamSchema"]}
{"id": "C62", "title": "get_labels lists the label of every stream dimension", "statement": "get_labels returns exactly one label per stream dimension, in order, each the one label_of_stream_dim gives.", "quantifier": "every schema", "why_tests_cant": "quantifies over all mixtures of channel types and flags", "anchors": ["roughpy/src/streams/schema.cpp:get_labels"]}
{"id": "C63", "title": "Recorded increments of a value channel add up to its last value", "statement": "For every sequence of ticks given to TickStream.from_data, the degree one increments recorded in the coordinates of a value channel add up to the last value given for this channel.", "quantifier": "every schema with a value channel, every sequence of ticks of all channels", "why_tests_cant": "telescoping over arbitrary interleavings of ticks of other channels", "anchors": ["roughpy/src/streams/tick_stream.cpp:construct", "streams/include/roughpy/streams/tick_stream.h"]}
{"id": "C64", "title": "Parsed ticks are returned in time order, ties in insertion order", "statement": "After every sequence of additions and reads, ticks() returns all ticks ordered by time and, for equal times, in the order in which they were added.", "quantifier": "every history of additions and reads of a tick helper, every correct sorting algorithm", "why_tests_cant": "the sort used is not stable; the order of ties depends on the precedence numbers given over the whole history", "anchors": ["roughpy/src/streams/r_py_tick_construction_helper.cpp:RPyTickConstructionHelper::ticks", "roughpy/src/streams/r_py_tick_construction_helper.cpp:RPyTickConstructionHelper::add_tick"]}
{"id": "C65", "title": "The size of a LieBasis is the dimension of the free Lie algebra", "statement": "For every positive depth the constructor stays within the arrays it allocates; the numbers of keys of each degree satisfy Witt's formula, compute_lie_degree_dim and compute_lie_dim return these numbers, and LieBasis.size() is their sum.", "quantifier": "every width and every positive depth", "why_tests_cant": "Number-theoretic formula against a growth loop, for all widths and depths.", "anchors": ["roughpy/compute/_src/lie_basis.c: construct_lie_basis, compute_lie_dim, compute_lie_degree_dim, mobius_func, int_pow, lie_basis_size"]}
{"id": "C66", "title": "lie_to_tensor is the linear map sending every Hall key to its commutator polynomial", "statement": "lie_to_tensor(x, scale_factor=s) returns s times the sum of x_k e_k where e_k is the k-th letter or the commutator of the parents of key k; arrays of any other size are refused.", "quantifier": "every width and depth, every coordinate array, every scale factor", "why_tests_cant": "The matrix is assembled by an in-place sparse algorithm whose cancellations depend on the whole basis.", "anchors": ["roughpy/compute/_src/lie_basis.c: construct_new_l2t, insert_l2t_commutator, add_product", "roughpy/compute/__init__.py: lie_to_tensor", "roughpy/compute/_src/dense_basic.cpp: py_dense_lie_to_tensor"]}
{"id": "C67", "title": "tensor_to_lie is the normalised Dynkin operator", "statement": "tensor_to_lie(t, scale_factor=s) returns the (unique) Hall coordinates of s times the sum over words u of t(u)/|u| times the right-nested bracket of u, whatever products were computed before.", "quantifier": "every width and depth, every tensor array, every history of the shared multiplication cache", "why_tests_cant": "Depends on cache state and on all words of the tensor algebra.", "anchors": ["roughpy/compute/_src/lie_basis.c: construct_new_t2l, insert_t2l_rbracket, t2l_normalize_cols", "roughpy/compute/__init__.py: tensor_to_lie", "roughpy/compute/_src/dense_basic.cpp: py_dense_tensor_to_lie"]}
{"id": "C68", "title": "Tensor expressions evaluate in the truncated tensor algebra", "statement": "Any expression built from words by sums, differences, scaling, in-place addition, products, commutators, exp, log and fmexp of free tensors evaluates without error or out-of-bounds access, in sparse and in dense storage, to its value in the tensor algebra truncated at the context depth; == on results is equality there, so the ring laws hold.", "quantifier": "every width, depth, expression and coefficient", "why_tests_cant": "An infinite family of expressions; operands of different lengths and degrees meet in every product.", "anchors": ["vendored/libalgebra_lite/algebra.h: base_multiplication, operator*, commutator", "vendored/libalgebra_lite/free_tensor.h: free_tensor_multiplication::fma, fma_dense_traditional", "vendored/libalgebra_lite/vector.h"]}
{"id": "C69", "title": "exp, log and fmexp of free tensors are inverse and consistent", "statement": "For a tensor x without scalar part, exp(x) is the exponential series up to the depth and log(exp(x)) = x; for g with scalar part one, exp(log(g)) = g; a.fmexp(x) = a*exp(x). In both storage modes.", "quantifier": "every width, depth and tensor", "why_tests_cant": "Power-series identities for all tensors and depths.", "anchors": ["vendored/libalgebra_lite/free_tensor.h: exp, log, fmexp, fmexp_inplace, resize_to_degree"]}
{"id": "C70", "title": "Arithmetic on Lie elements computes in the truncated free Lie algebra", "statement": "Every expression built from Lie elements with +, -, scalar multiplication and division, the bracket * and the in-place forms evaluates, for sparse and dense elements, without reading or writing out of bounds, to the element whose image in the tensor algebra is the value of the expression with brackets read as commutators, up to the depth; == holds exactly when the values agree.", "quantifier": "every width, depth, expression, and every history of earlier products of that width (any depth)", "why_tests_cant": "Unbounded expressions, all Hall sets, and a process-wide cache of products that is shared between depths.", "anchors": ["vendored/libalgebra_lite/algebra/lie_multiplier.cpp: operator()", "vendored/libalgebra_lite/lie.h: lie_multiplication", "vendored/libalgebra_lite/algebra.h: base_multiplication::fma, operator*, operator*=, commutator"]}
{"id": "C71", "title": "The Lie bracket satisfies the laws of a Lie algebra", "statement": "As compared by ==, a*b equals -(b*a), a*a is zero, the Jacobi identity holds, the bracket is linear in both arguments, and the in-place forms agree with the others; also when the two sides are computed at different times with different contents of the product cache.", "quantifier": "every width, depth, triple of Lie elements given by expressions, scalar, and pair of cache histories", "why_tests_cant": "Laws over all elements and histories.", "anchors": ["vendored/libalgebra_lite/algebra/lie_multiplier.cpp: operator()", "vendored/libalgebra_lite/lie.h: lie"]}
{"id": "C72", "title": "lie_to_tensor of a context expands keys into commutators", "statement": "Context.lie_to_tensor of a Lie element is the linear combination, with the coefficients of the element, of the commutator polynomials of its keys, in the storage type of the element.", "quantifier": "every width, depth, sparse or dense Lie element and every history of the maps", "why_tests_cant": "The expansions of keys are computed recursively and remembered; only a proof covers every history and element.", "anchors": ["algebra/src/lite_context.h: lie_to_tensor", "vendored/libalgebra_lite/maps.cpp: expand"]}
{"id": "C73", "title": "tensor_to_lie of a context is the normalised Dynkin operator", "statement": "Context.tensor_to_lie sends a tensor to the sum over words of its coefficient divided by the length times the right-nested bracket of the word; tensors that are Lie polynomials are sent to themselves.", "quantifier": "every width, depth, sparse or dense tensor and every history of the maps", "why_tests_cant": "Bracketings are computed recursively and remembered, using a shared cache of products; tests sample a few words.", "anchors": ["algebra/src/lite_context.h: tensor_to_lie", "vendored/libalgebra_lite/maps.cpp: rbracketing"]}
{"id": "C74", "title": "Constructing and converting elements keeps their value", "statement": "An element constructed from an array has the values of the array at the keys named by it; converting an element to another storage type or another depth keeps all coefficients up to the smaller depth; building an element from the keys and values another one shows gives an equal element.", "quantifier": "every array, element, pair of storage types and pair of depths", "why_tests_cant": "Errors show only for particular combinations of storage type, depth and key.", "anchors": ["algebra/src/lite_context.h: construct_impl, convert_impl", "algebra/src/libalgebra_lite_internal/lie_basis_info.h: convert_from_impl"]}
{"id": "C75", "title": "The signature of a context is the product of the exponentials", "statement": "Context.signature of a sequence of increments is the product of the exponentials of the increments, log_signature its logarithm, and the signature of two sequences one after the other is the product of their signatures.", "quantifier": "every sequence of rows, width, depth and storage type", "why_tests_cant": "Statement about all sequences; involves all terms of the series.", "anchors": ["algebra/src/lite_context.h: compute_signature, signature, log_signature"]}
{"id": "C76", "title": "Contexts return the storage type asked for", "statement": "Functions of a context that take a storage type return an element of that storage type.", "quantifier": "every argument and storage type", "why_tests_cant": "Depends on the combination of storage types of arguments and result.", "anchors": ["algebra/src/context.cpp: cbh", "algebra/src/lite_context.h: convert, signature, construct_free_tensor"]}
{"id": "C77", "title": "Shuffle products of tensors", "statement": "shuffle_multiply and half_shuffle_multiply of two tensors of the context, and * and *= of shuffle tensors, return the (half) shuffle product of the elements the arguments stand for, up to the depth, in the storage type of the left argument, whatever products were computed before.", "quantifier": "every width, every depth of at least 1, every pair of tensors, dense or sparse, every history of products", "why_tests_cant": "Infinitely many tensors; results depend on a cache filled by earlier calls.", "anchors": ["vendored/libalgebra_lite/algebra/half_shuffle_multiplier.cpp", "vendored/libalgebra_lite/algebra/shuffle_multiplier.cpp", "vendored/libalgebra_lite/shuffle_tensor.h:shuffle_multiply,half_shuffle_multiply", "algebra/src/lite_context.h:LiteContext::shuffle_multiply,half_shuffle_multiply"]}
{"id": "C78", "title": "Laws of shuffle products", "statement": "shuffle_multiply is commutative and associative with the unit tensor as unit; for tensors without constant term the half shuffles x<y and y<x add up to the shuffle, and (x<y)<z = x<(y sh z). Results in the same storage type compare equal with ==.", "quantifier": "every width, every depth of at least 1, all tensors, every history of products", "why_tests_cant": "Laws over all triples of tensors.", "anchors": ["algebra/src/lite_context.h:LiteContext::shuffle_multiply,half_shuffle_multiply", "vendored/libalgebra_lite/shuffle_tensor.h"]}
{"id": "C79", "title": "Results of shuffle products can be used in further arithmetic", "statement": "A tensor returned by shuffle_multiply, half_shuffle_multiply or * can be used like any other tensor with the same coefficients: sums, differences and products that involve it give the right result and read no memory outside their storage.", "quantifier": "every pair of tensors, every further expression", "why_tests_cant": "Depends on degrees recorded in dense vectors that no comparison of coefficients shows.", "anchors": ["vendored/libalgebra_lite/dense_vector.h", "vendored/libalgebra_lite/algebra.h:base_multiplication::fma,multiply", "algebra/src/lite_context.h:LiteContext::shuffle_multiply"]}
{"id": "C80", "title": "Bases are compared by their contents", "statement": "Two TensorBasis (or LieBasis) objects compare equal exactly if their width, depth, offsets and (for Lie bases) rows of parents are the same, whatever happened to the objects before; the comparison has no visible effect.", "quantifier": "every pair of basis objects and every history of constructions, hashes, comparisons and modifications", "why_tests_cant": "Comparison goes through cached hashes; needs all histories and all tables.", "anchors": ["roughpy/compute/_src/tensor_basis.c: tensor_basis_test_equal", "roughpy/compute/_src/lie_basis.c: lie_basis_test_equal, lie_basis_hash"]}
{"id": "C81", "title": "Names of indeterminates are read faithfully", "statement": "Two names given to Monomial denote the same indeterminate exactly if they have the same letter and the same number; the printed name of an indeterminate is read back as the same indeterminate.", "quantifier": "every pair of names, every indeterminate", "why_tests_cant": "Needs all names; collisions occur only at particular letters and numbers.", "anchors": ["roughpy/src/scalars/r_py_polynomial.cpp: indeterminate_from_string, monomial_new", "vendored/libalgebra_lite/packed_integer.h"]}
{"id": "C82", "title": "Products of monomials add exponents", "statement": "The product of two monomials has, for every indeterminate, the sum of the exponents; a monomial made from names and powers has the powers given. No product reads freed memory.", "quantifier": "every pair of monomials and every list of names and powers", "why_tests_cant": "Whether an iterator has become invalid depends on both factors; a test that happens to pass shows nothing about undefined behaviour.", "anchors": ["vendored/libalgebra_lite/polynomial_basis.h: monomial::operator*=", "vendored/libalgebra_lite/basis/monomial.cpp", "roughpy/src/scalars/r_py_polynomial.cpp: monomial_mul, construct_new_monomial"]}
{"id": "C83", "title": "Operators on monomials and polynomials are those of the ring of Laurent polynomials", "statement": "For operands that are monomials, polynomials and numbers, +, -, *, / by a number, ** and unary - give the value of the operation in the ring of Laurent polynomials with rational coefficients, whichever side the number is on; == holds exactly if the values are equal.", "quantifier": "every pair of operands of all types, every exponent", "why_tests_cant": "A ring law needs all values; the dispatch has one case per pair of types.", "anchors": ["roughpy/src/scalars/r_py_polynomial.cpp: monomial_add, monomial_sub, monomial_mul, monomial_div, polynomial_add, polynomial_sub, polynomial_mul, polynomial_pow, polynomial_div", "vendored/libalgebra_lite/algebra/polynomial_multiplier.cpp"]}
{"id": "C84", "title": "Evaluation of a monomial is the product of powers", "statement": "The value of a monomial at values of the indeterminates is the product of their powers.", "quantifier": "every monomial and all values", "why_tests_cant": "Needs all monomials and all values.", "anchors": ["vendored/libalgebra_lite/polynomial_basis.h: monomial::eval, power"]}
{"id": "C85", "title": "In-place operators agree with the operators", "statement": "x op= y binds to x the value of x op y, for monomials and polynomials, also if both operands are the same object.", "quantifier": "every operator, every pair of operands", "why_tests_cant": "Needs all pairs of types and values, and the case of one object on both sides.", "anchors": ["roughpy/src/scalars/r_py_polynomial.cpp: monomial_inplace_*, polynomial_inplace_*"]}
{"id": "C86", "title": "In-place operators keep objects alive", "statement": "After x op= y every variable refers to a live object and no object is leaked.", "quantifier": "every operator, all operands, every namespace", "why_tests_cant": "Depends on reference counts; an object freed too early usually still looks intact.", "anchors": ["roughpy/src/scalars/r_py_polynomial.cpp: monomial_inplace_mul, polynomial_inplace_mul, polynomial_inplace_add, polynomial_inplace_sub, polynomial_inplace_div"]}
{"id": "C87", "title": "Items of polynomials", "statement": "p[m] is the coefficient of the monomial m in p, and p[m] = c sets it.", "quantifier": "every polynomial, every monomial, every number", "why_tests_cant": "Needs all polynomials and monomials.", "anchors": ["roughpy/src/scalars/r_py_polynomial.cpp: polynomial_subscript, polynomial_ass_subscript"]}
{"id": "C88", "title": "Archives of monomials and polynomials", "statement": "A monomial or a polynomial written to an archive is read back as the same.", "quantifier": "every monomial and polynomial", "why_tests_cant": "A round trip for all values; the error shows only for some pairs of terms.", "anchors": ["scalars/include/roughpy/scalars/scalar_serialization.h: save, load of monomial and polynomial"]}
{"id": "C89", "title": "Monomials are totally ordered", "statement": "The comparisons of monomials come from one total order in which lower degree comes first.", "quantifier": "every triple of monomials", "why_tests_cant": "Transitivity and totality range over all triples.", "anchors": ["vendored/libalgebra_lite/polynomial_basis.h: monomial::operator<, operator==", "roughpy/src/scalars/r_py_polynomial.cpp: monomial_richcompare"]}
{"id": "C90", "title": "Arrays given through DLPack are read element by element", "statement": "A one- or two-dimensional array handed over through DLPack becomes one row, or one row per first index, holding the elements of the array converted to the scalar type, whatever the element type, strides, offset and scalar type are; an array that cannot be read this way (another device, more dimensions, an element type without conversion) raises.", "quantifier": "every array (type, shape, strides, memory) and every scalar type", "why_tests_cant": "Layouts and types form an unbounded family; tests use dense arrays of doubles.", "anchors": ["roughpy/src/args/dlpack_helpers.cpp", "roughpy/src/args/strided_copy.cpp: stride_copy", "roughpy/src/args/parse_data_argument.cpp: handle_dltensor"]}
{"id": "C91", "title": "Buffers are read element by element", "statement": "The same as for DLPack arrays, for objects with the buffer protocol.", "quantifier": "every buffer (item type, shape, strides, memory) and every scalar type", "why_tests_cant": "Layouts and types form an unbounded family.", "anchors": ["roughpy/src/args/buffer_info.h: BufferInfo", "roughpy/src/args/parse_data_argument.cpp: handle_buffer"]}
{"id": "C92", "title": "Time stamps given as a buffer are read element by element", "statement": "Time stamps given as a buffer of numbers are the elements of the buffer in order, whatever the strides are.", "quantifier": "every buffer of time stamps", "why_tests_cant": "Strides form an unbounded family.", "anchors": ["roughpy/src/streams/lie_increment_stream.cpp: buffer_to_indices"]}
{"id": "C93", "title": "Type tags survive packing", "statement": "A type tag packed into a word together with a few flag bits is read back unchanged, whether it is a pointer to a type object or a description of a fundamental type.", "quantifier": "every aligned pointer, every type description and every value of the flags", "why_tests_cant": "All values of a packed word cannot be enumerated by hand.", "anchors": ["scalars/include/roughpy/scalars/packed_scalar_type_ptr.h: PackedScalarTypePointer"]}
{"id": "C94", "title": "The scalar type of mixed data holds all of it", "statement": "The scalar type chosen for data of several types is the one asked for if there is one; otherwise it does not depend on the order of the data, and every number of the data is represented in it without loss.", "quantifier": "every list of types and every request", "why_tests_cant": "Order independence ranges over all permutations of all lists.", "anchors": ["roughpy/src/args/parse_data_argument.cpp: compute_scalar_type"]}
{"id": "C95", "title": "Nested data is read as written", "statement": "A list or tuple of numbers is one row, a dictionary one sparse row, a list or tuple of rows is these rows in order, with every number converted to the scalar type; a stream made from it has these rows as increments; data of another form, or nested deeper than allowed, raises.", "quantifier": "every nested Python value", "why_tests_cant": "Nested values are an unbounded tree-shaped family.", "anchors": ["roughpy/src/args/parse_data_argument.cpp: parse_data_argument, check_and_compute_type", "roughpy/src/streams/lie_increment_stream.cpp: fill_ks_stream"]}
{"id": "C96", "title": "Increment streams get time stamps, support, width and resolution that fit the data", "statement": "LieIncrementStream.from_increments gives the rows the time stamps asked for (a list, a running sum of a column, or 0, 1, 2, ...), raises if their number is wrong, has a support that contains all time stamps and a width that fits all rows, keeps a resolution that is given, and otherwise chooses one that tells the time stamps apart.", "quantifier": "every list of rows, every form of time stamps, every resolution and width", "why_tests_cant": "Rows and time stamps are arbitrary lists of numbers.", "anchors": ["roughpy/src/streams/lie_increment_stream.cpp: lie_increment_stream_from_increments", "roughpy/src/args/kwargs_to_path_metadata.cpp: param_to_resolution"]}
{"id": "C97", "title": "Degree of a polynomial", "statement": "The degree of a polynomial other than zero is the largest degree of its monomials.", "quantifier": "every polynomial", "why_tests_cant": "A statement about a maximum over all polynomials.", "anchors": ["roughpy/src/scalars/r_py_polynomial.cpp: polynomial_degree", "vendored/libalgebra_lite/sparse_vector.h: degree"]}
{"id": "C98", "title": "Scalars do not leak or free twice", "statement": "Whatever a program does with scalars (making, copying, moving, assigning, adding, destroying), every object that the library allocates for a scalar belongs to exactly one living scalar and is freed exactly once; when all scalars are gone nothing is left, and nothing undefined happens on the way.", "quantifier": "every program over scalars, every sequence of operations", "why_tests_cant": "Ownership must hold after every history; a test follows one.", "anchors": ["scalars/src/scalar.cpp: Scalar copy, move, destructor", "scalars/src/scalar.cpp: Scalar::operator=", "scalars/include/roughpy/scalars/scalar.h: change_type"]}
{"id": "C99", "title": "A copy of a scalar is equal and independent", "statement": "A copy of a scalar has the type and the value of the original; afterwards no operation on one changes the other, and moving from a scalar hands over its value.", "quantifier": "every scalar of every type and storage, every later history", "why_tests_cant": "Aliasing shows only after some later operation on one of the two.", "anchors": ["scalars/src/scalar.cpp: Scalar(const Scalar&)", "scalars/src/scalar.cpp: Scalar(Scalar&&)"]}
{"id": "C100", "title": "Assignment to a scalar", "statement": "After x = y the scalar x has the value of y converted to the type of x, y is unchanged, and a reference passes the value on to the element it refers to; assigning to a constant reference throws.", "quantifier": "all pairs of scalars of all types and storages", "why_tests_cant": "The outcome depends on the pair of storages and types and on the value.", "anchors": ["scalars/src/scalar.cpp: Scalar::operator=(const Scalar&)", "scalars/src/scalar.cpp: Scalar::operator=(Scalar&&)", "scalars/include/roughpy/scalars/scalar.h: operator=(const T&)"]}
{"id": "C101", "title": "Sum, difference and product of scalars", "statement": "x += y, x -= y, x *= y (and x + y, x - y, x * y) give the sum, difference and product in the more general of the two types; for rational numbers and polynomials it is exact, for floating numbers it is the machine's operation, and for integers it is exact if the type can hold it.", "quantifier": "all pairs of types and all values", "why_tests_cant": "There are as many cases as pairs of types and storages, and the claim is about all values.", "anchors": ["scalars/src/scalar/arithmetic.cpp: scalar_inplace_arithmetic", "scalars/src/scalar/type_promotion.cpp: compute_type_promotion", "scalars/src/scalar/casts.cpp: scalar_convert_copy"]}
{"id": "C102", "title": "Negative of a scalar", "statement": "-x has the type of x and the negative of its value.", "quantifier": "every scalar", "why_tests_cant": "A claim about all values of all types.", "anchors": ["scalars/src/scalar/arithmetic.cpp: Scalar::operator-"]}
{"id": "C103", "title": "Equality of scalars", "statement": "x == y holds exactly if x and y stand for the same number or polynomial, whatever their types; it always answers, and it is symmetric.", "quantifier": "all pairs of scalars of all types", "why_tests_cant": "Equality across types is wrong only near limits of precision and for special values.", "anchors": ["scalars/src/scalar/comparison.cpp: operator==", "scalars/src/scalar/comparison.cpp: compare_wrap_equal", "scalars/src/scalar.cpp: is_zero"]}
{"id": "C104", "title": "Quotient of scalars", "statement": "x /= y gives the quotient in the more general of the two types (exact for rational numbers, cut towards zero for integers), and throws if y is zero.", "quantifier": "all pairs of types and all values", "why_tests_cant": "There are as many cases as pairs of types.", "anchors": ["scalars/src/scalar/arithmetic.cpp: Scalar::operator/=", "scalars/include/roughpy/scalars/traits.h: rational_type_of"]}
{"id": "C105", "title": "Segmentation finds the parts where a predicate holds", "statement": "segment(interval, predicate, max_depth) with a predicate that tells whether an interval lies inside a set returns intervals that lie inside the set, in increasing order and apart from each other, such that a point of the given interval belongs to one of them exactly if the dyadic part of depth max_depth of the given interval around the point lies inside the set. For any predicate at all, what is returned is made of adjacent dyadic parts for which the predicate holds.", "quantifier": "all intervals, predicates, sets and depths", "why_tests_cant": "The search walks a tree of depth max_depth from right to left and skips what it has found already; a test tries a few sets.", "anchors": ["intervals/include/roughpy/intervals/segmentation.h:segment", "intervals/src/segmentation.cpp:segment", "intervals/src/dyadic_searcher.cpp:DyadicSearcher", "intervals/src/scaled_predicate.cpp:ScaledPredicate"]}
{"id": "C106", "title": "Segments lie inside the interval", "statement": "Every interval returned by segment(interval, predicate, max_depth) is part of the given interval.", "quantifier": "all intervals, predicates and depths", "why_tests_cant": "It depends on what the predicate says outside of the interval, which tests with sets inside of it never ask.", "anchors": ["intervals/src/dyadic_searcher.cpp:expand_left", "intervals/src/dyadic_searcher.cpp:expand_right"]}
{"id": "C107", "title": "A stream built from values has those values", "statement": "For every list of (time, value) pairs with distinct times, in any order, where the values are group-like tensors or Lie elements of one context, the tensor-valued stream built from the list starts at the earliest time with that value, ends with the latest value, and at every time in between (at least one resolution cell after a sample and not after the next one) has the value of the latest sample; whatever values, sub-streams or signatures were asked for before. Lists with unusable items are refused.", "quantifier": "all lists of samples, all orders, all resolutions, all times of the domain, all histories of earlier operations", "why_tests_cant": "the number, order and spacing of samples and the earlier operations that fill the shared cache are unbounded; tests use one evenly spaced list", "anchors": ["roughpy/src/streams/tensor_valued_stream.cpp:stvs_from_values", "streams/src/tensor_valued_stream.cpp:TensorValuedStream::value_at", "streams/src/tensor_valued_stream.cpp:TensorValuedStream::terminal_value", "roughpy/src/args/kwargs_to_path_metadata.cpp:param_to_resolution"]}
{"id": "C108", "title": "The value at the time of a sample is that sample", "statement": "For every stream built from values and every sample, the value of the stream at the time of the sample (for instance the initial value of a query starting there) is the value of that sample.", "quantifier": "all lists of samples with distinct times and all samples in them", "why_tests_cant": "a test with one list and a tolerance in time does not distinguish the value before from the value after", "anchors": ["roughpy/src/streams/tensor_valued_stream.cpp:stvs_from_values", "streams/src/tensor_valued_stream.cpp:TensorValuedStream::value_at"]}
{"id": "C109", "title": "Queries of a value stream agree with the stream", "statement": "For every value stream and every interval meeting its domain, the stream returned by a query covers the common part, starts with the value of the original stream there, has the same values as the original stream throughout and ends with the value of the original stream at its end; intervals apart from the domain and parameters outside of it are refused; none of this depends on what was asked before.", "quantifier": "all value streams over cached increments, all intervals, all parameters, all histories", "why_tests_cant": "streams, intervals and histories are unbounded and sub-streams share a cache with the original", "anchors": ["streams/src/tensor_valued_stream.cpp:TensorValuedStream::query", "streams/src/tensor_valued_stream.cpp:TensorValuedStream::value_at", "intervals/src/intersection_and_union.cpp:intersection"]}
{"id": "C110", "title": "The signature of a value stream takes the initial to the terminal value", "statement": "For every value stream, the initial value times the signature over the domain is the terminal value; signatures over adjacent intervals multiply at every resolution, agree at all resolutions from the one of the increments on, and report nothing outside of the domain.", "quantifier": "all value streams over cached increments, all intervals, all resolutions, all histories", "why_tests_cant": "resolutions, intervals and histories are unbounded", "anchors": ["streams/src/tensor_valued_stream.cpp:TensorValuedStream::log_signature_impl", "streams/src/stream_base.cpp:StreamInterface::log_signature", "roughpy/src/streams/tensor_valued_stream.cpp:stvs_signature"]}
{"id": "C111", "title": "Programs on tensors and Lie elements compute in the algebra", "statement": "Any sequence of the arithmetic operations a user can apply to free tensors (or Lie elements) of one context - sums, differences, products, scalar multiples and quotients, their in-place forms and the fused forms (add_scal_mul, sub_mul, ...) - with any mixture of dense, sparse and unset operands and with operands that are the same object gives the elements that the same sequence gives in the truncated tensor algebra (free Lie algebra), where an unset element counts as zero; every result keeps the storage type of its left operand.", "quantifier": "all contexts, all programs of any length, all values and storage types, all aliasing of variables", "why_tests_cant": "errors need a particular order of operations, storage types and aliasing; tests apply operations one at a time to operands of one storage type", "anchors": ["algebra/include/roughpy/algebra/algebra_base_impl.h: AlgebraBase", "algebra/include/roughpy/algebra/implementors/algebra_impl.h: AlgebraImplementation", "roughpy/src/algebra/setup_algebra_type.h"]}
{"id": "C112", "title": "Operands of different contexts and zero divisors are refused", "statement": "An operation whose operands are set and do not all belong to one context raises an exception and does not return a value; so does every division by zero.", "quantifier": "all operations, all contexts, all elements, all positions of the foreign operand", "why_tests_cant": "the foreign operand may be any of up to three operands of twenty operations, of equal or different width", "anchors": ["algebra/include/roughpy/algebra/algebra_base_impl.h: AlgebraBase", "algebra/include/roughpy/algebra/implementors/algebra_impl.h: AlgebraImplementation", "roughpy/src/algebra/setup_algebra_type.h", "algebra/src/algebra_base.cpp: check_contexts_compatible"]}
{"id": "C113", "title": "Equality of elements", "statement": "x == y always answers; it is true if and only if x and y stand for the same element, whatever their storage types; an unset element equals exactly the elements that are zero; elements of different widths are different.", "quantifier": "all pairs of elements of all contexts and storage types, including unset ones", "why_tests_cant": "two dense vectors of different lengths, or a dense and a sparse one, can stand for one element in many ways", "anchors": ["algebra/include/roughpy/algebra/algebra_base_impl.h: AlgebraBase", "algebra/include/roughpy/algebra/implementors/algebra_impl.h: AlgebraImplementation", "roughpy/src/algebra/setup_algebra_type.h"]}
{"id": "C114", "title": "Reading coefficients", "statement": "t[i] is the coefficient of the i-th word of the basis for every tensor t and every i in the range of the basis, and l[n] is the coefficient that iteration shows for the key numbered n, whatever the storage type.", "quantifier": "all elements, all indices", "why_tests_cant": "a dense vector stores only a prefix of the coefficients, of any length", "anchors": ["algebra/include/roughpy/algebra/algebra_base_impl.h: AlgebraBase", "algebra/include/roughpy/algebra/implementors/algebra_impl.h: AlgebraImplementation", "roughpy/src/algebra/setup_algebra_type.h", "algebra/src/libalgebra_lite_internal/tensor_basis_info.h", "algebra/src/libalgebra_lite_internal/lie_basis_info.h"]}
{"id": "C115", "title": "Pairing of shuffle tensors with tensors", "statement": "s @ t is the sum over all words up to the depth of the product of the coefficients of s and t, whatever the storage types; tensors of different contexts are refused.", "quantifier": "all pairs of tensors, storage types and contexts", "why_tests_cant": "the sum ranges over all words and the storage of either side may be any prefix or subset", "anchors": ["roughpy/src/algebra/shuffle_tensor.cpp: shuffle pairing", "algebra/include/roughpy/algebra/algebra_base_impl.h: AlgebraBase", "algebra/include/roughpy/algebra/implementors/algebra_impl.h: AlgebraImplementation", "roughpy/src/algebra/setup_algebra_type.h"]}
{"id": "C116", "title": "The memory of scalar arrays is given back exactly once", "statement": "However arrays of scalars are created, copied, moved, assigned, sliced, viewed, converted and destroyed, the memory the library allocated for them stays available as long as an array owns it, is given back when the last owner is gone, and is never given back twice; memory of the user is never given back.", "quantifier": "every program of array operations, every order of destruction, every initial content of fresh memory", "why_tests_cant": "Reference counts go wrong only for particular histories of copies and destructions, and freshly allocated memory happens to be zero in most test runs.", "anchors": ["scalars/src/scalar_array.cpp", "scalars/include/roughpy/scalars/scalar_array.h", "platform/include/roughpy/platform/devices/device_object_base.h ObjectBase", "platform/src/devices/host/host_buffer.cpp"]}
{"id": "C117", "title": "Arrays of scalars hold what was last written to them", "statement": "Reading an element of an array gives the number last written to that element through any array that shares it: copies, slices and views of an array share its elements, a new array has zeros of its own, moving hands the elements over, and no operation changes an element it does not name.", "quantifier": "every program of array operations, every array, index and number", "why_tests_cant": "Which arrays share an element depends on the whole history of copies, slices and moves.", "anchors": ["scalars/src/scalar_array.cpp", "scalars/include/roughpy/scalars/scalar_array.h"]}
{"id": "C118", "title": "Bounds and constness of scalar arrays", "statement": "Indexing or slicing an array beyond its size raises; an array of constants cannot be written to, nor can anything made from it; memory handed to the library as constant is never changed, whatever is done with the arrays over it.", "quantifier": "every program of array operations, every index and every piece of memory", "why_tests_cant": "Tests index a few arrays; that constant memory is never changed is a statement about every possible program.", "anchors": ["scalars/src/scalar_array.cpp", "scalars/include/roughpy/scalars/scalar_array.h"]}
{"id": "C119", "title": "Assigning and converting arrays of scalars copies every element", "statement": "After a = b the array a has the type, size and elements of b in memory of its own; a converting copy sets every element of the target to the converted element of the source, leaves the source as it is, and raises if an element cannot be converted.", "quantifier": "every pair of arrays, of any storage, type and size", "why_tests_cant": "The outcome depends on the combination of storage modes, types and sizes of both arrays.", "anchors": ["scalars/src/scalar_array.cpp", "scalars/include/roughpy/scalars/scalar_array.h", "scalars/src/scalar_type.cpp ScalarType::convert_copy", "scalars/src/scalar_types/standard_scalar_type.h convert_copy", "scalars/src/scalar/casts.cpp"]}
{"id": "C120", "title": "A LieKey built from a nested list is that bracket", "statement": "LieKey(obj) accepts a letter of the basis or a nested list of pairs of letters of the basis and nothing else; str of the key is the list as it was given, so keys with equal texts come from equal lists.", "quantifier": "every Python object and every width", "why_tests_cant": "There are infinitely many nested lists; the flattening into offsets depends on the shapes of all parts.", "anchors": ["roughpy/src/algebra/lie_key.cpp", "roughpy/src/algebra/lie_letter.h", "parse_key ToLieKeyHelper PyLieKey::to_string"]}
{"id": "C121", "title": "Iterating over a Lie basis lists the Hall brackets in order", "statement": "Iterating over a Lie basis gives every Hall bracket of the letters up to the depth once, in increasing order, and nothing else; str(key) is the text of the bracket and is the text with which elements are printed, whatever was printed before. Key numbers and ranges outside the basis are refused.", "quantifier": "every width and depth, every range of an iterator, every history of texts asked for", "why_tests_cant": "The number of brackets grows exponentially with the depth, and the texts are cached globally.", "anchors": ["roughpy/src/algebra/lie_key.cpp", "roughpy/src/algebra/lie_letter.h", "roughpy/src/algebra/lie_key_iterator.cpp", "roughpy/src/algebra/basis.cpp", "algebra/src/libalgebra_lite_internal/lie_basis_info.h", "vendored/libalgebra_lite/hall_set.h hall_extension"]}
{"id": "C122", "title": "Reading a coefficient by its key reads that coefficient", "statement": "lie[key] is the coefficient of the basis element that key stands for, for keys from an iteration over the basis and for keys built from lists.", "quantifier": "every width and depth, every key of the basis", "why_tests_cant": "Every key takes its own path through the recursion that finds its number.", "anchors": ["roughpy/src/algebra/lie_key.cpp", "roughpy/src/algebra/lie_letter.h to_internal_key_recurse", "roughpy/src/algebra/lie.cpp __getitem__"]}
{"id": "C123", "title": "Degree, parts and equality of a LieKey are those of its bracket", "statement": "In the C++ interface key.degree() is the number of letters, lparent and rparent are the two parts of the bracket, and keys are equal exactly if their brackets are.", "quantifier": "every pair of brackets, of any shape and size", "why_tests_cant": "Whether offsets are right depends on the shape of all parts of both brackets.", "anchors": ["roughpy/src/algebra/lie_key.cpp", "roughpy/src/algebra/lie_letter.h degree equals branches_equal trim_branch walk_tree lparent rparent"]}
{"id": "C124", "title": "Keys and indices of a Lie basis are inverse to each other", "statement": "basis.index_to_key(i) is the i-th key of the iteration for i below the dimension and raises beyond; basis.key_to_index inverts it; basis.parents(key) are the keys of the two parts.", "quantifier": "every width and depth, every index and key", "why_tests_cant": "Holds or fails for all keys of all bases at once.", "anchors": ["roughpy/src/algebra/basis.cpp index_to_key key_to_index parents", "algebra/src/libalgebra_lite_internal/lie_basis_info.h"]}
{"id": "C125", "title": "Queries are about the interval and the resolution given", "statement": "stream.signature and stream.log_signature accept an interval, or two end points, or a dyadic interval, or nothing, and a resolution as a level or as an accuracy. The query made is about exactly this interval (the support if none is given) at this resolution (the level, or the coarsest level that reaches the accuracy); everything else is rejected.", "quantifier": "all combinations of positional and keyword arguments, all intervals, numbers and resolutions", "why_tests_cant": "the parser distinguishes many combinations of argument types; tests try a few of them", "anchors": ["roughpy/src/streams/signature_arguments.cpp: parse_sig_args, resolution_converter", "streams/src/stream.cpp: Stream::signature, Stream::log_signature"]}
{"id": "C126", "title": "Queries are answered in the context asked for", "statement": "A query with ctx is answered in this context; without ctx, in the context of the stream with the depth and the scalar type that are given changed. Arguments that cannot be met raise an exception.", "quantifier": "all contexts, depths, scalar types in all the forms accepted, and streams", "why_tests_cant": "combinations of optional arguments; error branches that end the process cannot be tested in the process", "anchors": ["roughpy/src/streams/signature_arguments.cpp: parse_sig_args", "algebra/src/context.cpp: get_context"]}
{"id": "C127", "title": "Derivatives are taken along the perturbations given", "statement": "stream.signature_derivative accepts an interval and a perturbation, a pair, or a sequence of pairs, with a resolution and a depth. The derivative is computed from these pairs in this order, at the resolution and in the context the signature of the same arguments is computed in.", "quantifier": "all argument forms, all lists of pairs, all resolutions and depths", "why_tests_cant": "overloaded positional arguments; the forms that collide are found by case analysis only", "anchors": ["roughpy/src/streams/stream.cpp: sig_deriv", "streams/src/stream.cpp: Stream::signature_derivative"]}
{"id": "C128", "title": "simplify keeps the log signature over every piece", "statement": "stream.simplify(partition) gives a piecewise stream with one piece per interval of the partition, whose value is stream.log_signature over this interval in the context asked for; support and metadata are those of the stream.", "quantifier": "all streams, partitions, resolutions, contexts", "why_tests_cant": "must hold for every partition and every combination of optional arguments", "anchors": ["roughpy/src/streams/stream.cpp: simplify_stream", "streams/src/stream.cpp: Stream::simplify"]}
{"id": "C129", "title": "Metadata, context and schema of a new stream agree", "statement": "Whatever keyword arguments a stream is made with, width, depth and scalar type of its metadata are those of its context, and the schema has as many dimensions as the width.", "quantifier": "all combinations of schema, channel_types, include_time, ctx, width, depth, dtype, and all data", "why_tests_cant": "the combinations of ten optional arguments are far too many to test", "anchors": ["roughpy/src/args/kwargs_to_path_metadata.cpp: kwargs_to_metadata", "roughpy/src/streams/schema_finalization.cpp: finalize_schema", "roughpy/src/streams/tick_stream.cpp", "roughpy/src/streams/lie_increment_stream.cpp", "roughpy/src/streams/brownian_stream.cpp", "roughpy/src/streams/function_stream.cpp", "roughpy/src/streams/piecewise_abelian_stream.cpp"]}
{"id": "C130", "title": "A stream is made with the context, width, depth and scalar type asked for", "statement": "If a constructor of a stream is given ctx, the stream has this context; otherwise it has a context with the width, depth and scalar type that are given. Requests that cannot be met raise an exception and are never replaced silently.", "quantifier": "all combinations of keyword arguments", "why_tests_cant": "conflicts between optional arguments are resolved in an order that only shows in rare combinations", "anchors": ["roughpy/src/args/parse_algebra_configuration.cpp: parse_algebra_configuration", "roughpy/src/args/kwargs_to_path_metadata.cpp: kwargs_to_metadata", "roughpy/src/streams/schema_finalization.cpp: finalize_schema"]}
{"id": "C131", "title": "include_time adds a channel for time", "statement": "A stream made with include_time=True from data with n dimensions has width n + 1; time is the last channel and the n dimensions of the data are unchanged.", "quantifier": "all data, all widths, all keyword arguments", "why_tests_cant": "the collision of channels depends on how width is determined, which differs between constructors", "anchors": ["roughpy/src/streams/lie_increment_stream.cpp: lie_increment_stream_from_increments", "roughpy/src/streams/schema_finalization.cpp: last_minute_setup", "streams/src/lie_increment_stream.cpp: LieIncrementStream", "streams/src/schema.cpp: time_channel_to_lie_key"]}
{"id": "C132", "title": "Pickling intervals and partitions", "statement": "For every dyadic number, dyadic interval, real interval and partition x that a user can make, pickle.loads(pickle.dumps(x)) has the same ends, type and intermediate points as x.", "quantifier": "all dyadic numbers, dyadic intervals, real intervals of both types, and all partitions reachable by construction, insertion, refinement and merging", "why_tests_cant": "The states are unbounded; a test pickles a few partitions, and only those holding an end point of their interval, or out of order, come back changed.", "anchors": ["roughpy/src/intervals/dyadic.cpp: py::pickle", "roughpy/src/intervals/dyadic_interval.cpp: py::pickle", "roughpy/src/intervals/real_interval.cpp: py::pickle", "roughpy/src/intervals/partition.cpp: py::pickle", "intervals/src/partition.cpp: Partition::Partition"]}
{"id": "C133", "title": "Pickling elements", "statement": "For every free tensor, shuffle tensor and Lie element x, of every width, depth, scalar type and storage type, set or not, pickle.loads(pickle.dumps(x)) succeeds and equals x: same context, same scalar type, same storage type, the same coefficient for every key.", "quantifier": "all contexts, all three classes, all coefficients and all numbers of stored entries, dense, sparse and unset elements", "why_tests_cant": "The archive depends on class, context, storage type, scalar type and every coefficient; a test pickles a few dense elements.", "anchors": ["roughpy/src/algebra/setup_algebra_type.h: py::pickle", "algebra/include/roughpy/algebra/algebra_base_impl.h: AlgebraBase::save, AlgebraBase::load", "algebra/src/context.cpp: get_context_spec, from_context_spec", "algebra/src/algebra_base.cpp: construct_dense_algebra, try_create_new_empty", "scalars/src/scalar/raw_bytes.cpp: to_raw_bytes, from_raw_bytes", "scalars/src/scalar.cpp: Scalar::operator=, Scalar::mut_pointer"]}
{"id": "C134", "title": "Damaged pickles of elements are refused", "statement": "Unpickling a byte string that is the pickle of an element cut short at any place, or the pickle of an element of another class, raises an exception: it never gives an element and never has undefined behaviour.", "quantifier": "all elements, all places at which a pickle can be cut, all pairs of classes", "why_tests_cant": "There are as many truncations as bytes and as many pickles as elements; a test tries a few.", "anchors": ["roughpy/src/algebra/setup_algebra_type.h: py::pickle", "algebra/include/roughpy/algebra/algebra_base_impl.h: AlgebraBase::load", "scalars/include/roughpy/scalars/scalar_array.h: ScalarArray::load", "algebra/src/algebra_base.cpp: construct_dense_algebra"]}
{"id": "C135", "title": "A schema written as a Python object gives the channels it describes", "statement": "StreamSchema.parse, and the argument schema of the stream constructors, turn a dict or a sequence of entries into a schema with exactly one channel per entry, in order, with the given label, type and options. The layouts {label: {'type': ..., **options}}, {label: (type, options)}, [{'label': ..., 'type': ..., **options}] and [(label, type, options)] mean the same, options may be left out, and an entry that is malformed or repeats a label raises an exception.", "quantifier": "every list of labels with types and options, and every Python object that writes it in one of the layouts", "why_tests_cant": "The nesting of Python objects, the labels and the options are unbounded; tests write a handful of schemas.", "anchors": ["roughpy/src/args/parse_schema.cpp: parse_schema, handle_seq_item, handle_dict_item, insert_item_to_schema", "streams/src/schema.cpp: StreamSchema::insert"]}
{"id": "C136", "title": "Tick data means the same in every layout", "statement": "TickStream.from_data and StreamSchema.from_data read ticks (time, label, type, data) from nested dicts, lists and tuples. Every accepted layout (flat tuples, records, dicts keyed by time, label or type, nested tuples, lists of these, and numbers or strings whose type is left out) gives exactly the ticks it stands for, in order; no object can be read in two ways, and an object in no layout raises an exception.", "quantifier": "every nested Python object made of dicts, lists, tuples and values", "why_tests_cant": "The layouts nest and combine without bound and the dispatch depends on lengths and key names; tests use a few fixed shapes.", "anchors": ["roughpy/streams/tick_stream.py: StandardTickDataParser.visit, handle_dict, handle_list, handle_tuple, handle_any"]}
{"id": "C137", "title": "No tick is lost without an exception", "statement": "When a stream or a schema is built from tick data, every tick is recorded once, in order, under its label, with its time and data and according to its type; a tick whose type is not supported raises an exception.", "quantifier": "every list of ticks, and every type, spelled in any way", "why_tests_cant": "Ticks are dropped on a path with no observable effect but the absence of the tick; the space of types is infinite.", "anchors": ["roughpy/streams/tick_stream.py: BaseTickDataParser.convert_channel_type, BaseTickDataParser.insert"]}
{"id": "C138", "title": "The time of a tick is the time given", "statement": "Ticks given to TickStream.from_data are recorded with the label, type and data given, at the time given (a number, or a date and time), with ties in the order given; the order of the data does not matter otherwise, and a time that cannot be used raises.", "quantifier": "all schemas and all finite lists of ticks with any Python objects as times", "why_tests_cant": "Tests use floats in order starting at 0; kinds of time stamps, order and mixtures of kinds are unbounded.", "anchors": ["roughpy/src/streams/r_py_tick_construction_helper.cpp: add_tick", "roughpy/src/args/convert_timestamp.cpp: convert_delta_from_datetimes, generic_to_timestamp, pytimedelta_to_param"]}
{"id": "C139", "title": "The schema found from tick data", "statement": "StreamSchema.from_data and TickStream.from_data find one channel for every label, in the order in which labels appear, of the type of its ticks, with the variants that appear; ticks of one label with different types are refused; a final schema is never changed.", "quantifier": "all finite lists of ticks", "why_tests_cant": "Labels, types and orders of ticks are unbounded; conflicts show only in particular orders.", "anchors": ["roughpy/src/streams/r_py_tick_construction_helper.cpp: add_increment_to_schema, add_value_to_schema, add_categorical_to_schema", "roughpy/src/streams/schema.cpp: schema_from_data"]}
{"id": "C140", "title": "A stream made from tick data has the signature of its ticks", "statement": "For the stream made by TickStream.from_data from increments and values, in any layout and order, the signature over an interval is the product in order of time of the signatures of the changes of the path at the ticks in the interval: a value changes its channel by the difference to the value before, an increment by its amount, and with include_time every tick changes the last channel by the time since the tick before.", "quantifier": "all data in all layouts, all keyword arguments without a schema, all intervals and resolutions", "why_tests_cant": "Tests query a few streams over the whole of [0,1); data, order of data, labels and intervals are unbounded.", "anchors": ["roughpy/src/streams/tick_stream.cpp: construct", "streams/src/tick_stream.cpp: TickStream::log_signature_impl, recursive_logsig", "streams/src/stream.cpp: refine_interval, check_support_and_trim"]}
{"id": "C141", "title": "tensor_functions.Log is the linear extension of the logarithm", "statement": "For every tensor x of a context of any width and depth, Log(x) returns an element of the same context, Log is linear in x, and for every group-like x (constant term one, coefficients multiplicative on shuffle products up to the depth) Log(x) equals the logarithm series of x - 1 truncated at the depth, the value of x.log().", "quantifier": "all widths and depths, all tensors over a field of characteristic zero; group-like ones for the agreement", "why_tests_cant": "The agreement is an identity between power series in the coefficients that must hold on the whole group at every depth; the one test evaluates a depth-two example.", "anchors": ["roughpy/tensor_functions.py: Log, _convolve, _tensor_product_functions, _concatenate, _adjoint_of_shuffle, _remove_constant", "roughpy/src/algebra/tensor_key.cpp: operator* of keys", "roughpy/src/args/parse_data_argument.cpp: RPY_CHECK(as_dict.size() > 0)"]}
{"id": "C142", "title": "TensorTensorProduct is the external tensor product", "statement": "TensorTensorProduct((x, y)) has, for every pair of words, the product of the coefficients of x and y; sums, scalar multiples and the fused updates add_scal_prod, add_scal_div and sub_scal_div act coefficientwise; and two products with the same coefficients hold the same entries.", "quantifier": "all pairs of tensors, all products and scalars over a field", "why_tests_cant": "Bilinearity and the absence of duplicate or cancelled entries must hold for all dictionaries of pairs of words; a test only sees a few.", "anchors": ["roughpy/tensor_functions.py: TensorTensorProduct"]}
{"id": "C143", "title": "The antipode of a free tensor reverses its words with alternating sign", "statement": "For every free tensor t of a context, dense or sparse, t.antipode() returns a tensor of the same depth whose coefficient at a word of n letters is (-1)^n times the coefficient of t at the reversed word, without touching memory outside the two tensors; hence the antipode of the antipode is t, the antipode of a product is the product of the antipodes in the opposite order, and the antipode of a signature is its inverse.", "quantifier": "all widths, depths, coefficients, storage types and sizes of the tiles in which dense levels are reversed", "why_tests_cant": "The levels of a dense tensor are handled by three different loops, chosen by the depth, the degree and a tile size fixed at compile time; a test with small depth never reaches the tiles with a non-empty middle part, and no finite set of tensors covers every permutation of a level.", "anchors": ["vendored/libalgebra_lite/free_tensor.h: antipode, antipode_helper", "vendored/libalgebra_lite/basis/unpacked_tensor_word.cpp: advance, to_reverse_index", "vendored/libalgebra_lite/tensor_basis.h: reverse_idx, reverse_key", "algebra/src/libalgebra_lite_internal/free_tensor_impl.h"]}
{"id": "C144", "title": "adjoint_to_free_multiply is the adjoint of left multiplication", "statement": "For all tensors a, f of one context, FreeTensor or ShuffleTensor, dense or sparse, adjoint_to_free_multiply(a, f) returns a tensor r of the same context with <r, x> = <f, a*x> for every x, r can be used like any other tensor (in particular as an argument of the same function), and no memory outside the operands is accessed; objects that are not tensors raise an exception.", "quantifier": "every width, depth, pair of tensors, storage types, classes and every test tensor x", "why_tests_cant": "One kernel per pair of storage types, each with its own index arithmetic over all degrees; the tests use one dense pair of width 2 and depth 2 and do not use the result further.", "anchors": ["roughpy/src/algebra/free_multiply_funcs.cpp:adjoint_to_free_multiply", "vendored/libalgebra_lite/free_tensor.h:left_ftm_adjoint", "algebra/src/lite_context.h:adjoint_to_left_multiply_by", "vendored/libalgebra_lite/tensor_basis.h:parents"]}
{"id": "C145", "title": "Keyed scalar arrays own their keys", "statement": "An array of scalars with keys keeps each scalar with its key: a copy, an assignment and a move give the new array the keys of the original; keys that the library allocated are given back exactly once, when their owner is gone, and keys of the user never; no operation changes the keys of an array it does not name, reads keys out of bounds or after they were freed.", "quantifier": "every program of constructions, copies, moves, assignments, allocations of keys, writes of keys and destructions of keyed arrays", "why_tests_cant": "Ownership is recorded in a flag beside a raw pointer; what a copy or a destructor does depends on the whole history of the array. The tests construct single arrays.", "anchors": ["scalars/src/key_scalar_array.cpp:KeyScalarArray", "scalars/include/roughpy/scalars/key_scalar_array.h:KeyScalarArray"]}
{"id": "C146", "title": "Streams of rows give back the rows", "statement": "Rows pushed to a stream of scalar rows, with keys or without, are read back in order with the keys they were pushed with; the numbers of rows and columns are those pushed, and a row that does not exist raises. A stream of an array with a shape (rows, columns) has that many rows, element k of row i being element i*columns+k of the array, and raises when the array is too short.", "quantifier": "every sequence of rows, with and without keys, every array, shape and index", "why_tests_cant": "Keys and rows are kept in two lists that must stay aligned over every order of pushes; the tests do not push rows without keys after rows with keys, nor read beyond the end.", "anchors": ["scalars/src/scalar_stream.cpp:ScalarStream", "scalars/src/key_scalar_stream.cpp:KeyScalarStream"]}
{"id": "C147", "title": "Shared objects are destroyed once, after every use, in every schedule", "statement": "An object that any number of threads hold counted pointers to (buffers of arrays, types, devices, queues, events) stays alive while one of them has a pointer; when the last pointer is dropped, by whichever thread, it is destroyed exactly once, and every use by every thread happens before its destruction in the sense of the C++ memory model; ref_count() is the number of pointers.", "quantifier": "every number of threads, every interleaving of copies, moves, uses and drops, every memory order the hardware allows", "why_tests_cant": "A test runs a few schedules on one machine; the claim is about all interleavings and about memory orders weaker than those of the test machine.", "anchors": ["platform/include/roughpy/platform/reference_counting.h:RefCountedMiddle", "platform/include/roughpy/platform/devices/device_object_base.h:RefCountBase", "platform/include/roughpy/platform/devices/device_object_base.h:ObjectBase"]}
{"id": "C148", "title": "The functions of roughpy.compute act on every tensor of a batch", "statement": "For arrays of any number of leading dimensions of equal sizes, with any strides of these dimensions, ft_fma, ft_mul, ft_inplace_mul, antipode, st_fma, ft_exp, ft_log, ft_fmexp and ft_adjoint_left_mul leave in the output, at every index of the batch, the result of the operation on the tensors at that index of the operands. Nothing else in memory changes. Operands that do not fit raise an error and nothing is read or written outside the arrays.", "quantifier": "all batch shapes, all strides of the batch dimensions, all places in memory, all widths and depths, all coefficients", "why_tests_cant": "tests use a few small contiguous batches; a wrong step of the index or a row read at the wrong place shows only for other shapes or strides", "anchors": ["roughpy/compute/_src/py_binary_array_fn.hpp:binary_function_outer", "roughpy/compute/_src/py_ternary_array_fn.hpp:ternary_function_outer", "roughpy/compute/_src/check_dims.hpp:check_dims", "roughpy/compute/__init__.py:ft_fma,ft_mul,ft_inplace_mul,antipode,st_fma,ft_exp,ft_log,ft_fmexp,ft_adjoint_left_mul"]}
{"id": "C149", "title": "Conversions between number types keep the number or say so", "statement": "A conversion between two of the built-in number types that is asked to be exact either gives the same number in the destination type or is refused, and then leaves the destination as it was; it is refused only if the number is not one of the destination type. A conversion that says it is always exact always gives the same number. Without the request an integer is taken modulo the range of the destination and a floating-point number loses its fraction; a number out of range is refused. The conversion that is looked up for two types is the one from the first to the second.", "quantifier": "every pair of built-in types, every number of the first, with and without the request for exactness", "why_tests_cant": "There are a hundred pairs of types with up to 2^64 numbers each; the tests look at the exactness flags of a few pairs and at conversions of small numbers.", "anchors": ["platform/src/generics/builtin_types/conversion_helpers.h:ConversionHelper", "platform/include/roughpy/generics/conversion_trait.h:ConversionTraitImpl", "platform/src/generics/conversion_impl.h:build_conversion_to_table", "platform/src/generics/builtin_types/builtin_type_methods.h:convert_to"]}
{"id": "C150", "title": "Values of run-time type compute and compare as the numbers they hold", "statement": "A generic value holds the number it was made from or assigned, converted to its type if it has one. The sum, difference, product and quotient of two values are those of their numbers, in a type that holds both; the operations with assignment leave the result in the left operand. Two values compare as their numbers do. Combinations that cannot be computed are refused with an exception.", "quantifier": "all values of the built-in types, all operations, all comparisons, values and references to objects elsewhere", "why_tests_cant": "The tests use two doubles. Other types and mixed types give thousands of combinations, most of them wrong only for some numbers.", "anchors": ["platform/src/generics/value.cpp:Value::copy_assign_value", "platform/src/generics/value_arithmetic.cpp:value_arithmetic", "platform/src/generics/value_compare.cpp:value_compare_converting", "platform/src/generics/type_promotion.cpp:compute_promotion"]}
{"id": "C151", "title": "Values on the heap are independent and each object is freed once", "statement": "Generic values of a type that is stored on the heap behave like independent numbers: whatever a program does with its variables - construction, copies, moves, assignments, writes through references, the end of their scopes - each variable holds what it was given last, no object is used after it was freed or freed twice, and when all variables are gone so are all objects.", "quantifier": "every sequence of declarations, copies, moves, assignments, writes and ends of scope, with any number of variables", "why_tests_cant": "Errors of ownership show only in some orders of operations, and often not at all until memory is reused; no test assigns by move.", "anchors": ["platform/src/generics/value.cpp:Value::operator=", "platform/include/roughpy/generics/values.h:ValueStorage"]}
{"id": "C152", "title": "Streams over sound files move by their samples", "statement": "For a stream opened from a sound file the log signature over an interval is that of the path which, at the time of each frame in the interval, moves by the samples of the frame (channels of increments) or by their change since the frame before (channels of values), frames in order, whatever has been queried before; adjoining intervals compose. Every query inside the support is answered. A query of the source outside the file raises an error instead of reading anything else. The resolution, support, channel types and time channel given when the stream is opened are respected.", "quantifier": "every sound file (number of channels, frames, sample rate), schema, interval, resolution, and history of queries on the shared file handle", "why_tests_cant": "The tests open one file and check the width, type, support and the size of the answer, never its value; the frame arithmetic, the frame before an interval and the shared position of the file handle range over all rates, intervals and histories.", "anchors": ["streams/src/external_data_sources/sound_file_data_source.cpp:SoundFileDataSource::query_impl", "streams/src/external_data_sources/sound_file_data_source.cpp:SoundFileDataSourceFactory::construct_stream", "streams/src/external_data_stream.cpp:ExternalDataStream::log_signature_impl", "roughpy/src/streams/externally_sourced_stream.cpp:external_stream_constructor"]}
{"id": "C153", "title": "Arithmetic of polynomial values is that of polynomials", "statement": "For values of the run-time polynomial type, the sum, difference, product and quotient by a number are defined for all operands (division by zero is an error) and evaluate, at every assignment of numbers to the indeterminates, to the sum, difference, product and quotient of what the operands evaluate to; this includes operands that are the same object. The results are again in normal form: monomials strictly increasing, no zero coefficients, no zero exponents.", "quantifier": "every pair of polynomials: any number of terms, indeterminates, exponents and rational coefficients, any capacity of the underlying vectors, operands aliased or not", "why_tests_cant": "The unit tests add and multiply a handful of polynomials with one or two terms; which terms are new, where they are inserted and whether the vector has room decide whether a kept end iterator is still the end.", "anchors": ["platform/src/generics/polynomial_type/polynomial.cpp:poly_add_inplace", "platform/src/generics/polynomial_type/polynomial.cpp:poly_sub_inplace", "platform/src/generics/polynomial_type/polynomial.cpp:poly_mul_inplace", "platform/src/generics/polynomial_type/monomial.cpp:Monomial::operator*=", "platform/src/generics/polynomial_type/polynomial_number.cpp"]}
{"id": "C154", "title": "Polynomial values are equal, zero or a number exactly when their functions are", "statement": "Two values of the run-time polynomial type compare equal if and only if they evaluate to the same number everywhere; a value is zero if and only if it evaluates to zero everywhere; it converts to a number if and only if it is constant, and then to that constant; numbers become constant polynomials, the number zero the zero polynomial. Monomials are totally ordered, by degree first, and all comparison operators agree with that order. Equal fractions give equal coefficients.", "quantifier": "every pair of polynomials and of monomials in any number of indeterminates, every rational number and every fraction that represents it", "why_tests_cant": "Equality of functions ranges over all assignments of numbers to the indeterminates, and the order over all pairs of monomials; the tests compare a few literals.", "anchors": ["platform/src/generics/polynomial_type/polynomial.h:Polynomial", "platform/src/generics/polynomial_type/monomial.cpp:operator<=", "platform/src/generics/polynomial_type/monomial.h:Monomial", "platform/src/generics/polynomial_type/conversion_helpers.h", "platform/src/generics/polynomial_type/polynomial_number.cpp:unsafe_from_rational"]}
{"id": "C155", "title": "Integers and fractions of arbitrary precision are numbers", "statement": "For values of the run-time types of arbitrary-precision integers and fractions, sums, differences, products, quotients, negatives, absolute values, powers and the six comparisons are exactly those of the numbers the values stand for; results of operations on fractions are in lowest terms. from_rational(n, d) gives n/d, or an error if the type has no such number; a fraction that is read from a string is the number written. Division by zero, operations the type does not have, and malformed input are errors; nothing aborts.", "quantifier": "every pair of integers and of fractions of any size, every 32-bit exponent, every 64-bit numerator and denominator, every formula built from the operations", "why_tests_cant": "The unit tests only ask whether the operations are supported and print one number; no sum, comparison or power is computed, and its correctness is over all pairs of numbers.", "anchors": ["platform/src/generics/multiprecision_types/integer_arithmetic.cpp", "platform/src/generics/multiprecision_types/rational_arithmetic.cpp:RationalArithmetic::unsafe_add_inplace", "platform/src/generics/multiprecision_types/integer_comparison.cpp:IntegerComparison::unsafe_compare_equal", "platform/src/generics/multiprecision_types/rational_comparison.cpp", "platform/src/generics/multiprecision_types/integer_number.cpp:IntegerNumber::unsafe_from_rational", "platform/src/generics/multiprecision_types/rational_number.cpp:RationalNumber::unsafe_pow", "platform/src/generics/number_trait.cpp", "platform/src/generics/comparison_trait.cpp:ComparisonTrait::compare_equal", "platform/src/generics/value_math.cpp:math_fn"]}
{"id": "C156", "title": "Arrays of values of run-time type behave like lists of values", "statement": "Every sequence of constructions, copies, moves, assignments, resizes, reservations, reads and writes of generic arrays shows what it would show if every variable held a list of values with its type: new elements are zero, copies are independent, a moved-from array is empty and without a type, an index out of range or a missing type is reported and changes nothing, capacity that was reserved keeps elements in place. Every block of memory and every element is released exactly once.", "quantifier": "all programs over any number of arrays, all element types, sizes and indices", "why_tests_cant": "tests exercise single operations on built-in element types; growth of arrays whose elements own memory, assignment over existing contents and the release of memory depend on the history of the array", "anchors": ["platform/src/generics/array.cpp: Array::copy_from, Array::reserve, Array::resize, Array::operator=", "platform/include/roughpy/generics/array.h: Array::operator[], Array::get", "platform/src/generics/builtin_types/builtin_type_methods.h: copy_or_fill", "platform/src/generics/multiprecision_types/integer_type.cpp: copy_or_fill, destroy_range"]}
{"id": "C157", "title": "Polynomials written as text are read as those polynomials", "statement": "Reading the text of a polynomial gives the polynomial with these coefficients, indeterminates and powers, whatever the order of the terms; what is shown for a polynomial can be read back; text that is not a polynomial is refused; reading never ends the process.", "quantifier": "all polynomials and all texts", "why_tests_cant": "the grammar has infinitely many texts; the tests read a handful of them and compare no shown polynomial with what is read back", "anchors": ["platform/src/generics/polynomial_type/polynomial_type.cpp: PolynomialType::parse_from_string, parse_monomial, parse_rat_coeff, parse_dbl_coeff, PolynomialType::display", "platform/src/generics/polynomial_type/polynomial.cpp: poly_print", "platform/src/generics/polynomial_type/monomial.cpp: operator<<", "platform/src/generics/polynomial_type/indeterminate.cpp: operator<<"]}
{"id": "C158", "title": "The numpy array of an element has its coefficients", "statement": "numpy.array(x) of a Lie element, free tensor or shuffle tensor has one entry for every key of the basis, in the order of the basis, and each entry is the coefficient of that key, zero where there is none; its type is the type of the coefficients; this holds for dense and sparse elements, all coefficient types, with and without copy.", "quantifier": "all elements, storage types, coefficient types and dimensions", "why_tests_cant": "the tests convert dense elements of double precision; the statement is about every storage, coefficient type and length of the stored data", "anchors": ["roughpy/src/args/numpy.h: algebra_to_array", "roughpy/src/args/numpy.cpp: dense_data_to_array, new_zero_array_for_stype, write_entry_to_array, info_to_typenum", "roughpy/src/algebra/setup_algebra_type.h: __array__", "algebra/include/roughpy/algebra/implementors/algebra_impl.h: dense_data"]}
{"id": "C159", "title": "Iterating over a tensor basis lists every word once in order", "statement": "A loop over a TensorBasis gives the keys of all words with at most depth letters, each once, shorter words first and words of one length in the order of a dictionary. A TensorKeyIterator from one key to another gives the words in between in this order, and is exhausted after a loop.", "quantifier": "all widths, depths and pairs of keys", "why_tests_cant": "the number of keys grows exponentially with the depth; the tests iterate over elements of one small basis", "anchors": ["roughpy/src/algebra/tensor_key_iterator.cpp: PyTensorKeyIterator, next, init_tensor_key_iterator", "roughpy/src/algebra/basis.cpp: wordlike_basis_setup", "roughpy/src/algebra/tensor_key.cpp: PyTensorKey::to_letters", "algebra/src/libalgebra_lite_internal/tensor_basis_info.h: dimension"]}
{"id": "C160", "title": "Arithmetic written in Python computes what is written", "statement": "Operators in Python on elements and numbers compute the operation they stand for: elements are added, subtracted and multiplied with elements of the same class, multiplied with numbers on either side and divided by numbers, where a number (rp.Scalar, float, int, Fraction) stands for its exact value; an in-place operator computes the same and changes the object, so that every name of it sees the change; operators between rp.Scalar objects and numbers compute in the field; anything else raises TypeError.", "quantifier": "all programs of operator statements, all elements of a context in either storage, all scalars and Python numbers", "why_tests_cant": "which overload runs depends on the types of both operands and on conversions, for every operator; tests cover a few combinations", "anchors": ["roughpy/src/algebra/setup_algebra_type.h:__truediv__", "roughpy/src/algebra/setup_algebra_type.h:__rmul__", "roughpy/src/algebra/setup_algebra_type.h:__imul__", "roughpy/src/scalars/scalars.cpp:init_scalars"]}
{"id": "C161", "title": "Constructors give elements with the sizes and coefficients asked for", "statement": "FreeTensor(data, ...), ShuffleTensor(data, ...) and Lie(data, ...) return an element with the width, depth and scalar type of the context given, or those given one by one (depth 2 by default; without a width, data that is an array has degree one), with the storage type asked for (by default sparse for data with keys, dense otherwise), whose coefficients are the data: values in the order of the basis, or at the keys written with them or passed as keys; None is zero; everything else raises.", "quantifier": "all data arguments and all combinations of keyword arguments", "why_tests_cant": "the sizes, the type and the storage come from the interplay of optional arguments with arbitrary data; tests use few combinations", "anchors": ["roughpy/src/algebra/free_tensor.cpp:construct_free_tensor", "roughpy/src/algebra/shuffle_tensor.cpp:construct_shuffle", "roughpy/src/algebra/lie.cpp:construct_lie", "roughpy/src/args/kwargs_to_vector_construction.cpp:kwargs_to_construction_data"]}
{"id": "C162", "title": "Memory on the host device holds the elements asked for", "statement": "Memory allocated on the host device for n elements of a type holds n zeros; a view from an offset shows the elements from there on, as many as were asked for or as there are, and is refused past the end; writing through a view changes that element only; a copy to a memory with the same type and enough elements, or to a device, holds the same elements; memory that is read only is not written and memory that is write only is not read; memory that is not read only is freed when it is destroyed.", "quantifier": "all types, numbers of elements, alignments, offsets, counts, modes and contents", "why_tests_cant": "sizes and offsets range over all 64-bit numbers; the only test of this code reads one number", "anchors": ["platform/src/device/host_device.cpp:HostDeviceHandle::allocate_memory,copy_memory,destroy_memory", "platform/src/device/host_address_memory.cpp:HostAddressMemory", "platform/src/device/memory.cpp:Memory::to", "platform/include/roughpy/platform/alloc.h:ScopedSafePtr"]}
{"id": "C163", "title": "Scratch arrays have the size asked for and free their memory", "statement": "A scratch array of the dense kernels has the size it was made with or last given, has room for that many elements, each element reads as what was last written to it since then, and all memory it allocated is freed when it is destroyed.", "quantifier": "all inline sizes, all sizes, all histories of writes and changes of size", "why_tests_cant": "the state after a change of size depends on the sizes before; there is no test of this class", "anchors": ["roughpy_compute/common/cache_array.hpp:CacheArray", "roughpy_compute/dense/basic/shuffle_tensor_product.hpp:letters,tile"]}
{"id": "C164", "title": "== and != in Python compare values", "statement": "For scalars and elements, a == b is true exactly if both are numbers with the same value or both are the same element, false otherwise, on either side, and a != b is its opposite; neither raises.", "quantifier": "all scalars, elements and other objects, on both sides", "why_tests_cant": "the answer depends on the types and values of both operands; tests compare a few floats", "anchors": ["roughpy/src/scalars/scalars.cpp:init_scalars", "roughpy/src/algebra/setup_algebra_type.h:setup_algebra_type"]}
{"id": "C165", "title": "Iterating over an element gives its entries", "statement": "Iterating over a Lie element or tensor in Python hands out one item for each stored entry, in the order of storage, and then stops for good. Each item stays the entry it was handed out for, whatever happens later: other iterators, more calls of next, and the element or the iterator going out of scope.", "quantifier": "every element that is not changed meanwhile, and every program that takes any number of iterators, calls next on them in any order, reads items at any time and drops names at any time", "why_tests_cant": "Programs can interleave iterators, reads and drops in infinitely many ways; the tests read each item as it comes, and reading an invalid item is undefined behaviour that may look right.", "anchors": ["roughpy/src/algebra/setup_algebra_type.h:__iter__", "roughpy/src/algebra/algebra_iterator.cpp:init_iterator", "algebra/include/roughpy/algebra/algebra_iterator.h:AlgebraIterator", "algebra/include/roughpy/algebra/algebra_iterator_impl.h:AlgebraIteratorImplementation", "algebra/include/roughpy/algebra/algebra_base_impl.h:begin"]}
{"id": "C166", "title": "Launch parameters describe the work", "statement": "For the launch parameters of a kernel, the total size is the number of work items and the number of directions is how many are used; the number of groups in each direction is the fewest that hold the work; the left-over is the number of places in those groups without a work item; and the mask made from the parameters has exactly one bit set for each work item.", "quantifier": "every size of the work and every group size in up to three directions", "why_tests_cant": "The sizes range over 64-bit numbers; errors sit at sizes that fill the groups, at multiples of the word size and one more, and near the limits of the number types.", "anchors": ["platform/src/devices/kernel_launch_params.cpp:KernelLaunchParams", "platform/src/devices/kernel.cpp:Kernel::construct_work_mask", "core/include/roughpy/core/helpers.hpp:round_up_divide"]}
{"id": "C167", "title": "A scalar type is found by its name", "statement": "Asking for a scalar type by name gives the type that has exactly this name; any other name gives no type or an error, and never undefined behaviour. A name given as the dtype of a signature means that type.", "quantifier": "every string, and every scalar type", "why_tests_cant": "There are infinitely many names; tests use the names of the types, and the parser errs on others: extra text, odd numbers, large numbers and short names.", "anchors": ["scalars/src/scalar_type.cpp:get_type", "scalars/src/scalar_type.cpp:parse_id_to_type_info", "core/include/roughpy/core/helpers.hpp:next_power_2", "roughpy/src/streams/signature_arguments.cpp:dtype"]}
