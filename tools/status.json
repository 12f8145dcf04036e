{
 "C01": [
  "partial",
  "False for different powers (refuted by witness; what operator< really compares is proved); equal powers and rational_equals proved."
 ],
 "C02": [
  "proved",
  "Within the 32-bit guard; value preservation also beyond it; witness that the returned flag is wrong beyond the guard."
 ],
 "C03": [
  "proved",
  "Exact rational parameters."
 ],
 "C04": [
  "partial",
  "Proved when d.n < 31 + res; beyond the guard the constructor returns an interval of the wrong length (witness)."
 ],
 "C05": [
  "proved",
  "Clopen. For Opencl the function provably never returns unless the interval lies in one cell."
 ],
 "C06": [
  "proved",
  ""
 ],
 "C07": [
  "partial",
  "Everything proved except expand_interval / aligned for opencl intervals (refuted by witness) and expand by 31 or more."
 ],
 "C08": [
  "proved",
  "For keys of one type; mixed types refuted."
 ],
 "C09": [
  "partial",
  "Overlapping clopen intervals; disjoint and opencl cases refuted."
 ],
 "C10": [
  "partial",
  "Tiling proved for every reachable partition and all operations; merge is the common refinement when the intervals overlap or touch; across a gap intermediates are lost (refuted)."
 ],
 "C100": [
  "partial",
  "Assigning a number and moving into a scalar convert to the type of the target (C100_number, C100_number_fails, C100_move, C100_value); refuted for x = y where x is an inline zero or empty, which takes over the type of y (C100_scalar_zero, C100_type_refuted)."
 ],
 "C101": [
  "partial",
  "Exact for rational numbers and polynomials (C101_exact_partial), integers that fit (C101_integer), floating numbers by the machine's operation (C101_floating, C101_mixed), inline zeros (C101_zero), and the operators that return a new scalar (C101_binary). Refuted: on a reference to an element of another type and for p -= p on a polynomial the behaviour is undefined (C101_undefined_refuted), and adding an inline zero does not change the type (C101_zero_type_refuted)."
 ],
 "C102": [
  "partial",
  "Refuted: -x is always empty or zero, because the function that should negate has an empty body (C102_negation_refuted)."
 ],
 "C103": [
  "partial",
  "Proved for all scalars that stand for a number or polynomial, if an integer compared with a floating number is small and a negative zero does not meet a zero (C103_equal_partial, C103_symmetric). Refuted in the excepted cases (C103_large_refuted, C103_rounded_refuted, C103_special_refuted)."
 ],
 "C104": [
  "partial",
  "Proved where the left side has the more general type: rational, floating, integer, polynomial by rational, and zero divisors (C104_rational, C104_floating, C104_integer, C104_polynomial, C104_zero). Refuted: whenever the right side has the more general type the behaviour is undefined (C104_confusion_refuted); a polynomial cannot be divided by an integer or floating number (C104_polynomial_refuted)."
 ],
 "C105": [
  "partial",
  "Proved for intervals closed on the left and depths up to 30 (C105_segment_partial), for any predicate the pieces (C105_pieces) and the outcomes (C105_outcome). Refuted for intervals closed on the right (C105_opencl_refuted) and for depths from 31 on (C105_depth_refuted). Numbers are exact."
 ],
 "C106": [
  "partial",
  "Refuted: the search expands across the ends of the interval (C106_inside_refuted). Proved: how far at most (C106_bounds), and the claim if the set lies inside the interval (C106_inside_partial)."
 ],
 "C107": [
  "partial",
  "Values of different depth in one list and floating point times are not modelled. Fails for equal times, for a given support beginning after the second sample, and without a context argument."
 ],
 "C108": [
  "partial",
  "Holds for the first sample only; for every other sample the value at its time is the previous one (C108_at_sample)."
 ],
 "C109": [
  "partial",
  "Holds for intervals overlapping the domain; an interval that only touches it gives a stream over [0,1) or an error."
 ],
 "C11": [
  "partial",
  "mesh returns the shortest piece (proved); the documented largest is refuted; holds for equal pieces."
 ],
 "C110": [
  "partial",
  "Chen, independence of the resolution and the relation to the terminal value hold; the interval is not trimmed to the domain."
 ],
 "C111": [
  "partial",
  "Proved for all programs whose statements are Safe (HandleSpec.lean). Refuted: an unset left operand is undefined, an unset right factor is ignored, x -= x on sparse tensors, products after a dense product by zero."
 ],
 "C112": [
  "partial",
  "Proved for tensors and Lie elements of all contexts, and for division by zero of set elements. Refuted: the scalar zero in fused operations skips the check; unset elements can be divided by zero."
 ],
 "C113": [
  "partial",
  "Proved within a context and for different widths. Refuted: elements of the same width and different contexts raise an exception. Dense tensors after an in-place product by zero are not covered."
 ],
 "C114": [
  "partial",
  "Proved for sparse tensors, for the stored part of dense tensors and for all keys that iteration over a Lie element shows. Refuted: dense tensors beyond their storage, indices beyond the basis. Lie keys beyond the storage of a dense element are not covered."
 ],
 "C115": [
  "partial",
  "Proved within a context if the tensor stores a coefficient for each that the shuffle tensor stores. Refuted: shorter dense tensors, different widths, unset shuffle tensors."
 ],
 "C116": [
  "partial",
  "For every program over arrays (construction over own and user memory, copies, moves, assignments, slices, views, conversions, destruction) that meets the listed preconditions, if the counts of new buffers start at zero. Refuted: the count is not initialised (memory leaks or is freed while in use), arrays made with a type info and a size, views outliving their owner. Missing: the defective statements excluded by Safe."
 ],
 "C117": [
  "partial",
  "Writes, frame, zeros, copies, slices, views, moves and moving assignments for every reachable state. Refuted: moved-from arrays keep their size, borrowed arrays stay alive after a moving assignment. Missing: states reached through the defective statements."
 ],
 "C118": [
  "partial",
  "Bounds for usable arrays of reachable states; constants for all states; constant memory of the user for all programs without undefined behaviour. Refuted: indexing an empty array, slices with begin > end."
 ],
 "C119": [
  "partial",
  "Assignment from owners of floating numbers; converting copies between arrays of one size in different memory. Refuted: assigning views, borrowed arrays, rational numbers, empty and moved-from arrays; converting copies from a shorter source."
 ],
 "C12": [
  "proved",
  "All clauses; additionally: tensor_basis::parents is wrong above degree two and unpacked_tensor_word::operator< disagrees with the index order (refuted by witness)."
 ],
 "C120": [
  "partial",
  "Text and injectivity in full. Accepted objects are characterised: in a list every 16 bit number is taken as a letter, also zero and letters beyond the width, and brackets need not be Hall brackets (C120_letters_refuted)."
 ],
 "C121": [
  "partial",
  "Iteration and texts in full for widths below 2^16. Numbers outside the basis are not refused: the recursion does not end (C121_bounds_refuted)."
 ],
 "C122": [
  "partial",
  "Holds for letters. Refuted for every key of degree two or more of every basis (C122_lookup_refuted): the recursion goes to the wrong right part and the number found is never that of the key."
 ],
 "C123": [
  "partial",
  "Degree in full. Equality compares only the left spines of the two parts (C123_equals_partial says exactly what; C123_equals_refuted) and reads past the end for equal letters. Parts are right for letters, pairs and a letter with a pair; wrong in general (C123_parts_refuted)."
 ],
 "C124": [
  "partial",
  "index_to_key is right below the dimension. Beyond it does not return; key_to_index and parents do not use the key (C124_key_to_index_refuted)."
 ],
 "C125": [
  "partial",
  "Proved for arguments that do not contradict each other and levels that fit in 32 bits. Refuted: sup without a lower end point, or a second resolution, is ignored; larger levels wrap."
 ],
 "C126": [
  "partial",
  "Proved for ctx, and for a depth with or without a RoughPy scalar type. Refuted: a scalar type alone gives depth 0; names are refused or undefined behaviour; unsupported types end the process."
 ],
 "C127": [
  "partial",
  "Proved for the pairs, the resolution given and the context. Refuted: a tuple of two pairs is rejected; without a resolution the derivative is taken at a coarser one than signature uses."
 ],
 "C128": [
  "partial",
  "Proved for every piece, context and resolution given. Refuted: the default resolution is coarser than that of log_signature; the support is that of the metadata, not of the stream."
 ],
 "C129": [
  "partial",
  "Metadata and context agree for tick and increment streams; the width of the schema is the width but for contradictory contexts and labels that are numbers. Refuted for Brownian, function and piecewise streams with a schema."
 ],
 "C13": [
  "proved",
  "Kernel and Python wrappers (ft_fma, ft_mul); in-bounds conditions are exact."
 ],
 "C130": [
  "partial",
  "Proved for tick and increment streams without time, zero widths and depths, or a schema of another width. Refuted: contexts and schemas that are replaced, include_time with a schema, names of types, function streams without a scalar type."
 ],
 "C131": [
  "partial",
  "Proved for tick streams and for increment streams with a width. Refuted for increment streams without a width: time overwrites the last column."
 ],
 "C132": [
  "partial",
  "proved for dyadic numbers, dyadic and real intervals and proper partitions, with the exact condition for partitions (C132_partition_iff); refuted for reachable partitions that hold an end point of their interval (C132_partition_refuted)"
 ],
 "C133": [
  "partial",
  "proved for dense elements with float or double coefficients and for sparse elements without entries; refuted for every sparse element with an entry, every unset element and every dense element with rational coefficients that has entries; polynomial coefficients are not modelled"
 ],
 "C134": [
  "partial",
  "no truncated pickle gives an element; it throws unless unpickling the whole pickle is undefined, in particular for all dense elements with float or double coefficients; refuted for pickles of another class, which are taken for the wrong class (C134_kind_refuted); bytes after the end are ignored (C134_trailing)"
 ],
 "C135": [
  "partial",
  "Proved for labels that differ, are not empty and have no ':' or NUL, with options present in tuples. Refuted: options left out of a tuple, options of increments, repeated labels. Which exception is raised is left out."
 ],
 "C136": [
  "partial",
  "All layouts give their ticks and are unambiguous; values without a time, label or type raise. Refuted: a fifth component that is a dict is ignored, and channels called label, type and data are taken for a record."
 ],
 "C137": [
  "partial",
  "Proved for increments, values and categories. Refuted for Lie increments and for unknown or capitalised names: the tick is dropped. What the construction helper does with a call is the subject of C45 and others, not of this one."
 ],
 "C138": [
  "partial",
  "Ticks of one kind of time are accepted, recorded with label, type and data in the order given, at their time minus the time of the first tick given, and ties are numbered in order; mixtures and other objects are refused. Refuted as stated: the first tick is at 0 whatever its time, so the order of the data changes all times, and integer times always raise. Floats are rational numbers in the model."
 ],
 "C139": [
  "partial",
  "Proved for ticks whose labels have no colon and are not empty, one type for each label. Refuted as stated: a tick of another type under a known label is accepted, and a label with a colon is taken for a part of another channel."
 ],
 "C14": [
  "proved",
  "Kernel and Python wrapper."
 ],
 "C140": [
  "partial",
  "Proved from the calls of the parser to the answer of log_signature for increments and values, first tick earliest, end points multiples of 2^-resolution in the support, no schema given; construction proved to succeed; independence of the layout proved. Refuted: data whose first tick is not the earliest never returns; ticks one or more after the first are invisible without support."
 ],
 "C141": [
  "partial",
  "Proved at depth at most two, for elements that are not exponentials of elements without part in degree one (C141_log_partial, C141_linear_partial, C141_formula). Refuted beyond: at depth two Log(1) raises, exactly when the degree-two part is antisymmetric (C141_raises, C141_trivial_refuted), and from depth three on Log raises for every element (C141_deep_refuted), because an empty dictionary is not accepted as data. The adjoint of the shuffle product comes out with both words reversed (C141_adjoint_refuted)."
 ],
 "C142": [
  "partial",
  "Proved with a context (C142_product_partial) and for all operations (C142_arithmetic, C142_canonical). Refuted: without the optional context the constructor indexes past the pair (C142_context_refuted); sub_scal_div keeps cancelled entries (C142_zero_refuted)."
 ],
 "C143": [
  "partial",
  "Sparse tensors and dense tensors whose storage is filled up to their degree, for every tile size, with width below 2^16 (letters are unsigned shorts). Refuted for dense tensors without storage (a zero tensor): the first entry is read from an empty array."
 ],
 "C144": [
  "partial",
  "Proved for two dense tensors with storage, of one class. Refuted: sparse arguments give zero (for all operands) or read outside the table of powers (every sparse multiplier with a letter other than the first); dense argument with sparse multiplier takes wrong coefficients (proved: no access outside the storages); the degree of the result is recorded as 0, so that a second application writes outside the storage and products lose terms; a FreeTensor multiplier with a ShuffleTensor argument gives a FreeTensor object pointing to a shuffle tensor; a multiplier without storage is read."
 ],
 "C145": [
  "partial",
  "Proved for all programs whose statements meet KSafe. The excluded statements have defects, each refuted by a program (copies of arrays over user keys lose them, allocate_keys frees keys of the user and frees twice, copy_or_move writes out of bounds, moved-from arrays claim keys). Missing: load/save and convert_copy into a keyed array."
 ],
 "C146": [
  "partial",
  "Rows are read back iff no row without keys follows one with keys (C146_rows_partial, both directions); counts hold; shapes proved for mutable memory of the user. Refuted: keys after a row without keys, out of range terminates, owned arrays leave dangling rows, constant arrays are refused, third dimension ignored."
 ],
 "C147": [
  "partial",
  "Proved in full for RefCountedMiddle (counter starts at 0) for all schedules, with happens-before as views, while fewer than 2^64 pointers exist. RefCountBase does not initialise its counter: refuted (leak, early destruction). The counter of boost::intrusive_ref_counter is not in the repository."
 ],
 "C148": [
  "partial",
  "Proved for rows that are contiguous, as long as the basis asks, and an output apart from the operands. Refuted otherwise: strides of the last dimension are ignored, its length is not checked, read-only outputs are written, aliasing gives wrong results."
 ],
 "C149": [
  "partial",
  "Exact conversions that succeed keep the number, for all pairs but same-sign narrowing; integer conversions decided in full; refusals leave the destination alone but from double to float. False: same-sign narrowing is always 'exact', widening is not; double to int64 fails for every number from 1; numbers out of range of int32 are undefined; convert_from finds the opposite conversion."
 ],
 "C15": [
  "proved",
  "Exact scalars."
 ],
 "C150": [
  "partial",
  "Proved for operands of one type (integers exact or modulo, floats as the machine, comparisons). Different types are refused with signs differing and for operations with assignment of values. False otherwise: promotions go to the smaller type, assignments read the source in the wrong type, division in place leaves the operand, moves are dropped."
 ],
 "C151": [
  "partial",
  "Proved for all programs without move assignment. Move assignment leaves two owners, leaks the old object and keeps a stale pointer in the source."
 ],
 "C152": [
  "partial",
  "Rows of a query are the movements at the frames in the interval, for every position of the handle; queries outside the file throw; the stream's log signature is that of the movements, after any history, at resolutions up to that of the stream; what from_uri makes of its arguments. The claim fails for the first frame of increments, short files, lead-lag and time channels, resolution 0 (refutations)."
 ],
 "C153": [
  "partial",
  "Proved under the condition that keeps the old end iterator meaningful; without it the code is undefined or wrong, shown by refutations."
 ],
 "C154": [
  "partial",
  "Equality, zero test, conversion and the strict order are proved for polynomials in normal form; <= and >, the number zero and fractions not in lowest terms are refuted."
 ],
 "C155": [
  "partial",
  "Integers except ==, powers and negative from_rational; fractions in lowest terms except sums, division by zero and powers below -1; the exceptions are refuted."
 ],
 "C156": [
  "partial",
  "Values for all programs that do not copy an array without a type or to itself, and do not grow a non-empty array of elements that own memory (all of these are undefined, refuted); release of memory if arrays are assigned only to variables without memory (else it is lost, refuted). Two kinds of element types; alignment, exhaustion of memory and element counts beyond the address space not modelled."
 ],
 "C157": [
  "partial",
  "Reading of texts with terms and indeterminates in any order, reading back of what is shown with at most one indeterminate per term, and the normal form of whatever is read are proved; the rest of the claim is refuted: two indeterminates are not read back, malformed text is not refused, repeated terms are dropped, fractions are not reduced, large coefficients are refused and decimal numbers can end the process."
 ],
 "C158": [
  "partial",
  "Proved for dense elements with native numbers, for dense elements of full length with fractions or polynomials, and for zero; refuted for every other sparse element (entries are never written), for dense fractions that must be filled up, for types without an array type and for unset elements."
 ],
 "C159": [
  "partial",
  "Order, completeness and ranges are proved for bases whose dimension fits in 64 bits; that an iterator is exhausted after a loop is refuted."
 ],
 "C16": [
  "proved",
  "Exact scalars; both compositions."
 ],
 "C160": [
  "partial",
  "Programs with elements, floats, 64-bit ints and scalars compute in the algebra; refuted: dividing by an rp.Scalar multiplies, Scalar * element and Scalar - Scalar and all quotients of scalars raise, fractions and large ints are rounded, in-place operators with plain numbers make a new object."
 ],
 "C161": [
  "partial",
  "Elements have the sizes, type, storage and coefficients asked for; refuted: the argument keys is ignored, widths found from data with keys are wrong, Lie elements from data with keys are dense by default, a pair written as a tuple is one coefficient. Shuffle tensors: up to the request to the context."
 ],
 "C162": [
  "partial",
  "Views, writes, copies and destruction for all contents; refuted: allocation swaps size and alignment, so only memory of at most 16 bytes (or the alignment) is sound, views with counts near 2^64 leave the block, views ignore the mode. Other devices are not modelled."
 ],
 "C163": [
  "partial",
  "Proved for histories in which sizes only grow beyond the inline buffer, and so for every use in the library, which never changes a size; refuted: resize of an inline array keeps the old size, shrinking leaks the block or gives it back with the wrong size."
 ],
 "C164": [
  "partial",
  "Scalars with scalars, floats and 64-bit integers, elements with everything but scalars; refuted: scalars compared with other objects or elements raise, fractions and large integers are rounded first. The comparison of two scalars of different types in C++ is simplified to that of their values."
 ],
 "C165": [
  "partial",
  "Proved for elements with storage and programs that read an item before its iterator goes on and while the element or an iterator has a name; refuted otherwise: kept items change and then are undefined, items of temporaries are undefined, elements without storage raise."
 ],
 "C166": [
  "partial",
  "Total size, directions and number of groups proved where they fit in their types; left-over proved when the work does not fill the groups. Refuted: a full last group counts as left over, numbers of groups are cut to 32 bits, and the mask always has one bit too few or is undefined behaviour."
 ],
 "C167": [
  "partial",
  "Each type but bfloat16 is found by its name; names not beginning with f find only their own type; f and a number of whole bytes below 256 finds only the type of that width. Refuted: bfloat16 is never found, wrong names find types, some names are undefined behaviour, and no string works as the dtype of a signature. Names are ASCII."
 ],
 "C17": [
  "proved",
  "Exact scalars."
 ],
 "C18": [
  "proved",
  "Depth >= 1 as stated; depth 0 reads and writes out of bounds (C18_depth_zero_refuted)."
 ],
 "C19": [
  "proved",
  "Includes the combinatorial description on words."
 ],
 "C20": [
  "partial",
  "Left half shuffle, shuffle and right half shuffle of non-empty words computed for every history of the cache. The boundary values of the right half shuffle and the sum of left and right of the same pair are refuted; the sum over both orders is proved."
 ],
 "C21": [
  "partial",
  "Holds when the operator is at least as deep as the functional; a shallower operator is refuted."
 ],
 "C22": [
  "proved",
  "Signature as product of ft_fmexp of Lie increments, and Context.signature (C22_lite_shuffle_identity)."
 ],
 "C23": [
  "proved",
  "For the maps, exp, log and fmexp of roughpy.compute and for the context of libalgebra_lite, over a field of characteristic zero, positive width, any state of the shared cache."
 ],
 "C24": [
  "proved",
  "For cbh of the context of libalgebra_lite over fields of characteristic zero: any grouping, zeros omitted, inverses, and the function of two elements."
 ],
 "C25": [
  "proved",
  "In every Lie ring and for every cache that can arise from default bases of the width; also pairs beyond the depth. C25_lite_* are about the multiplier of libalgebra_lite."
 ],
 "C26": [
  "proved",
  "Positive depths; for depth 0 an offset is never written (C26_depth_zero_uninitialised). C26_lite_same_basis: the Hall set of libalgebra_lite has the same keys in the same order."
 ],
 "C27": [
  "partial",
  "degree exact; find_word exact for rows and for the queries of the multiplication table; reads past the end for pairs beyond the last row."
 ],
 "C28": [
  "partial",
  "Proved for the default bases of a width, all depths and histories, for the cache of libalgebra_lite (C28_lite_history) and the maps of its contexts (C28_lite_maps_history); refuted for user-supplied data, which shares the cache."
 ],
 "C29": [
  "partial",
  "Assembly (SMHelper refines a matrix of sums), both formats, application and their composition proved for all call sequences and sizes; missing: call sequences in which a frame cancels completely before anything is stored (the code reads outside, shown), estimate 0 (shown) and square matrices, which the entry points always reject (shown)."
 ],
 "C30": [
  "partial",
  "Degree combinations that work are proved; the failing ones are refuted by witnesses."
 ],
 "C31": [
  "partial",
  "Proved for Lie bases without restriction, and for tensor bases that are not modified in place if both or neither were made by calling TensorBasis. Refuted for truncated bases, whose hash is always 0, and for bases modified in place after their hash was taken."
 ],
 "C32": [
  "partial",
  "What the checker guarantees is proved; the claim is refuted in several ways."
 ],
 "C33": [
  "partial",
  "Chen over adjacent queries proved for every stream whose cell values are multiplicative, at one common resolution not finer than the stream default (or with no caching layer); finer-than-default resolution refuted with a witness (C33_finer_resolution_refuted)."
 ],
 "C34": [
  "partial",
  "Proved when the three trimmed intervals are empty or at least four resolution cells long and the stream resolution is at least 2; shorter intervals refuted with a witness."
 ],
 "C35": [
  "partial",
  "Answers independent of query history proved for queries in one context; mixing contexts refuted: the cache key ignores the context."
 ],
 "C36": [
  "partial",
  "Increments used are exactly the events in the rounded half-open interval, in time order; the requested interval type is ignored by the code (C36_query_type_refuted)."
 ],
 "C37": [
  "partial",
  "Proved for pairwise distinct time stamps at the stream's own resolution; duplicate stamps and the automatically chosen resolution refuted with witnesses."
 ],
 "C38": [
  "partial",
  "Proved when no piece starting before the end of the query reaches beyond it; general claim and Chen's identity refuted (the code compares pb with itself)."
 ],
 "C39": [
  "partial",
  "Arrival streams additive when no increment lies at the shared end point; refuted otherwise (both ends closed)."
 ],
 "C40": [
  "partial",
  "Constructor finishes and every dyadic and interval query returns the ordered product of the (rounded) increments inside, when there is no event before 0 or none in the first cell after 0; otherwise the constructor never terminates (C40_construction_refuted). Finer than the resolution the exact form fails (C40_finer_refuted). Clopen data only."
 ],
 "C41": [
  "partial",
  "Proved for every history on one side of 0 for functions satisfying Chen's identity (dyadic and interval queries), and for the degree-one part of Brownian streams when the first query contains the others. Refuted otherwise: both sides of 0 never finish (every stream), answers and tree change for a parabola, Brownian root growth not additive."
 ],
 "C42": [
  "proved",
  "Every stream, every finished history of clopen queries."
 ],
 "C43": [
  "proved",
  "For every schema value (not only reachable ones)."
 ],
 "C44": [
  "partial",
  "Lookup, stability under every operation and absence of duplicates are proved for all reachable schemas; insertion gives the requested channel only for labels without colon (refuted otherwise)."
 ],
 "C45": [
  "partial",
  "By-number and by-label overloads agree; the mixed overloads, add_value by label and categorical ticks from Python are refuted."
 ],
 "C46": [
  "partial",
  "Proved if only the first interval is perturbed, in particular for one interval; refuted for two intervals; C46_computed states what is computed."
 ],
 "C47": [
  "partial",
  "The code computes an inverse of a - y for x = a + y (C47_inverse_partial); inverse(x) * x == 1 holds exactly for y = 0 (C47_inverse_wrong)."
 ],
 "C48": [
  "partial",
  "Sparse vectors refine functions from keys to scalars over every history of 19 operations; in-place operations of a vector with itself (other than +=) and multiply-add by zero are excluded because the claim is false for them (refuted)."
 ],
 "C49": [
  "proved",
  "Dense vectors refine functions from keys to scalars over every history, for every graded basis and in particular every tensor basis; aliased operands included. Finding: const operator[] is unchecked."
 ],
 "C50": [
  "proved",
  "lie_size and tensor_size of the contexts of libalgebra_lite, the only ones in the repository, for every width, depth and argument, including the default argument and the errors. Also: the tables that the base class computes when it is given none are right for tensors (modulo 2^64), wrong for Lie algebras from degree 2 on, and the constructor fails for depth 0 and depth above 50; the contexts never use it for that."
 ],
 "C51": [
  "proved",
  ""
 ],
 "C52": [
  "partial",
  "Queries outside the support give the identity; restrict proved when the new interval is inside the old support; restrict to a larger interval refuted."
 ],
 "C53": [
  "partial",
  "contains_point and intersects_with proved for all types; contains proved for equal types and refuted for mixed types."
 ],
 "C54": [
  "partial",
  "== ignores intermediates (refuted); equality of base intervals proved."
 ],
 "C55": [
  "partial",
  "Letters/index round trips, reverse, is_letter, construction proved; operator* reverses the operands, split_n(n) wrong for 1<n<depth, hash/eq contract broken across depths, width 1 from index divides by zero, letter 0 accepted (refuted)."
 ],
 "C56": [
  "proved",
  ""
 ],
 "C57": [
  "partial",
  "For queries in one context: every finished thread has the single-query answer under every schedule, and some thread can always step. Mixed contexts excluded (see C35)."
 ],
 "C58": [
  "partial",
  "Telescoping proved for increasing time stamps; unsorted stamps refuted."
 ],
 "C59": [
  "partial",
  "Proved for functions satisfying Chen's identity on a fresh stream; refuted for a parabola at resolution 2 (only the leftmost path is refined)."
 ],
 "C60": [
  "partial",
  "Labels without colon; refuted for labels with colons and the time channel."
 ],
 "C61": [
  "partial",
  "Unless a label is a number; refuted otherwise. StreamSchema(n) has width n for all n."
 ],
 "C62": [
  "partial",
  "Schemas without time channel, Lie channel and lead-lag increment; refuted (throws) for the others."
 ],
 "C63": [
  "proved",
  "Reachable schemas with labels without colon; ticks by channel label, which is what the helper records."
 ],
 "C64": [
  "proved",
  "Any sorting algorithm that returns a permutation sorted by (time, precedence)."
 ],
 "C65": [
  "proved",
  ""
 ],
 "C66": [
  "partial",
  "Proved for every positive width and depth; width 0 refuted (reads outside)."
 ],
 "C67": [
  "proved",
  "All positive widths and depths, all histories of the multiplication cache."
 ],
 "C68": [
  "partial",
  "Proved for every expression, width and depth (dense: depth at least 1). The statement fails for dense tensors at depth 0 (C68_dense_depth_zero), after an in-place product with an empty tensor (C68_dense_cleared_degree), and for add_mul (C68_dense_add_mul_truncates)."
 ],
 "C69": [
  "proved",
  "Dense storage: depth at least 1. exp keeps the scalar part and fmexp drops it (C69_scalar_part_differs)."
 ],
 "C70": [
  "proved",
  "Exact scalars, depth at least 1, dense elements of width at least 1. Recursion of the key product bounded by fuel, every large enough bound works. The generic commutator of Lie elements is twice the bracket (C70_commutator_is_twice_the_bracket); add_mul on dense elements can lower the recorded degree (C70_dense_add_mul_lowers_degree)."
 ],
 "C71": [
  "proved",
  "Exact scalars of characteristic zero, depth and width at least 1."
 ],
 "C72": [
  "proved",
  "Context of libalgebra_lite, positive width and depth, any field, any memory of the maps."
 ],
 "C73": [
  "proved",
  "Context of libalgebra_lite, positive width and depth; fixed points over fields of characteristic zero."
 ],
 "C74": [
  "partial",
  "Proved for construction from arrays (Lie keys counted from zero) and conversion of dense elements or to at least the depth; refuted for sparse elements of larger depth and for the keys shown by Lie elements."
 ],
 "C75": [
  "proved",
  "Fields of characteristic zero, rows given as arrays, any memory of the maps."
 ],
 "C76": [
  "partial",
  "Proved except for cbh of two elements, where it is refuted."
 ],
 "C77": [
  "partial",
  "Proved for all storage types and cache histories; right_half_shuffle_multiply (not reachable from Python) only without constant terms. * and *= only for equal storage types (the conversion of the right factor is not modelled)."
 ],
 "C78": [
  "proved",
  "For every width, depth at least 1 and history of the caches; half shuffle laws with the hypotheses on constant terms shown in the statements."
 ],
 "C79": [
  "partial",
  "Proved for sparse left factors, for dense factors with entries, and for *; refuted for a dense zero factor and for half shuffles."
 ],
 "C80": [
  "partial",
  "Proved for tensor bases. For Lie bases not modified in place: same contents implies equal, equal implies same width, depth and offsets. Refuted: different rows with the same hash compare equal; a basis whose rows were replaced after its hash was taken differs from one with the same contents."
 ],
 "C81": [
  "partial",
  "Holds for ASCII letters and numbers below 2^56; other letters are cut to eight bits and larger numbers to 56 bits (refuted)."
 ],
 "C82": [
  "partial",
  "The product in Python is defined exactly if every indeterminate of the right factor except the last occurs in the left one, and is then right; otherwise an invalid iterator is compared (refuted). Construction from names and products of keys inside polynomials are always right."
 ],
 "C83": [
  "partial",
  "Addition, subtraction, division, powers and negation are right for all operands; multiplication except for the undefined products of monomials; equality fails for zero exponents and between monomials and polynomials (refuted)."
 ],
 "C84": [
  "partial",
  "Powers of one indeterminate only: the code adds the powers instead of multiplying them (refuted)."
 ],
 "C85": [
  "partial",
  "Holds for distinct objects except for division and powers of monomials (refuted); p -= p is undefined (refuted)."
 ],
 "C86": [
  "partial",
  "Holds for in-place operators that return a new object, fall back or raise. Those that return the left operand do not take a reference: the variable is left with a freed object (refuted)."
 ],
 "C87": [
  "partial",
  "The coefficient that is looked up is right, but p[m] never returns: no scalar can be made from a rational number, and the exception leaves a slot function. Assignment never succeeds."
 ],
 "C88": [
  "partial",
  "Monomials are read back; polynomials if every indeterminate of a term occurs in all later terms. The loader does not clear the monomial between terms, so x + y is read as x + x y (refuted)."
 ],
 "C89": [
  "proved",
  "For the monomials of Python (libalgebra_lite)."
 ],
 "C90": [
  "partial",
  "Proved for vectors and matrices with a supported element type whose strides are not mistaken for dense ones, on the host. Refuted: gaps between dense rows, steps equal to the item size, stride zero, unsigned elements, other devices, arrays without dimensions."
 ],
 "C91": [
  "partial",
  "Proved for dense buffers of the scalar type and for one-dimensional buffers of bytes with any stride. Refuted: every buffer with fewer dimensions than bytes per item that needs a conversion, column-major buffers."
 ],
 "C92": [
  "partial",
  "Proved for dense buffers; strides are ignored (refuted)."
 ],
 "C93": [
  "partial",
  "Pointers always survive; type descriptions exactly if the code is even, odd codes never."
 ],
 "C94": [
  "partial",
  "A request is followed; for integers and floating point numbers up to double the most general type is chosen in any order. Refuted with half precision types, and 64 bit integers next to single precision lose digits."
 ],
 "C95": [
  "partial",
  "Rows given as lists, tuples (not pairs of integers) and dictionaries are read as written, errors raise. Refuted: pairs of integers, order of the rows, subclasses of numbers, fractions, keys of sparse rows in streams."
 ],
 "C96": [
  "partial",
  "Time stamps, support and width are right in all cases; a given resolution is kept only with time stamps, and the chosen one depends only on the smallest time stamp (refuted)."
 ],
 "C97": [
  "partial",
  "Proved without negative exponent sums; refuted for a monomial of negative degree."
 ],
 "C98": [
  "partial",
  "Proved for every program: ownership is exact after every history (C98_history), nothing is left at the end (C98_end), and copying, moving, dropping and setting a good scalar is defined (C98_defined). Refuted for the claim that nothing undefined happens: adding to or negating an empty scalar, assigning an empty scalar to an owned zero, and Scalar(polynomial) are undefined (C98_undefined_refuted). Interface scalars, half and bfloat16 are not modelled."
 ],
 "C99": [
  "proved",
  "For every good state: a copy always succeeds, has type and value, is not a reference (C99_copy); other scalars keep their values under any history that does not write to them, references to shared memory excepted (C99_independent, C99_history); moving hands the value over (C99_move)."
 ]
}