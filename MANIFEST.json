{
 "claims": [
  {
   "property": "C01",
   "status": "partial",
   "theorems": [
    "RoughPy.Intervals.C01_dyadic_compare_refuted",
    "RoughPy.Intervals.C01_dyadic_compare_partial",
    "RoughPy.Intervals.C01_dyadic_lt_actual",
    "RoughPy.Intervals.C01_rational_equals"
   ],
   "note": "False for different powers (refuted by witness; what operator< really compares is proved); equal powers and rational_equals proved."
  },
  {
   "property": "C02",
   "status": "proved",
   "theorems": [
    "RoughPy.Intervals.C02_rebase",
    "RoughPy.Intervals.C02_rebase_value",
    "RoughPy.Intervals.C02_rebase_guard_refuted"
   ],
   "note": "Within the 32-bit guard; value preservation also beyond it; witness that the returned flag is wrong beyond the guard."
  },
  {
   "property": "C03",
   "status": "proved",
   "theorems": [
    "RoughPy.Intervals.C03_interval_of_real",
    "RoughPy.Intervals.C03_ends"
   ],
   "note": "Exact rational parameters."
  },
  {
   "property": "C04",
   "status": "partial",
   "theorems": [
    "RoughPy.Intervals.C04_interval_of_dyadic_partial",
    "RoughPy.Intervals.C04_interval_of_dyadic_guard_refuted"
   ],
   "note": "Proved when d.n < 31 + res; beyond the guard the constructor returns an interval of the wrong length (witness)."
  },
  {
   "property": "C05",
   "status": "proved",
   "theorems": [
    "RoughPy.Intervals.C05_dissection",
    "RoughPy.Intervals.C05_tiling_is_partition",
    "RoughPy.Intervals.C05_opencl_never_returns"
   ],
   "note": "Clopen. For Opencl the function provably never returns unless the interval lies in one cell."
  },
  {
   "property": "C06",
   "status": "proved",
   "theorems": [
    "RoughPy.Intervals.C06_contains_dyadic",
    "RoughPy.Intervals.C06_contains_dyadic_mixed"
   ],
   "note": ""
  },
  {
   "property": "C07",
   "status": "partial",
   "theorems": [
    "RoughPy.Intervals.C07_halves",
    "RoughPy.Intervals.C07_shrink_to_contained_end",
    "RoughPy.Intervals.C07_flip",
    "RoughPy.Intervals.C07_expand_partial",
    "RoughPy.Intervals.C07_expand_opencl_refuted",
    "RoughPy.Intervals.C07_aligned_partial",
    "RoughPy.Intervals.C07_shift_names_swapped"
   ],
   "note": "Everything proved except expand_interval / aligned for opencl intervals (refuted by witness) and expand by 31 or more."
  },
  {
   "property": "C08",
   "status": "proved",
   "theorems": [
    "RoughPy.Intervals.C08_order",
    "RoughPy.Intervals.C08_order_mixed_refuted"
   ],
   "note": "For keys of one type; mixed types refuted."
  },
  {
   "property": "C09",
   "status": "partial",
   "theorems": [
    "RoughPy.Intervals.C09_intersection_partial",
    "RoughPy.Intervals.C09_intersection_disjoint_refuted",
    "RoughPy.Intervals.C09_intersection_opencl_refuted",
    "RoughPy.Intervals.C09_union_partial"
   ],
   "note": "Overlapping clopen intervals; disjoint and opencl cases refuted."
  },
  {
   "property": "C10",
   "status": "partial",
   "theorems": [
    "RoughPy.Partition.C10_pieces_tile",
    "RoughPy.Partition.C10_constructor_points",
    "RoughPy.Partition.C10_refine_midpoints",
    "RoughPy.Partition.C10_insert",
    "RoughPy.Partition.C10_merge_partial",
    "RoughPy.Partition.C10_merge_disjoint_refuted"
   ],
   "note": "Tiling proved for every reachable partition and all operations; merge is the common refinement when the intervals overlap or touch; across a gap intermediates are lost (refuted)."
  },
  {
   "property": "C11",
   "status": "partial",
   "theorems": [
    "RoughPy.Partition.C11_mesh_actual",
    "RoughPy.Partition.C11_mesh_partial",
    "RoughPy.Partition.C11_mesh_refuted"
   ],
   "note": "mesh returns the shortest piece (proved); the documented largest is refuted; holds for equal pieces."
  },
  {
   "property": "C12",
   "status": "proved",
   "theorems": [
    "RoughPy.Tensor.C12_word_index_bijection",
    "RoughPy.Tensor.C12_injective",
    "RoughPy.Tensor.C12_blocks",
    "RoughPy.Tensor.C12_order",
    "RoughPy.Tensor.C12_parents",
    "RoughPy.Tensor.C12_parents_pair_partial",
    "RoughPy.Tensor.C12_parents_pair_refuted",
    "RoughPy.Tensor.C12_reverse",
    "RoughPy.Tensor.C12_unpack_pack",
    "RoughPy.Tensor.C12_concat",
    "RoughPy.Tensor.C12_split",
    "RoughPy.Tensor.C12_advance",
    "RoughPy.Tensor.C12_packed",
    "RoughPy.Tensor.C12_packed_words",
    "RoughPy.Tensor.C12_unpacked_order_refuted"
   ],
   "note": "All clauses; additionally: tensor_basis::parents is wrong above degree two and unpacked_tensor_word::operator< disagrees with the index order (refuted by witness)."
  },
  {
   "property": "C13",
   "status": "proved",
   "theorems": [
    "RoughPy.Tensor.C13_ft_fma_kernel",
    "RoughPy.Tensor.C13_ft_fma_bounds",
    "RoughPy.Tensor.C13_ft_fma",
    "RoughPy.Tensor.C13_ft_mul",
    "RoughPy.Tensor.C13_width_mismatch",
    "RoughPy.Tensor.C13_assoc",
    "RoughPy.Tensor.C13_unit",
    "RoughPy.Tensor.C13_distrib"
   ],
   "note": "Kernel and Python wrappers (ft_fma, ft_mul); in-bounds conditions are exact."
  },
  {
   "property": "C14",
   "status": "proved",
   "theorems": [
    "RoughPy.Tensor.C14_kernel",
    "RoughPy.Tensor.C14_kernel_bounds",
    "RoughPy.Tensor.C14_inplace_eq_mul"
   ],
   "note": "Kernel and Python wrapper."
  },
  {
   "property": "C15",
   "status": "proved",
   "theorems": [
    "RoughPy.Tensor.C15_ft_exp",
    "RoughPy.Tensor.C15_kernel"
   ],
   "note": "Exact scalars."
  },
  {
   "property": "C16",
   "status": "proved",
   "theorems": [
    "RoughPy.Tensor.C16_ft_log",
    "RoughPy.Tensor.C16_log_exp",
    "RoughPy.Tensor.C16_exp_log"
   ],
   "note": "Exact scalars; both compositions."
  },
  {
   "property": "C17",
   "status": "proved",
   "theorems": [
    "RoughPy.Tensor.C17_ft_fmexp",
    "RoughPy.Tensor.C17_kernel",
    "RoughPy.Tensor.C17_eq_mul_exp"
   ],
   "note": "Exact scalars."
  },
  {
   "property": "C18",
   "status": "proved",
   "theorems": [
    "RoughPy.Tensor.C18_antipode",
    "RoughPy.Tensor.C18_antipode_kernel",
    "RoughPy.Tensor.C18_involution",
    "RoughPy.Tensor.C18_anti_automorphism",
    "RoughPy.Tensor.C18_depth_zero_refuted",
    "RoughPy.Tensor.C18_inverts_signatures"
   ],
   "note": "Depth >= 1 as stated; depth 0 reads and writes out of bounds (C18_depth_zero_refuted)."
  },
  {
   "property": "C19",
   "status": "proved",
   "theorems": [
    "RoughPy.Tensor.C19_st_fma",
    "RoughPy.Tensor.C19_st_mul",
    "RoughPy.Tensor.C19_kernel",
    "RoughPy.Tensor.C19_comm",
    "RoughPy.Tensor.C19_assoc",
    "RoughPy.Tensor.C19_unit",
    "RoughPy.Tensor.C19_word_shuffle"
   ],
   "note": "Includes the combinatorial description on words."
  },
  {
   "property": "C20",
   "status": "partial",
   "theorems": [
    "RoughPy.Lite.C20_shuffle",
    "RoughPy.Lite.C20_left",
    "RoughPy.Lite.C20_left_one",
    "RoughPy.Lite.C20_right_partial",
    "RoughPy.Lite.C20_right_one_wrong",
    "RoughPy.Lite.C20_sum",
    "RoughPy.Lite.C20_sum_wrong",
    "RoughPy.Lite.C20_truncated"
   ],
   "note": "Left half shuffle, shuffle and right half shuffle of non-empty words computed for every history of the cache. The boundary values of the right half shuffle and the sum of left and right of the same pair are refuted; the sum over both orders is proved."
  },
  {
   "property": "C21",
   "status": "partial",
   "theorems": [
    "RoughPy.Tensor.C21_adjoint_partial",
    "RoughPy.Tensor.C21_adjoint_arrays_partial",
    "RoughPy.Tensor.C21_shallow_operator_refuted"
   ],
   "note": "Holds when the operator is at least as deep as the functional; a shallower operator is refuted."
  },
  {
   "property": "C22",
   "status": "proved",
   "theorems": [
    "RoughPy.Lite.C22_lite_shuffle_identity",
    "RoughPy.Tensor.C22_shuffle_identity"
   ],
   "note": "Signature as product of ft_fmexp of Lie increments, and Context.signature (C22_lite_shuffle_identity)."
  },
  {
   "property": "C23",
   "status": "proved",
   "theorems": [
    "RoughPy.Lie.C23_tensor_to_lie_primitive",
    "RoughPy.Lie.C23_tensor_lie_tensor",
    "RoughPy.Lie.C23_lie_tensor_lie",
    "RoughPy.Lie.C23_log_signature",
    "RoughPy.Lite.C23_lite_lie_tensor_lie",
    "RoughPy.Lite.C23_lite_tensor_lie_tensor",
    "RoughPy.Lite.C23_lite_log_signature"
   ],
   "note": "For the maps, exp, log and fmexp of roughpy.compute and for the context of libalgebra_lite, over a field of characteristic zero, positive width, any state of the shared cache."
  },
  {
   "property": "C24",
   "status": "proved",
   "theorems": [
    "RoughPy.Lite.C24_cbh",
    "RoughPy.Lite.C24_associative",
    "RoughPy.Lite.C24_zeros",
    "RoughPy.Lite.C24_inverse",
    "RoughPy.Lite.C24_pair"
   ],
   "note": "For cbh of the context of libalgebra_lite over fields of characteristic zero: any grouping, zeros omitted, inverses, and the function of two elements."
  },
  {
   "property": "C25",
   "status": "proved",
   "theorems": [
    "RoughPy.Lie.C25_bracket_is_commutator",
    "RoughPy.Lie.C25_bracket_in_tensors",
    "RoughPy.Lie.C25_bracket_beyond",
    "RoughPy.Lite.C25_lite_elements",
    "RoughPy.Lite.C25_lite_product"
   ],
   "note": "In every Lie ring and for every cache that can arise from default bases of the width; also pairs beyond the depth. C25_lite_* are about the multiplier of libalgebra_lite."
  },
  {
   "property": "C26",
   "status": "proved",
   "theorems": [
    "RoughPy.Lie.C26_construct_hall",
    "RoughPy.Lie.C26_rows_distinct",
    "RoughPy.Lie.C26_depth_prefix",
    "RoughPy.Lie.C26_depth_zero_uninitialised",
    "RoughPy.Lite.C26_lite_same_basis"
   ],
   "note": "Positive depths; for depth 0 an offset is never written (C26_depth_zero_uninitialised). C26_lite_same_basis: the Hall set of libalgebra_lite has the same keys in the same order."
  },
  {
   "property": "C27",
   "status": "partial",
   "theorems": [
    "RoughPy.Lie.C27_degree",
    "RoughPy.Lie.C27_degree_total",
    "RoughPy.Lie.C27_find_word_found",
    "RoughPy.Lie.C27_find_word_partial",
    "RoughPy.Lie.C27_find_word_past_end"
   ],
   "note": "degree exact; find_word exact for rows and for the queries of the multiplication table; reads past the end for pairs beyond the last row."
  },
  {
   "property": "C28",
   "status": "partial",
   "theorems": [
    "RoughPy.Lie.C28_history_independent_partial",
    "RoughPy.Lie.C28_custom_basis_changes_answers",
    "RoughPy.Lite.C28_lite_maps_history",
    "RoughPy.Lite.C28_lite_history"
   ],
   "note": "Proved for the default bases of a width, all depths and histories, for the cache of libalgebra_lite (C28_lite_history) and the maps of its contexts (C28_lite_maps_history); refuted for user-supplied data, which shares the cache."
  },
  {
   "property": "C29",
   "status": "partial",
   "theorems": [
    "RoughPy.Sparse.C29_assembly_partial",
    "RoughPy.Sparse.C29_cancelled_frame_reads_outside",
    "RoughPy.Sparse.C29_estimate_zero_writes_outside",
    "RoughPy.Sparse.C29_apply_columns",
    "RoughPy.Sparse.C29_apply_rows",
    "RoughPy.Sparse.C29_formats_agree",
    "RoughPy.Sparse.C29_assemble_apply",
    "RoughPy.Sparse.C29_assemble_apply_rows",
    "RoughPy.Sparse.C29_square_rejected"
   ],
   "note": "Assembly (SMHelper refines a matrix of sums), both formats, application and their composition proved for all call sequences and sizes; missing: call sequences in which a frame cancels completely before anything is stored (the code reads outside, shown), estimate 0 (shown) and square matrices, which the entry points always reject (shown)."
  },
  {
   "property": "C30",
   "status": "partial",
   "theorems": [
    "RoughPy.Tensor.C30_ft_mul_partial",
    "RoughPy.Tensor.C30_ft_inplace_mul_partial",
    "RoughPy.Tensor.C30_ft_fma_partial",
    "RoughPy.Tensor.C30_exp_log_fmexp_partial",
    "RoughPy.Tensor.C30_shuffle_adjoint_partial",
    "RoughPy.Tensor.C30_refuted"
   ],
   "note": "Degree combinations that work are proved; the failing ones are refuted by witnesses."
  },
  {
   "property": "C31",
   "status": "partial",
   "theorems": [
    "RoughPy.Bases.C31_lie",
    "RoughPy.Bases.C31_tensor_partial",
    "RoughPy.Bases.C31_truncated_hash",
    "RoughPy.Bases.C31_truncate_wrong",
    "RoughPy.Bases.C31_init_wrong",
    "RoughPy.Bases.C31_modified_wrong"
   ],
   "note": "Proved for Lie bases without restriction, and for tensor bases that are not modified in place if both or neither were made by calling TensorBasis. Refuted for truncated bases, whose hash is always 0, and for bases modified in place after their hash was taken."
  },
  {
   "property": "C32",
   "status": "partial",
   "theorems": [
    "RoughPy.Lie.C32_accepted_partial",
    "RoughPy.Lie.C32_default_accepted",
    "RoughPy.Lie.C32_custom_order_agrees",
    "RoughPy.Lie.C32_letters_not_checked",
    "RoughPy.Lie.C32_rows_not_checked",
    "RoughPy.Lie.C32_check_reads_outside",
    "RoughPy.Lie.C32_requested_convention_ignored",
    "RoughPy.Lie.C32_width_one_rejected"
   ],
   "note": "What the checker guarantees is proved; the claim is refuted in several ways."
  },
  {
   "property": "C33",
   "status": "partial",
   "theorems": [
    "RoughPy.Streams.C33_chen_partial",
    "RoughPy.Streams.C33_chen_uncached",
    "RoughPy.Streams.C33_finer_resolution_refuted"
   ],
   "note": "Chen over adjacent queries proved for every stream whose cell values are multiplicative, at one common resolution not finer than the stream default (or with no caching layer); finer-than-default resolution refuted with a witness (C33_finer_resolution_refuted)."
  },
  {
   "property": "C34",
   "status": "partial",
   "theorems": [
    "RoughPy.Streams.C34_chen_default_refuted",
    "RoughPy.Streams.C34_chen_default_partial"
   ],
   "note": "Proved when the three trimmed intervals are empty or at least four resolution cells long and the stream resolution is at least 2; shorter intervals refuted with a witness."
  },
  {
   "property": "C35",
   "status": "partial",
   "theorems": [
    "RoughPy.Streams.C35_history_independent_partial",
    "RoughPy.Streams.C35_mixed_contexts_refuted"
   ],
   "note": "Answers independent of query history proved for queries in one context; mixing contexts refuted: the cache key ignores the context."
  },
  {
   "property": "C36",
   "status": "partial",
   "theorems": [
    "RoughPy.Streams.C36_increments_used",
    "RoughPy.Streams.C36_partition",
    "RoughPy.Streams.C36_signature",
    "RoughPy.Streams.C36_query_type_refuted"
   ],
   "note": "Increments used are exactly the events in the rounded half-open interval, in time order; the requested interval type is ignored by the code (C36_query_type_refuted)."
  },
  {
   "property": "C37",
   "status": "partial",
   "theorems": [
    "RoughPy.Streams.C37_no_loss_partial",
    "RoughPy.Streams.C37_duplicate_refuted",
    "RoughPy.Streams.C37_default_resolution_refuted"
   ],
   "note": "Proved for pairwise distinct time stamps at the stream's own resolution; duplicate stamps and the automatically chosen resolution refuted with witnesses."
  },
  {
   "property": "C38",
   "status": "partial",
   "theorems": [
    "RoughPy.Streams.C38_piecewise_partial",
    "RoughPy.Streams.C38_piecewise_refuted",
    "RoughPy.Streams.C38_chen_refuted"
   ],
   "note": "Proved when no piece starting before the end of the query reaches beyond it; general claim and Chen's identity refuted (the code compares pb with itself)."
  },
  {
   "property": "C39",
   "status": "partial",
   "theorems": [
    "RoughPy.Streams.C39_additive_partial",
    "RoughPy.Streams.C39_shared_end_refuted"
   ],
   "note": "Arrival streams additive when no increment lies at the shared end point; refuted otherwise (both ends closed)."
  },
  {
   "property": "C40",
   "status": "partial",
   "theorems": [
    "RoughPy.Streams.C40_rounded_partial",
    "RoughPy.Streams.C40_exact_partial",
    "RoughPy.Streams.C40_interval_partial",
    "RoughPy.Streams.C40_construction_refuted",
    "RoughPy.Streams.C40_finer_refuted"
   ],
   "note": "Constructor finishes and every dyadic and interval query returns the ordered product of the (rounded) increments inside, when there is no event before 0 or none in the first cell after 0; otherwise the constructor never terminates (C40_construction_refuted). Finer than the resolution the exact form fails (C40_finer_refuted). Clopen data only."
  },
  {
   "property": "C41",
   "status": "partial",
   "theorems": [
    "RoughPy.Streams.C41_function_history_partial",
    "RoughPy.Streams.C41_function_intervals_partial",
    "RoughPy.Streams.C41_brownian_partial",
    "RoughPy.Streams.C41_brownian_refuted",
    "RoughPy.Streams.C41_both_sides_refuted",
    "RoughPy.Streams.C41_interval_around_zero_refuted",
    "RoughPy.Streams.C41_tree_refuted",
    "RoughPy.Streams.C41_answer_refuted"
   ],
   "note": "Proved for every history on one side of 0 for functions satisfying Chen's identity (dyadic and interval queries), and for the degree-one part of Brownian streams when the first query contains the others. Refuted otherwise: both sides of 0 never finish (every stream), answers and tree change for a parabola, Brownian root growth not additive."
  },
  {
   "property": "C42",
   "status": "proved",
   "theorems": [
    "RoughPy.Streams.C42_store_load"
   ],
   "note": "Every stream, every finished history of clopen queries."
  },
  {
   "property": "C43",
   "status": "proved",
   "theorems": [
    "RoughPy.Schema.C43_width",
    "RoughPy.Schema.C43_bijection",
    "RoughPy.Schema.C43_domains",
    "RoughPy.Schema.C43_layout"
   ],
   "note": "For every schema value (not only reachable ones)."
  },
  {
   "property": "C44",
   "status": "partial",
   "theorems": [
    "RoughPy.Schema.C44_find",
    "RoughPy.Schema.C44_lookup_stable",
    "RoughPy.Schema.C44_no_duplicates",
    "RoughPy.Schema.C44_insert_partial",
    "RoughPy.Schema.C44_insert_refuted"
   ],
   "note": "Lookup, stability under every operation and absence of duplicates are proved for all reachable schemas; insertion gives the requested channel only for labels without colon (refuted otherwise)."
  },
  {
   "property": "C45",
   "status": "partial",
   "theorems": [
    "RoughPy.Schema.C45_routing_partial",
    "RoughPy.Schema.C45_index_label_refuted",
    "RoughPy.Schema.C45_label_index_refuted",
    "RoughPy.Schema.C45_value_refuted",
    "RoughPy.Schema.C45_from_data_refuted"
   ],
   "note": "By-number and by-label overloads agree; the mixed overloads, add_value by label and categorical ticks from Python are refuted."
  },
  {
   "property": "C46",
   "status": "partial",
   "theorems": [
    "RoughPy.Lite.C46_derivative_partial",
    "RoughPy.Lite.C46_computed",
    "RoughPy.Lite.C46_two_intervals"
   ],
   "note": "Proved if only the first interval is perturbed, in particular for one interval; refuted for two intervals; C46_computed states what is computed."
  },
  {
   "property": "C47",
   "status": "partial",
   "theorems": [
    "RoughPy.Lite.C47_inverse_partial",
    "RoughPy.Lite.C47_inverse_wrong"
   ],
   "note": "The code computes an inverse of a - y for x = a + y (C47_inverse_partial); inverse(x) * x == 1 holds exactly for y = 0 (C47_inverse_wrong)."
  },
  {
   "property": "C48",
   "status": "partial",
   "theorems": [
    "RoughPy.Lite.C48_sparse_history_partial",
    "RoughPy.Lite.C48_sub_self_undefined",
    "RoughPy.Lite.C48_zero_multiplier_stores_zero"
   ],
   "note": "Sparse vectors refine functions from keys to scalars over every history of 19 operations; in-place operations of a vector with itself (other than +=) and multiply-add by zero are excluded because the claim is false for them (refuted)."
  },
  {
   "property": "C49",
   "status": "proved",
   "theorems": [
    "RoughPy.Lite.C49_dense_history_basis",
    "RoughPy.Lite.C49_dense_history",
    "RoughPy.Lite.C49_const_read_unchecked"
   ],
   "note": "Dense vectors refine functions from keys to scalars over every history, for every graded basis and in particular every tensor basis; aliased operands included. Finding: const operator[] is unchecked."
  },
  {
   "property": "C50",
   "status": "proved",
   "theorems": [
    "RoughPy.Lite.C50_default_lie_wrong",
    "RoughPy.Lite.C50_default_fails",
    "RoughPy.Lite.C50_sizes",
    "RoughPy.Lite.C50_cpp_sizes",
    "RoughPy.Lite.C50_helper",
    "RoughPy.Lite.C50_default_tensor_size"
   ],
   "note": "lie_size and tensor_size of the contexts of libalgebra_lite, the only ones in the repository, for every width, depth and argument, including the default argument and the errors. Also: the tables that the base class computes when it is given none are right for tensors (modulo 2^64), wrong for Lie algebras from degree 2 on, and the constructor fails for depth 0 and depth above 50; the contexts never use it for that."
  },
  {
   "property": "C51",
   "status": "proved",
   "theorems": [
    "RoughPy.Streams.C51_param_to_resolution",
    "RoughPy.Streams.C51_refined_resolution"
   ],
   "note": ""
  },
  {
   "property": "C52",
   "status": "partial",
   "theorems": [
    "RoughPy.Streams.C52_outside_support",
    "RoughPy.Streams.C52_restrict_partial",
    "RoughPy.Streams.C52_restrict_refuted"
   ],
   "note": "Queries outside the support give the identity; restrict proved when the new interval is inside the old support; restrict to a larger interval refuted."
  },
  {
   "property": "C53",
   "status": "partial",
   "theorems": [
    "RoughPy.Intervals.C53_contains_point",
    "RoughPy.Intervals.C53_intersects_with",
    "RoughPy.Intervals.C53_contains_partial",
    "RoughPy.Intervals.C53_contains_mixed_refuted"
   ],
   "note": "contains_point and intersects_with proved for all types; contains proved for equal types and refuted for mixed types."
  },
  {
   "property": "C54",
   "status": "partial",
   "theorems": [
    "RoughPy.Partition.C54_partition_eq_refuted",
    "RoughPy.Partition.C54_partition_eq_partial"
   ],
   "note": "== ignores intermediates (refuted); equality of base intervals proved."
  },
  {
   "property": "C55",
   "status": "partial",
   "theorems": [
    "RoughPy.Tensor.C55_letters_round_trip",
    "RoughPy.Tensor.C55_index_round_trip",
    "RoughPy.Tensor.C55_index",
    "RoughPy.Tensor.C55_construct",
    "RoughPy.Tensor.C55_zero_letter_refuted",
    "RoughPy.Tensor.C55_from_index_partial",
    "RoughPy.Tensor.C55_from_index_width_one_refuted",
    "RoughPy.Tensor.C55_reverse",
    "RoughPy.Tensor.C55_mul_partial",
    "RoughPy.Tensor.C55_mul_refuted",
    "RoughPy.Tensor.C55_split_partial",
    "RoughPy.Tensor.C55_split_refuted",
    "RoughPy.Tensor.C55_eq_hash_partial",
    "RoughPy.Tensor.C55_hash_refuted"
   ],
   "note": "Letters/index round trips, reverse, is_letter, construction proved; operator* reverses the operands, split_n(n) wrong for 1<n<depth, hash/eq contract broken across depths, width 1 from index divides by zero, letter 0 accepted (refuted)."
  },
  {
   "property": "C56",
   "status": "proved",
   "theorems": [
    "RoughPy.Tensor.C56_shuffle_adjoint"
   ],
   "note": ""
  },
  {
   "property": "C57",
   "status": "partial",
   "theorems": [
    "RoughPy.Streams.C57_concurrent_queries_partial",
    "RoughPy.Streams.C57_progress"
   ],
   "note": "For queries in one context: every finished thread has the single-query answer under every schedule, and some thread can always step. Mixed contexts excluded (see C35)."
  },
  {
   "property": "C58",
   "status": "partial",
   "theorems": [
    "RoughPy.Streams.C58_time_channel_partial",
    "RoughPy.Streams.C58_unsorted_refuted"
   ],
   "note": "Telescoping proved for increasing time stamps; unsorted stamps refuted."
  },
  {
   "property": "C59",
   "status": "partial",
   "theorems": [
    "RoughPy.Streams.C59_resolution_partial",
    "RoughPy.Streams.C59_resolution_refuted"
   ],
   "note": "Proved for functions satisfying Chen's identity on a fresh stream; refuted for a parabola at resolution 2 (only the leftmost path is refined)."
  },
  {
   "property": "C60",
   "status": "partial",
   "theorems": [
    "RoughPy.Schema.C60_label_round_trip_partial",
    "RoughPy.Schema.C60_refuted",
    "RoughPy.Schema.C60_time_refuted",
    "RoughPy.Schema.C60_empty_categorical_refuted"
   ],
   "note": "Labels without colon; refuted for labels with colons and the time channel."
  },
  {
   "property": "C61",
   "status": "partial",
   "theorems": [
    "RoughPy.Schema.C61_finalize_partial",
    "RoughPy.Schema.C61_of_width",
    "RoughPy.Schema.C61_refuted"
   ],
   "note": "Unless a label is a number; refuted otherwise. StreamSchema(n) has width n for all n."
  },
  {
   "property": "C62",
   "status": "partial",
   "theorems": [
    "RoughPy.Schema.C62_get_labels_partial",
    "RoughPy.Schema.C62_refuted"
   ],
   "note": "Schemas without time channel, Lie channel and lead-lag increment; refuted (throws) for the others."
  },
  {
   "property": "C63",
   "status": "proved",
   "theorems": [
    "RoughPy.Schema.C63_values"
   ],
   "note": "Reachable schemas with labels without colon; ticks by channel label, which is what the helper records."
  },
  {
   "property": "C64",
   "status": "proved",
   "theorems": [
    "RoughPy.Schema.C64_tick_order"
   ],
   "note": "Any sorting algorithm that returns a permutation sorted by (time, precedence)."
  },
  {
   "property": "C65",
   "status": "proved",
   "theorems": [
    "RoughPy.Lie.C65_witt",
    "RoughPy.Lie.C65_degree_dim",
    "RoughPy.Lie.C65_size"
   ],
   "note": ""
  },
  {
   "property": "C66",
   "status": "partial",
   "theorems": [
    "RoughPy.Lie.C66_hall_tensors",
    "RoughPy.Lie.C66_lie_to_tensor",
    "RoughPy.Lie.C66_lie_to_tensor_isLie",
    "RoughPy.Lie.C66_wrong_size",
    "RoughPy.Lie.C66_width_zero_reads_outside"
   ],
   "note": "Proved for every positive width and depth; width 0 refuted (reads outside)."
  },
  {
   "property": "C67",
   "status": "proved",
   "theorems": [
    "RoughPy.Lie.C67_tensor_to_lie",
    "RoughPy.Lie.C67_coordinates_unique"
   ],
   "note": "All positive widths and depths, all histories of the multiplication cache."
  },
  {
   "property": "C68",
   "status": "partial",
   "theorems": [
    "RoughPy.Lite.C68_sparse_expression",
    "RoughPy.Lite.C68_dense_expression",
    "RoughPy.Lite.C68_sparse_eq",
    "RoughPy.Lite.C68_dense_eq",
    "RoughPy.Lite.C68_dense_ring_laws",
    "RoughPy.Lite.C68_mul_inplace",
    "RoughPy.Lite.C68_dense_cleared_degree",
    "RoughPy.Lite.C68_dense_add_mul_truncates",
    "RoughPy.Lite.C68_dense_depth_zero"
   ],
   "note": "Proved for every expression, width and depth (dense: depth at least 1). The statement fails for dense tensors at depth 0 (C68_dense_depth_zero), after an in-place product with an empty tensor (C68_dense_cleared_degree), and for add_mul (C68_dense_add_mul_truncates)."
  },
  {
   "property": "C69",
   "status": "proved",
   "theorems": [
    "RoughPy.Lite.C69_dense_exp_log",
    "RoughPy.Lite.C69_sparse_exp_log",
    "RoughPy.Lite.C69_scalar_part_differs"
   ],
   "note": "Dense storage: depth at least 1. exp keeps the scalar part and fmexp drops it (C69_scalar_part_differs)."
  },
  {
   "property": "C70",
   "status": "proved",
   "theorems": [
    "RoughPy.Lite.C70_sparse_expression",
    "RoughPy.Lite.C70_dense_expression",
    "RoughPy.Lite.C70_sparse_eq",
    "RoughPy.Lite.C70_dense_eq",
    "RoughPy.Lite.C70_commutator_is_twice_the_bracket",
    "RoughPy.Lite.C70_dense_add_mul_lowers_degree"
   ],
   "note": "Exact scalars, depth at least 1, dense elements of width at least 1. Recursion of the key product bounded by fuel, every large enough bound works. The generic commutator of Lie elements is twice the bracket (C70_commutator_is_twice_the_bracket); add_mul on dense elements can lower the recorded degree (C70_dense_add_mul_lowers_degree)."
  },
  {
   "property": "C71",
   "status": "proved",
   "theorems": [
    "RoughPy.Lite.C71_lie_laws"
   ],
   "note": "Exact scalars of characteristic zero, depth and width at least 1."
  },
  {
   "property": "C72",
   "status": "proved",
   "theorems": [
    "RoughPy.Lite.C72_lie_to_tensor"
   ],
   "note": "Context of libalgebra_lite, positive width and depth, any field, any memory of the maps."
  },
  {
   "property": "C73",
   "status": "proved",
   "theorems": [
    "RoughPy.Lite.C73_tensor_to_lie",
    "RoughPy.Lite.C73_tensor_to_lie_of_lie"
   ],
   "note": "Context of libalgebra_lite, positive width and depth; fixed points over fields of characteristic zero."
  },
  {
   "property": "C74",
   "status": "partial",
   "theorems": [
    "RoughPy.Lite.C74_construct_tensor",
    "RoughPy.Lite.C74_construct_lie",
    "RoughPy.Lite.C74_convert_tensor_partial",
    "RoughPy.Lite.C74_convert_lie",
    "RoughPy.Lite.C74_convert_lie_from_partial",
    "RoughPy.Lite.C74_lie_to_tensor_from_partial",
    "RoughPy.Lite.C74_tensor_to_lie_from_partial",
    "RoughPy.Lite.C74_sparse_from_deeper",
    "RoughPy.Lite.C74_shown_keys"
   ],
   "note": "Proved for construction from arrays (Lie keys counted from zero) and conversion of dense elements or to at least the depth; refuted for sparse elements of larger depth and for the keys shown by Lie elements."
  },
  {
   "property": "C75",
   "status": "proved",
   "theorems": [
    "RoughPy.Lite.C75_signature",
    "RoughPy.Lite.C75_chen"
   ],
   "note": "Fields of characteristic zero, rows given as arrays, any memory of the maps."
  },
  {
   "property": "C76",
   "status": "partial",
   "theorems": [
    "RoughPy.Lite.C76_storage_type_partial",
    "RoughPy.Lite.C76_pair_ignores_storage_type"
   ],
   "note": "Proved except for cbh of two elements, where it is refuted."
  },
  {
   "property": "C77",
   "status": "partial",
   "theorems": [
    "RoughPy.Lite.C77_shuffle_multiply",
    "RoughPy.Lite.C77_half_shuffle_multiply",
    "RoughPy.Lite.C77_right_half_shuffle_multiply_partial",
    "RoughPy.Lite.C77_mul",
    "RoughPy.Lite.C77_mul_inplace"
   ],
   "note": "Proved for all storage types and cache histories; right_half_shuffle_multiply (not reachable from Python) only without constant terms. * and *= only for equal storage types (the conversion of the right factor is not modelled)."
  },
  {
   "property": "C78",
   "status": "proved",
   "theorems": [
    "RoughPy.Lite.C78_commutative",
    "RoughPy.Lite.C78_associative",
    "RoughPy.Lite.C78_unit",
    "RoughPy.Lite.C78_halves",
    "RoughPy.Lite.C78_half_half"
   ],
   "note": "For every width, depth at least 1 and history of the caches; half shuffle laws with the hypotheses on constant terms shown in the statements."
  },
  {
   "property": "C79",
   "status": "partial",
   "theorems": [
    "RoughPy.Lite.C79_settled_arithmetic",
    "RoughPy.Lite.C79_shuffle_partial",
    "RoughPy.Lite.C79_mul",
    "RoughPy.Lite.C79_witnesses",
    "RoughPy.Lite.C79_shuffle_zero_wrong",
    "RoughPy.Lite.C79_half_one_wrong"
   ],
   "note": "Proved for sparse left factors, for dense factors with entries, and for *; refuted for a dense zero factor and for half shuffles."
  },
  {
   "property": "C80",
   "status": "partial",
   "theorems": [
    "RoughPy.Bases.C80_tensor",
    "RoughPy.Bases.C80_lie_partial",
    "RoughPy.Bases.C80_lie_collision",
    "RoughPy.Bases.C80_lie_modified"
   ],
   "note": "Proved for tensor bases. For Lie bases not modified in place: same contents implies equal, equal implies same width, depth and offsets. Refuted: different rows with the same hash compare equal; a basis whose rows were replaced after its hash was taken differs from one with the same contents."
  },
  {
   "property": "C81",
   "status": "partial",
   "theorems": [
    "RoughPy.Polys.C81_distinct_partial",
    "RoughPy.Polys.C81_print_partial",
    "RoughPy.Polys.C81_wrong_letter",
    "RoughPy.Polys.C81_wrong_index"
   ],
   "note": "Holds for ASCII letters and numbers below 2^56; other letters are cut to eight bits and larger numbers to 56 bits (refuted)."
  },
  {
   "property": "C82",
   "status": "partial",
   "theorems": [
    "RoughPy.Polys.C82_product_partial",
    "RoughPy.Polys.C82_wrong",
    "RoughPy.Polys.C82_construct",
    "RoughPy.Polys.C82_keys"
   ],
   "note": "The product in Python is defined exactly if every indeterminate of the right factor except the last occurs in the left one, and is then right; otherwise an invalid iterator is compared (refuted). Construction from names and products of keys inside polynomials are always right."
  },
  {
   "property": "C83",
   "status": "partial",
   "theorems": [
    "RoughPy.Polys.C83_construct",
    "RoughPy.Polys.C83_add",
    "RoughPy.Polys.C83_sub",
    "RoughPy.Polys.C83_mul_partial",
    "RoughPy.Polys.C83_div",
    "RoughPy.Polys.C83_pow",
    "RoughPy.Polys.C83_neg",
    "RoughPy.Polys.C83_eq_partial",
    "RoughPy.Polys.C83_wrong_eq"
   ],
   "note": "Addition, subtraction, division, powers and negation are right for all operands; multiplication except for the undefined products of monomials; equality fails for zero exponents and between monomials and polynomials (refuted)."
  },
  {
   "property": "C84",
   "status": "partial",
   "theorems": [
    "RoughPy.Polys.C84_eval_partial",
    "RoughPy.Polys.C84_sum",
    "RoughPy.Polys.C84_wrong"
   ],
   "note": "Powers of one indeterminate only: the code adds the powers instead of multiplying them (refuted)."
  },
  {
   "property": "C85",
   "status": "partial",
   "theorems": [
    "RoughPy.Polys.C85_inplace_partial",
    "RoughPy.Polys.C85_self_partial",
    "RoughPy.Polys.C85_wrong_isub",
    "RoughPy.Polys.C85_wrong_div",
    "RoughPy.Polys.C85_wrong_pow"
   ],
   "note": "Holds for distinct objects except for division and powers of monomials (refuted); p -= p is undefined (refuted)."
  },
  {
   "property": "C86",
   "status": "partial",
   "theorems": [
    "RoughPy.Polys.C86_counts_partial",
    "RoughPy.Polys.C86_wrong",
    "RoughPy.Polys.C86_wrong_shared",
    "RoughPy.Polys.C86_wrong_monomial"
   ],
   "note": "Holds for in-place operators that return a new object, fall back or raise. Those that return the left operand do not take a reference: the variable is left with a freed object (refuted)."
  },
  {
   "property": "C87",
   "status": "partial",
   "theorems": [
    "RoughPy.Polys.C87_lookup_partial",
    "RoughPy.Polys.C87_wrong_get",
    "RoughPy.Polys.C87_wrong_set"
   ],
   "note": "The coefficient that is looked up is right, but p[m] never returns: no scalar can be made from a rational number, and the exception leaves a slot function. Assignment never succeeds."
  },
  {
   "property": "C88",
   "status": "partial",
   "theorems": [
    "RoughPy.Polys.C88_monomial",
    "RoughPy.Polys.C88_polynomial_partial",
    "RoughPy.Polys.C88_wrong"
   ],
   "note": "Monomials are read back; polynomials if every indeterminate of a term occurs in all later terms. The loader does not clear the monomial between terms, so x + y is read as x + x y (refuted)."
  },
  {
   "property": "C89",
   "status": "proved",
   "theorems": [
    "RoughPy.Polys.C89_order",
    "RoughPy.Polys.C89_degree"
   ],
   "note": "For the monomials of Python (libalgebra_lite)."
  },
  {
   "property": "C90",
   "status": "partial",
   "theorems": [
    "RoughPy.Args.C90_vector_partial",
    "RoughPy.Args.C90_matrix_partial",
    "RoughPy.Args.C90_dims",
    "RoughPy.Args.C90_wrong_rows",
    "RoughPy.Args.C90_wrong_rows_refuted",
    "RoughPy.Args.C90_step_refuted",
    "RoughPy.Args.C90_step",
    "RoughPy.Args.C90_broadcast_refuted",
    "RoughPy.Args.C90_unsigned_refuted",
    "RoughPy.Args.C90_device_refuted",
    "RoughPy.Args.C90_scalar_array_refuted",
    "RoughPy.Args.C90_scalar_array_undefined"
   ],
   "note": "Proved for vectors and matrices with a supported element type whose strides are not mistaken for dense ones, on the host. Refuted: gaps between dense rows, steps equal to the item size, stride zero, unsigned elements, other devices, arrays without dimensions."
  },
  {
   "property": "C91",
   "status": "partial",
   "theorems": [
    "RoughPy.Args.C91_same_type_partial",
    "RoughPy.Args.C91_bytes_partial",
    "RoughPy.Args.C91_dimensions_refuted",
    "RoughPy.Args.C91_columns_refuted"
   ],
   "note": "Proved for dense buffers of the scalar type and for one-dimensional buffers of bytes with any stride. Refuted: every buffer with fewer dimensions than bytes per item that needs a conversion, column-major buffers."
  },
  {
   "property": "C92",
   "status": "partial",
   "theorems": [
    "RoughPy.Args.C92_dense_partial",
    "RoughPy.Args.C92_strides_refuted"
   ],
   "note": "Proved for dense buffers; strides are ignored (refuted)."
  },
  {
   "property": "C93",
   "status": "partial",
   "theorems": [
    "RoughPy.Args.C93_pointer",
    "RoughPy.Args.C93_info_partial",
    "RoughPy.Args.C93_info_refuted",
    "RoughPy.Args.C93_update"
   ],
   "note": "Pointers always survive; type descriptions exactly if the code is even, odd codes never."
  },
  {
   "property": "C94",
   "status": "partial",
   "theorems": [
    "RoughPy.Args.C94_requested",
    "RoughPy.Args.C94_most_general_partial",
    "RoughPy.Args.C94_order_partial",
    "RoughPy.Args.C94_order_refuted",
    "RoughPy.Args.C94_half_refuted",
    "RoughPy.Args.C94_precision_refuted",
    "RoughPy.Args.C94_integers_refuted",
    "RoughPy.Args.C94_integers",
    "RoughPy.Args.C94_bfloat"
   ],
   "note": "A request is followed; for integers and floating point numbers up to double the most general type is chosen in any order. Refuted with half precision types, and 64 bit integers next to single precision lose digits."
  },
  {
   "property": "C95",
   "status": "partial",
   "theorems": [
    "RoughPy.Args.C95_single_partial",
    "RoughPy.Args.C95_rows_partial",
    "RoughPy.Args.C95_empty",
    "RoughPy.Args.C95_other",
    "RoughPy.Args.C95_bad_item",
    "RoughPy.Args.C95_depth",
    "RoughPy.Args.C95_stream_partial",
    "RoughPy.Args.C95_stream_values",
    "RoughPy.Args.C95_stream_keys_refuted",
    "RoughPy.Args.C95_tuples_refuted",
    "RoughPy.Args.C95_order_refuted",
    "RoughPy.Args.C95_pair_refuted",
    "RoughPy.Args.C95_type_refuted",
    "RoughPy.Args.C95_subclass_refuted",
    "RoughPy.Args.C95_fraction_refuted"
   ],
   "note": "Rows given as lists, tuples (not pairs of integers) and dictionaries are read as written, errors raise. Refuted: pairs of integers, order of the rows, subclasses of numbers, fractions, keys of sparse rows in streams."
  },
  {
   "property": "C96",
   "status": "partial",
   "theorems": [
    "RoughPy.Args.C96_default",
    "RoughPy.Args.C96_given",
    "RoughPy.Args.C96_mismatch",
    "RoughPy.Args.C96_column",
    "RoughPy.Args.C96_column_short",
    "RoughPy.Args.C96_support",
    "RoughPy.Args.C96_width",
    "RoughPy.Args.C96_resolution",
    "RoughPy.Args.C96_resolution_refuted",
    "RoughPy.Args.C96_resolution_dropped"
   ],
   "note": "Time stamps, support and width are right in all cases; a given resolution is kept only with time stamps, and the chosen one depends only on the smallest time stamp (refuted)."
  },
  {
   "property": "C97",
   "status": "partial",
   "theorems": [
    "RoughPy.Polys.C97_degree_partial",
    "RoughPy.Polys.C97_wrong"
   ],
   "note": "Proved without negative exponent sums; refuted for a monomial of negative degree."
  },
  {
   "property": "C98",
   "status": "partial",
   "theorems": [
    "RoughPy.Scalars.C98_history",
    "RoughPy.Scalars.C98_end",
    "RoughPy.Scalars.C98_defined",
    "RoughPy.Scalars.C98_undefined_refuted"
   ],
   "note": "Proved for every program: ownership is exact after every history (C98_history), nothing is left at the end (C98_end), and copying, moving, dropping and setting a good scalar is defined (C98_defined). Refuted for the claim that nothing undefined happens: adding to or negating an empty scalar, assigning an empty scalar to an owned zero, and Scalar(polynomial) are undefined (C98_undefined_refuted). Interface scalars, half and bfloat16 are not modelled."
  },
  {
   "property": "C99",
   "status": "proved",
   "theorems": [
    "RoughPy.Scalars.C99_copy",
    "RoughPy.Scalars.C99_independent",
    "RoughPy.Scalars.C99_history",
    "RoughPy.Scalars.C99_move"
   ],
   "note": "For every good state: a copy always succeeds, has type and value, is not a reference (C99_copy); other scalars keep their values under any history that does not write to them, references to shared memory excepted (C99_independent, C99_history); moving hands the value over (C99_move)."
  },
  {
   "property": "C100",
   "status": "partial",
   "theorems": [
    "RoughPy.Scalars.C100_number",
    "RoughPy.Scalars.C100_number_fails",
    "RoughPy.Scalars.C100_number_empty",
    "RoughPy.Scalars.C100_scalar_partial",
    "RoughPy.Scalars.C100_move",
    "RoughPy.Scalars.C100_move_const_refuted",
    "RoughPy.Scalars.C100_move_empty",
    "RoughPy.Scalars.C100_scalar_zero",
    "RoughPy.Scalars.C100_value",
    "RoughPy.Scalars.C100_type_refuted"
   ],
   "note": "Assigning a number and moving into a scalar convert to the type of the target (C100_number, C100_number_fails, C100_move, C100_value); refuted for x = y where x is an inline zero or empty, which takes over the type of y (C100_scalar_zero, C100_type_refuted)."
  },
  {
   "property": "C101",
   "status": "partial",
   "theorems": [
    "RoughPy.Scalars.C101_exact_partial",
    "RoughPy.Scalars.C101_integer",
    "RoughPy.Scalars.C101_narrow",
    "RoughPy.Scalars.C101_overflow_refuted",
    "RoughPy.Scalars.C101_floating",
    "RoughPy.Scalars.C101_mixed",
    "RoughPy.Scalars.C101_zero",
    "RoughPy.Scalars.C101_binary",
    "RoughPy.Scalars.C101_undefined_refuted",
    "RoughPy.Scalars.C101_zero_type_refuted"
   ],
   "note": "Exact for rational numbers and polynomials (C101_exact_partial), integers that fit (C101_integer), floating numbers by the machine's operation (C101_floating, C101_mixed), inline zeros (C101_zero), and the operators that return a new scalar (C101_binary). Refuted: on a reference to an element of another type and for p -= p on a polynomial the behaviour is undefined (C101_undefined_refuted), and adding an inline zero does not change the type (C101_zero_type_refuted)."
  },
  {
   "property": "C102",
   "status": "partial",
   "theorems": [
    "RoughPy.Scalars.C102_negation_refuted"
   ],
   "note": "Refuted: -x is always empty or zero, because the function that should negate has an empty body (C102_negation_refuted)."
  },
  {
   "property": "C103",
   "status": "partial",
   "theorems": [
    "RoughPy.Scalars.C103_equal_partial",
    "RoughPy.Scalars.C103_symmetric",
    "RoughPy.Scalars.C103_large_refuted",
    "RoughPy.Scalars.C103_rounded_refuted",
    "RoughPy.Scalars.C103_special_refuted"
   ],
   "note": "Proved for all scalars that stand for a number or polynomial, if an integer compared with a floating number is small and a negative zero does not meet a zero (C103_equal_partial, C103_symmetric). Refuted in the excepted cases (C103_large_refuted, C103_rounded_refuted, C103_special_refuted)."
  },
  {
   "property": "C104",
   "status": "partial",
   "theorems": [
    "RoughPy.Scalars.C104_rational",
    "RoughPy.Scalars.C104_polynomial",
    "RoughPy.Scalars.C104_floating",
    "RoughPy.Scalars.C104_integer",
    "RoughPy.Scalars.C104_reference_zero_refuted",
    "RoughPy.Scalars.C104_zero",
    "RoughPy.Scalars.C104_confusion_refuted",
    "RoughPy.Scalars.C104_polynomial_refuted"
   ],
   "note": "Proved where the left side has the more general type: rational, floating, integer, polynomial by rational, and zero divisors (C104_rational, C104_floating, C104_integer, C104_polynomial, C104_zero). Refuted: whenever the right side has the more general type the behaviour is undefined (C104_confusion_refuted); a polynomial cannot be divided by an integer or floating number (C104_polynomial_refuted)."
  },
  {
   "property": "C105",
   "status": "partial",
   "theorems": [
    "RoughPy.Intervals.C105_outcome",
    "RoughPy.Intervals.C105_pieces",
    "RoughPy.Intervals.C105_segment_partial",
    "RoughPy.Intervals.C105_opencl_refuted",
    "RoughPy.Intervals.C105_depth_refuted"
   ],
   "note": "Proved for intervals closed on the left and depths up to 30 (C105_segment_partial), for any predicate the pieces (C105_pieces) and the outcomes (C105_outcome). Refuted for intervals closed on the right (C105_opencl_refuted) and for depths from 31 on (C105_depth_refuted). Numbers are exact."
  },
  {
   "property": "C106",
   "status": "partial",
   "theorems": [
    "RoughPy.Intervals.C106_inside_partial",
    "RoughPy.Intervals.C106_bounds",
    "RoughPy.Intervals.C106_inside_refuted"
   ],
   "note": "Refuted: the search expands across the ends of the interval (C106_inside_refuted). Proved: how far at most (C106_bounds), and the claim if the set lies inside the interval (C106_inside_partial)."
  },
  {
   "property": "C107",
   "status": "partial",
   "theorems": [
    "RoughPy.Streams.C107_in_force",
    "RoughPy.Streams.C107_between_partial",
    "RoughPy.Streams.C107_errors",
    "RoughPy.Streams.C107_context_refuted",
    "RoughPy.Streams.C107_tie_refuted",
    "RoughPy.Streams.C107_support_refuted"
   ],
   "note": "Values of different depth in one list and floating point times are not modelled. Fails for equal times, for a given support beginning after the second sample, and without a context argument."
  },
  {
   "property": "C108",
   "status": "partial",
   "theorems": [
    "RoughPy.Streams.C108_at_sample",
    "RoughPy.Streams.C108_sample_partial",
    "RoughPy.Streams.C108_refuted"
   ],
   "note": "Holds for the first sample only; for every other sample the value at its time is the previous one (C108_at_sample)."
  },
  {
   "property": "C109",
   "status": "partial",
   "theorems": [
    "RoughPy.Streams.C109_query_partial",
    "RoughPy.Streams.C109_errors",
    "RoughPy.Streams.C109_touching_refuted"
   ],
   "note": "Holds for intervals overlapping the domain; an interval that only touches it gives a stream over [0,1) or an error."
  },
  {
   "property": "C110",
   "status": "partial",
   "theorems": [
    "RoughPy.Streams.C110_signature_partial",
    "RoughPy.Streams.C110_domain_refuted"
   ],
   "note": "Chen, independence of the resolution and the relation to the terminal value hold; the interval is not trimmed to the domain."
  },
  {
   "property": "C111",
   "status": "partial",
   "theorems": [
    "RoughPy.Handles.C111_tensor_run_partial",
    "RoughPy.Handles.C111_lie_run_partial",
    "RoughPy.Handles.C111_unset_left_refuted",
    "RoughPy.Handles.C111_unset_right_refuted",
    "RoughPy.Handles.C111_sub_self_refuted",
    "RoughPy.Handles.C111_dense_zero_refuted"
   ],
   "note": "Proved for all programs whose statements are Safe (HandleSpec.lean). Refuted: an unset left operand is undefined, an unset right factor is ignored, x -= x on sparse tensors, products after a dense product by zero."
  },
  {
   "property": "C112",
   "status": "partial",
   "theorems": [
    "RoughPy.Handles.C112_tensor_contexts_partial",
    "RoughPy.Handles.C112_lie_contexts_partial",
    "RoughPy.Handles.C112_division_by_zero",
    "RoughPy.Handles.C112_zero_scalar_refuted",
    "RoughPy.Handles.C112_unset_by_zero_refuted"
   ],
   "note": "Proved for tensors and Lie elements of all contexts, and for division by zero of set elements. Refuted: the scalar zero in fused operations skips the check; unset elements can be divided by zero."
  },
  {
   "property": "C113",
   "status": "partial",
   "theorems": [
    "RoughPy.Handles.C113_tensor_eq_partial",
    "RoughPy.Handles.C113_lie_eq_partial",
    "RoughPy.Handles.C113_widths",
    "RoughPy.Handles.C113_contexts_refuted"
   ],
   "note": "Proved within a context and for different widths. Refuted: elements of the same width and different contexts raise an exception. Dense tensors after an in-place product by zero are not covered."
  },
  {
   "property": "C114",
   "status": "partial",
   "theorems": [
    "RoughPy.Handles.C114_tensor_get_partial",
    "RoughPy.Handles.C114_dense_refuted",
    "RoughPy.Handles.C114_lie_get",
    "RoughPy.Handles.C114_lie_absent",
    "RoughPy.Handles.C114_lie_dense_refuted",
    "RoughPy.Handles.C114_unset",
    "RoughPy.Handles.C114_beyond_refuted"
   ],
   "note": "Proved for sparse tensors, for the stored part of dense tensors and for all keys that iteration over a Lie element shows. Refuted: dense tensors beyond their storage, indices beyond the basis. Lie keys beyond the storage of a dense element are not covered."
  },
  {
   "property": "C115",
   "status": "partial",
   "theorems": [
    "RoughPy.Handles.C115_pair_partial",
    "RoughPy.Handles.C115_unset_tensor",
    "RoughPy.Handles.C115_shorter_refuted",
    "RoughPy.Handles.C115_widths_refuted",
    "RoughPy.Handles.C115_unset_refuted"
   ],
   "note": "Proved within a context if the tensor stores a coefficient for each that the shuffle tensor stores. Refuted: shorter dense tensors, different widths, unset shuffle tensors."
  },
  {
   "property": "C116",
   "status": "partial",
   "theorems": [
    "RoughPy.Arrays.C116_storage_partial",
    "RoughPy.Arrays.C116_no_leak",
    "RoughPy.Arrays.C116_owner",
    "RoughPy.Arrays.C116_leak_refuted",
    "RoughPy.Arrays.C116_freed_refuted",
    "RoughPy.Arrays.C116_untyped_refuted",
    "RoughPy.Arrays.C116_dangling_refuted"
   ],
   "note": "For every program over arrays (construction over own and user memory, copies, moves, assignments, slices, views, conversions, destruction) that meets the listed preconditions, if the counts of new buffers start at zero. Refuted: the count is not initialised (memory leaks or is freed while in use), arrays made with a type info and a size, views outliving their owner. Missing: the defective statements excluded by Safe."
  },
  {
   "property": "C117",
   "status": "partial",
   "theorems": [
    "RoughPy.Arrays.C117_frame",
    "RoughPy.Arrays.C117_owner",
    "RoughPy.Arrays.C117_write",
    "RoughPy.Arrays.C117_zeros",
    "RoughPy.Arrays.C117_copy",
    "RoughPy.Arrays.C117_slice",
    "RoughPy.Arrays.C117_view",
    "RoughPy.Arrays.C117_move",
    "RoughPy.Arrays.C117_move_assign",
    "RoughPy.Arrays.C117_moved_refuted",
    "RoughPy.Arrays.C117_move_assign_refuted"
   ],
   "note": "Writes, frame, zeros, copies, slices, views, moves and moving assignments for every reachable state. Refuted: moved-from arrays keep their size, borrowed arrays stay alive after a moving assignment. Missing: states reached through the defective statements."
  },
  {
   "property": "C118",
   "status": "partial",
   "theorems": [
    "RoughPy.Arrays.C118_bounds",
    "RoughPy.Arrays.C118_const",
    "RoughPy.Arrays.C118_memory",
    "RoughPy.Arrays.C118_empty_refuted",
    "RoughPy.Arrays.C118_slice_refuted"
   ],
   "note": "Bounds for usable arrays of reachable states; constants for all states; constant memory of the user for all programs without undefined behaviour. Refuted: indexing an empty array, slices with begin > end."
  },
  {
   "property": "C119",
   "status": "partial",
   "theorems": [
    "RoughPy.Arrays.C119_assign_partial",
    "RoughPy.Arrays.C119_self",
    "RoughPy.Arrays.C119_const_view_refuted",
    "RoughPy.Arrays.C119_view_refuted",
    "RoughPy.Arrays.C119_borrowed_refuted",
    "RoughPy.Arrays.C119_rational_refuted",
    "RoughPy.Arrays.C119_empty_refuted",
    "RoughPy.Arrays.C119_moved_refuted",
    "RoughPy.Arrays.C119_convert_partial",
    "RoughPy.Arrays.C119_shorter_refuted",
    "RoughPy.Arrays.C119_longer_refuted"
   ],
   "note": "Assignment from owners of floating numbers; converting copies between arrays of one size in different memory. Refuted: assigning views, borrowed arrays, rational numbers, empty and moved-from arrays; converting copies from a shorter source."
  },
  {
   "property": "C120",
   "status": "partial",
   "theorems": [
    "RoughPy.Keys.C120_accepts_partial",
    "RoughPy.Keys.C120_text",
    "RoughPy.Keys.C120_text_injective",
    "RoughPy.Keys.C120_letters_refuted"
   ],
   "note": "Text and injectivity in full. Accepted objects are characterised: in a list every 16 bit number is taken as a letter, also zero and letters beyond the width, and brackets need not be Hall brackets (C120_letters_refuted)."
  },
  {
   "property": "C121",
   "status": "partial",
   "theorems": [
    "RoughPy.Keys.C121_iterate_partial",
    "RoughPy.Keys.C121_range",
    "RoughPy.Keys.C121_texts",
    "RoughPy.Keys.C121_bounds_refuted"
   ],
   "note": "Iteration and texts in full for widths below 2^16. Numbers outside the basis are not refused: the recursion does not end (C121_bounds_refuted)."
  },
  {
   "property": "C122",
   "status": "partial",
   "theorems": [
    "RoughPy.Keys.C122_letter_partial",
    "RoughPy.Keys.C122_lookup_refuted"
   ],
   "note": "Holds for letters. Refuted for every key of degree two or more of every basis (C122_lookup_refuted): the recursion goes to the wrong right part and the number found is never that of the key."
  },
  {
   "property": "C123",
   "status": "partial",
   "theorems": [
    "RoughPy.Keys.C123_degree",
    "RoughPy.Keys.C123_equals_partial",
    "RoughPy.Keys.C123_equals_refuted",
    "RoughPy.Keys.C123_letter_equals_refuted",
    "RoughPy.Keys.C123_parts_partial",
    "RoughPy.Keys.C123_parts_refuted"
   ],
   "note": "Degree in full. Equality compares only the left spines of the two parts (C123_equals_partial says exactly what; C123_equals_refuted) and reads past the end for equal letters. Parts are right for letters, pairs and a letter with a pair; wrong in general (C123_parts_refuted)."
  },
  {
   "property": "C124",
   "status": "partial",
   "theorems": [
    "RoughPy.Keys.C124_index_to_key_partial",
    "RoughPy.Keys.C124_index_to_key_refuted",
    "RoughPy.Keys.C124_key_to_index_refuted"
   ],
   "note": "index_to_key is right below the dimension. Beyond it does not return; key_to_index and parents do not use the key (C124_key_to_index_refuted)."
  },
  {
   "property": "C125",
   "status": "partial",
   "theorems": [
    "RoughPy.Query.C125_query_partial",
    "RoughPy.Query.C125_accepts",
    "RoughPy.Query.C125_order",
    "RoughPy.Query.C125_only",
    "RoughPy.Query.C125_ignored_refuted",
    "RoughPy.Query.C125_wrap_refuted"
   ],
   "note": "Proved for arguments that do not contradict each other and levels that fit in 32 bits. Refuted: sup without a lower end point, or a second resolution, is ignored; larger levels wrap."
  },
  {
   "property": "C126",
   "status": "partial",
   "theorems": [
    "RoughPy.Query.C126_context_partial",
    "RoughPy.Query.C126_accepts",
    "RoughPy.Query.C126_dtype_refuted",
    "RoughPy.Query.C126_name_refuted",
    "RoughPy.Query.C126_terminates_refuted"
   ],
   "note": "Proved for ctx, and for a depth with or without a RoughPy scalar type. Refuted: a scalar type alone gives depth 0; names are refused or undefined behaviour; unsupported types end the process."
  },
  {
   "property": "C127",
   "status": "partial",
   "theorems": [
    "RoughPy.Query.C127_derivative_partial",
    "RoughPy.Query.C127_accepts",
    "RoughPy.Query.C127_two_pairs_refuted",
    "RoughPy.Query.C127_resolution_refuted"
   ],
   "note": "Proved for the pairs, the resolution given and the context. Refuted: a tuple of two pairs is rejected; without a resolution the derivative is taken at a coarser one than signature uses."
  },
  {
   "property": "C128",
   "status": "partial",
   "theorems": [
    "RoughPy.Query.C128_simplify_partial",
    "RoughPy.Query.C128_refuses",
    "RoughPy.Query.C128_resolution_refuted",
    "RoughPy.Query.C128_support_refuted"
   ],
   "note": "Proved for every piece, context and resolution given. Refuted: the default resolution is coarser than that of log_signature; the support is that of the metadata, not of the stream."
  },
  {
   "property": "C129",
   "status": "partial",
   "theorems": [
    "RoughPy.Query.C129_tick",
    "RoughPy.Query.C129_increments",
    "RoughPy.Query.C129_increment_widths_partial",
    "RoughPy.Query.C129_tick_widths_partial",
    "RoughPy.Query.C129_others_partial",
    "RoughPy.Query.C129_context_refuted",
    "RoughPy.Query.C129_labels_refuted",
    "RoughPy.Query.C129_others_refuted"
   ],
   "note": "Metadata and context agree for tick and increment streams; the width of the schema is the width but for contradictory contexts and labels that are numbers. Refuted for Brownian, function and piecewise streams with a schema."
  },
  {
   "property": "C130",
   "status": "partial",
   "theorems": [
    "RoughPy.Query.C130_honoured_partial",
    "RoughPy.Query.C130_resolution",
    "RoughPy.Query.C130_replaced_refuted",
    "RoughPy.Query.C130_time_refuted",
    "RoughPy.Query.C130_type_refuted",
    "RoughPy.Query.C130_function_refuted"
   ],
   "note": "Proved for tick and increment streams without time, zero widths and depths, or a schema of another width. Refuted: contexts and schemas that are replaced, include_time with a schema, names of types, function streams without a scalar type."
  },
  {
   "property": "C131",
   "status": "partial",
   "theorems": [
    "RoughPy.Query.C131_tick",
    "RoughPy.Query.C131_increment_partial",
    "RoughPy.Query.C131_time_refuted",
    "RoughPy.Query.C131_column_lost_refuted",
    "RoughPy.Query.C131_one_column_refuted"
   ],
   "note": "Proved for tick streams and for increment streams with a width. Refuted for increment streams without a width: time overwrites the last column."
  },
  {
   "property": "C132",
   "status": "partial",
   "theorems": [
    "RoughPy.Pickle.C132_dyadic",
    "RoughPy.Pickle.C132_dyadic_interval",
    "RoughPy.Pickle.C132_real",
    "RoughPy.Pickle.C132_partition_base",
    "RoughPy.Pickle.C132_partition_iff",
    "RoughPy.Pickle.C132_partition_partial",
    "RoughPy.Pickle.C132_partition_refuted"
   ],
   "note": "proved for dyadic numbers, dyadic and real intervals and proper partitions, with the exact condition for partitions (C132_partition_iff); refuted for reachable partitions that hold an end point of their interval (C132_partition_refuted)"
  },
  {
   "property": "C133",
   "status": "partial",
   "theorems": [
    "RoughPy.Pickle.C133_dense_partial",
    "RoughPy.Pickle.C133_sparse_empty",
    "RoughPy.Pickle.C133_sparse_refuted",
    "RoughPy.Pickle.C133_unset_refuted",
    "RoughPy.Pickle.C133_rational_refuted"
   ],
   "note": "proved for dense elements with float or double coefficients and for sparse elements without entries; refuted for every sparse element with an entry, every unset element and every dense element with rational coefficients that has entries; polynomial coefficients are not modelled"
  },
  {
   "property": "C134",
   "status": "partial",
   "theorems": [
    "RoughPy.Pickle.C134_truncated",
    "RoughPy.Pickle.C134_truncated_refused",
    "RoughPy.Pickle.C134_truncated_dense",
    "RoughPy.Pickle.C134_trailing",
    "RoughPy.Pickle.C134_kind_refuted",
    "RoughPy.Pickle.C134_short"
   ],
   "note": "no truncated pickle gives an element; it throws unless unpickling the whole pickle is undefined, in particular for all dense elements with float or double coefficients; refuted for pickles of another class, which are taken for the wrong class (C134_kind_refuted); bytes after the end are ignored (C134_trailing)"
  },
  {
   "property": "C135",
   "status": "partial",
   "theorems": [
    "RoughPy.Parse.C135_schema_partial",
    "RoughPy.Parse.C135_same",
    "RoughPy.Parse.C135_refused",
    "RoughPy.Parse.C135_lookup",
    "RoughPy.Parse.C135_options_refuted",
    "RoughPy.Parse.C135_increment_refuted",
    "RoughPy.Parse.C135_duplicate_refuted"
   ],
   "note": "Proved for labels that differ, are not empty and have no ':' or NUL, with options present in tuples. Refuted: options left out of a tuple, options of increments, repeated labels. Which exception is raised is left out."
  },
  {
   "property": "C136",
   "status": "partial",
   "theorems": [
    "RoughPy.Parse.C136_ticks_partial",
    "RoughPy.Parse.C136_unambiguous",
    "RoughPy.Parse.C136_refused",
    "RoughPy.Parse.C136_extra_refuted",
    "RoughPy.Parse.C136_names_refuted"
   ],
   "note": "All layouts give their ticks and are unambiguous; values without a time, label or type raise. Refuted: a fifth component that is a dict is ignored, and channels called label, type and data are taken for a record."
  },
  {
   "property": "C137",
   "status": "partial",
   "theorems": [
    "RoughPy.Parse.C137_recorded_partial",
    "RoughPy.Parse.C137_type",
    "RoughPy.Parse.C137_lie_refuted",
    "RoughPy.Parse.C137_unknown_refuted"
   ],
   "note": "Proved for increments, values and categories. Refuted for Lie increments and for unknown or capitalised names: the tick is dropped. What the construction helper does with a call is the subject of C45 and others, not of this one."
  },
  {
   "property": "C138",
   "status": "partial",
   "theorems": [
    "RoughPy.Ticks.C138_differences_partial",
    "RoughPy.Ticks.C138_accepted",
    "RoughPy.Ticks.C138_precedence",
    "RoughPy.Ticks.C138_refused",
    "RoughPy.Ticks.C138_time_refuted",
    "RoughPy.Ticks.C138_integers_refuted"
   ],
   "note": "Ticks of one kind of time are accepted, recorded with label, type and data in the order given, at their time minus the time of the first tick given, and ties are numbered in order; mixtures and other objects are refused. Refuted as stated: the first tick is at 0 whatever its time, so the order of the data changes all times, and integer times always raise. Floats are rational numbers in the model."
  },
  {
   "property": "C139",
   "status": "partial",
   "theorems": [
    "RoughPy.Ticks.C139_inferred_partial",
    "RoughPy.Ticks.C139_accepted",
    "RoughPy.Ticks.C139_final",
    "RoughPy.Ticks.C139_final_only",
    "RoughPy.Ticks.C139_types_refuted",
    "RoughPy.Ticks.C139_labels_refuted"
   ],
   "note": "Proved for ticks whose labels have no colon and are not empty, one type for each label. Refuted as stated: a tick of another type under a known label is accepted, and a label with a colon is taken for a part of another channel."
  },
  {
   "property": "C140",
   "status": "partial",
   "theorems": [
    "RoughPy.FromData.C140_signature_partial",
    "RoughPy.FromData.C140_order_refuted",
    "RoughPy.FromData.C140_support_refuted",
    "RoughPy.FromData.C140_accepted",
    "RoughPy.FromData.C140_layout"
   ],
   "note": "Proved from the calls of the parser to the answer of log_signature for increments and values, first tick earliest, end points multiples of 2^-resolution in the support, no schema given; construction proved to succeed; independence of the layout proved. Refuted: data whose first tick is not the earliest never returns; ticks one or more after the first are invisible without support."
  },
  {
   "property": "C141",
   "status": "partial",
   "theorems": [
    "RoughPy.TensorFn.C141_log_partial",
    "RoughPy.TensorFn.C141_formula",
    "RoughPy.TensorFn.C141_linear_partial",
    "RoughPy.TensorFn.C141_raises",
    "RoughPy.TensorFn.C141_trivial_refuted",
    "RoughPy.TensorFn.C141_deep_refuted",
    "RoughPy.TensorFn.C141_log_refuted",
    "RoughPy.TensorFn.C141_adjoint_partial",
    "RoughPy.TensorFn.C141_adjoint_refuted"
   ],
   "note": "Proved at depth at most two, for elements that are not exponentials of elements without part in degree one (C141_log_partial, C141_linear_partial, C141_formula). Refuted beyond: at depth two Log(1) raises, exactly when the degree-two part is antisymmetric (C141_raises, C141_trivial_refuted), and from depth three on Log raises for every element (C141_deep_refuted), because an empty dictionary is not accepted as data. The adjoint of the shuffle product comes out with both words reversed (C141_adjoint_refuted)."
  },
  {
   "property": "C142",
   "status": "partial",
   "theorems": [
    "RoughPy.TensorFn.C142_product_partial",
    "RoughPy.TensorFn.C142_context_refuted",
    "RoughPy.TensorFn.C142_arithmetic",
    "RoughPy.TensorFn.C142_canonical",
    "RoughPy.TensorFn.C142_zero_refuted"
   ],
   "note": "Proved with a context (C142_product_partial) and for all operations (C142_arithmetic, C142_canonical). Refuted: without the optional context the constructor indexes past the pair (C142_context_refuted); sub_scal_div keeps cancelled entries (C142_zero_refuted)."
  },
  {
   "property": "C143",
   "status": "partial",
   "theorems": [
    "RoughPy.Lite.C143_sparse",
    "RoughPy.Lite.C143_dense_partial",
    "RoughPy.Lite.C143_dense_expression_partial",
    "RoughPy.Lite.C143_involution",
    "RoughPy.Lite.C143_tiles",
    "RoughPy.Lite.C143_product_partial",
    "RoughPy.Lite.C143_signature_partial",
    "RoughPy.Lite.C143_empty_refuted"
   ],
   "note": "Sparse tensors and dense tensors whose storage is filled up to their degree, for every tile size, with width below 2^16 (letters are unsigned shorts). Refuted for dense tensors without storage (a zero tensor): the first entry is read from an empty array."
  },
  {
   "property": "C144",
   "status": "partial",
   "theorems": [
    "RoughPy.Lite.C144_dense_partial",
    "RoughPy.Lite.C144_dense_product_partial",
    "RoughPy.Lite.C144_errors",
    "RoughPy.Lite.C144_sparse_zero_refuted",
    "RoughPy.Lite.C144_sparse_unit_refuted",
    "RoughPy.Lite.C144_sparse_letter_refuted",
    "RoughPy.Lite.C144_mixed_partial",
    "RoughPy.Lite.C144_mixed_refuted",
    "RoughPy.Lite.C144_twice_refuted",
    "RoughPy.Lite.C144_degree_refuted",
    "RoughPy.Lite.C144_empty_refuted",
    "RoughPy.Lite.C144_kind_refuted",
    "RoughPy.Lite.C144_context_refuted",
    "RoughPy.Lite.C144_unset_refuted",
    "RoughPy.Lite.C144_scalars_refuted"
   ],
   "note": "Proved for two dense tensors with storage, of one class. Refuted: sparse arguments give zero (for all operands) or read outside the table of powers (every sparse multiplier with a letter other than the first); dense argument with sparse multiplier takes wrong coefficients (proved: no access outside the storages); the degree of the result is recorded as 0, so that a second application writes outside the storage and products lose terms; a FreeTensor multiplier with a ShuffleTensor argument gives a FreeTensor object pointing to a shuffle tensor; a multiplier without storage is read."
  },
  {
   "property": "C145",
   "status": "partial",
   "theorems": [
    "RoughPy.Arrays.C145_memory_partial",
    "RoughPy.Arrays.C145_user",
    "RoughPy.Arrays.C145_owner",
    "RoughPy.Arrays.C145_no_leak",
    "RoughPy.Arrays.C145_frame",
    "RoughPy.Arrays.C145_copy_partial",
    "RoughPy.Arrays.C145_assign_partial",
    "RoughPy.Arrays.C145_move",
    "RoughPy.Arrays.C145_move_assign",
    "RoughPy.Arrays.C145_allocate",
    "RoughPy.Arrays.C145_set",
    "RoughPy.Arrays.C145_copy_refuted",
    "RoughPy.Arrays.C145_user_freed_refuted",
    "RoughPy.Arrays.C145_twice_refuted",
    "RoughPy.Arrays.C145_copy_or_move_refuted",
    "RoughPy.Arrays.C145_copy_or_move_null_refuted",
    "RoughPy.Arrays.C145_moved_refuted",
    "RoughPy.Arrays.C145_empty_refuted",
    "RoughPy.Arrays.C145_write_refuted"
   ],
   "note": "Proved for all programs whose statements meet KSafe. The excluded statements have defects, each refuted by a program (copies of arrays over user keys lose them, allocate_keys frees keys of the user and frees twice, copy_or_move writes out of bounds, moved-from arrays claim keys). Missing: load/save and convert_copy into a keyed array."
  },
  {
   "property": "C146",
   "status": "partial",
   "theorems": [
    "RoughPy.Arrays.C146_rows_partial",
    "RoughPy.Arrays.C146_keys_refuted",
    "RoughPy.Arrays.C146_range_refuted",
    "RoughPy.Arrays.C146_counts",
    "RoughPy.Arrays.C146_shape_partial",
    "RoughPy.Arrays.C146_too_many",
    "RoughPy.Arrays.C146_no_shape",
    "RoughPy.Arrays.C146_dangling_refuted",
    "RoughPy.Arrays.C146_const_refuted",
    "RoughPy.Arrays.C146_third_refuted"
   ],
   "note": "Rows are read back iff no row without keys follows one with keys (C146_rows_partial, both directions); counts hold; shapes proved for mutable memory of the user. Refuted: keys after a row without keys, out of range terminates, owned arrays leave dangling rows, constant arrays are refused, third dimension ignored."
  },
  {
   "property": "C147",
   "status": "partial",
   "theorems": [
    "RoughPy.Threads.C147_safe",
    "RoughPy.Threads.C147_alive",
    "RoughPy.Threads.C147_once",
    "RoughPy.Threads.C147_no_leak",
    "RoughPy.Threads.C147_progress",
    "RoughPy.Threads.C147_count",
    "RoughPy.Threads.C147_leak_refuted",
    "RoughPy.Threads.C147_early_refuted"
   ],
   "note": "Proved in full for RefCountedMiddle (counter starts at 0) for all schedules, with happens-before as views, while fewer than 2^64 pointers exist. RefCountBase does not initialise its counter: refuted (leak, early destruction). The counter of boost::intrusive_ref_counter is not in the repository."
  },
  {
   "property": "C148",
   "status": "partial",
   "theorems": [
    "RoughPy.Batch.C148_ft_fma_partial",
    "RoughPy.Batch.C148_ft_mul_partial",
    "RoughPy.Batch.C148_ft_inplace_mul_partial",
    "RoughPy.Batch.C148_antipode_partial",
    "RoughPy.Batch.C148_st_fma_partial",
    "RoughPy.Batch.C148_adjoint_partial",
    "RoughPy.Batch.C148_accepts_partial",
    "RoughPy.Batch.C148_bad_output_partial",
    "RoughPy.Batch.C148_bad_operand_partial",
    "RoughPy.Batch.C148_ft_exp_partial",
    "RoughPy.Batch.C148_ft_log_partial",
    "RoughPy.Batch.C148_ft_fmexp_partial",
    "RoughPy.Batch.C148_strided_refuted",
    "RoughPy.Batch.C148_short_rows_refuted",
    "RoughPy.Batch.C148_read_only_refuted",
    "RoughPy.Batch.C148_alias_refuted",
    "RoughPy.Batch.C148_negative_stride_refuted"
   ],
   "note": "Proved for rows that are contiguous, as long as the basis asks, and an output apart from the operands. Refuted otherwise: strides of the last dimension are ignored, its length is not checked, read-only outputs are written, aliasing gives wrong results."
  },
  {
   "property": "C149",
   "status": "partial",
   "theorems": [
    "RoughPy.Generics.C149_exact_partial",
    "RoughPy.Generics.C149_integers_partial",
    "RoughPy.Generics.C149_modulo",
    "RoughPy.Generics.C149_to_float_partial",
    "RoughPy.Generics.C149_to_float_refused",
    "RoughPy.Generics.C149_to_integer_partial",
    "RoughPy.Generics.C149_trunc",
    "RoughPy.Generics.C149_is_exact_partial",
    "RoughPy.Generics.C149_refused_partial",
    "RoughPy.Generics.C149_convert_to_partial",
    "RoughPy.Generics.C149_narrowing_refuted",
    "RoughPy.Generics.C149_widening_refuted",
    "RoughPy.Generics.C149_wide_refuted",
    "RoughPy.Generics.C149_range_refuted",
    "RoughPy.Generics.C149_refused_refuted",
    "RoughPy.Generics.C149_large_refuted",
    "RoughPy.Generics.C149_convert_from_refuted",
    "RoughPy.Generics.C149_convert_to_refuted"
   ],
   "note": "Exact conversions that succeed keep the number, for all pairs but same-sign narrowing; integer conversions decided in full; refusals leave the destination alone but from double to float. False: same-sign narrowing is always 'exact', widening is not; double to int64 fails for every number from 1; numbers out of range of int32 are undefined; convert_from finds the opposite conversion."
  },
  {
   "property": "C150",
   "status": "partial",
   "theorems": [
    "RoughPy.Generics.C150_of",
    "RoughPy.Generics.C150_assign_partial",
    "RoughPy.Generics.C150_move_partial",
    "RoughPy.Generics.C150_integers_partial",
    "RoughPy.Generics.C150_modulo_partial",
    "RoughPy.Generics.C150_floats_partial",
    "RoughPy.Generics.C150_compare_partial",
    "RoughPy.Generics.C150_infinite_partial",
    "RoughPy.Generics.C150_assignment_throws",
    "RoughPy.Generics.C150_signs_throw",
    "RoughPy.Generics.C150_assign_refuted",
    "RoughPy.Generics.C150_bounds_refuted",
    "RoughPy.Generics.C150_move_refuted",
    "RoughPy.Generics.C150_promotion_refuted",
    "RoughPy.Generics.C150_equal_refuted",
    "RoughPy.Generics.C150_divide_refuted",
    "RoughPy.Generics.C150_mixed_refuted",
    "RoughPy.Generics.C150_u16_refuted"
   ],
   "note": "Proved for operands of one type (integers exact or modulo, floats as the machine, comparisons). Different types are refused with signs differing and for operations with assignment of values. False otherwise: promotions go to the smaller type, assignments read the source in the wrong type, division in place leaves the operand, moves are dropped."
  },
  {
   "property": "C151",
   "status": "partial",
   "theorems": [
    "RoughPy.Generics.Own.C151_values_partial",
    "RoughPy.Generics.Own.C151_freed_partial",
    "RoughPy.Generics.Own.C151_move_refuted",
    "RoughPy.Generics.Own.C151_leak_refuted",
    "RoughPy.Generics.Own.C151_shared_refuted"
   ],
   "note": "Proved for all programs without move assignment. Move assignment leaves two owners, leaks the old object and keeps a stale pointer in the source."
  },
  {
   "property": "C152",
   "status": "partial",
   "theorems": [
    "RoughPy.Sound.C152_query_partial",
    "RoughPy.Sound.C152_outside_throws",
    "RoughPy.Sound.C152_signature_partial",
    "RoughPy.Sound.C152_first_refuted",
    "RoughPy.Sound.C152_short_refuted",
    "RoughPy.Sound.C152_leadlag_refuted",
    "RoughPy.Sound.C152_time_refuted",
    "RoughPy.Sound.C152_resolution_refuted",
    "RoughPy.Sound.C152_defaults"
   ],
   "note": "Rows of a query are the movements at the frames in the interval, for every position of the handle; queries outside the file throw; the stream's log signature is that of the movements, after any history, at resolutions up to that of the stream; what from_uri makes of its arguments. The claim fails for the first frame of increments, short files, lead-lag and time channels, resolution 0 (refutations)."
  },
  {
   "property": "C153",
   "status": "partial",
   "theorems": [
    "RoughPy.GenPoly.C153_monomial_partial",
    "RoughPy.GenPoly.C153_monomial_full_partial",
    "RoughPy.GenPoly.C153_monomial_undefined",
    "RoughPy.GenPoly.C153_sum_partial",
    "RoughPy.GenPoly.C153_difference_partial",
    "RoughPy.GenPoly.C153_sum_undefined",
    "RoughPy.GenPoly.C153_product_partial",
    "RoughPy.GenPoly.C153_product_powers",
    "RoughPy.GenPoly.C153_quotient",
    "RoughPy.GenPoly.C153_sum_refuted",
    "RoughPy.GenPoly.C153_lost_term_refuted",
    "RoughPy.GenPoly.C153_overwritten_term_refuted",
    "RoughPy.GenPoly.C153_self_refuted"
   ],
   "note": "Proved under the condition that keeps the old end iterator meaningful; without it the code is undefined or wrong, shown by refutations."
  },
  {
   "property": "C154",
   "status": "partial",
   "theorems": [
    "RoughPy.GenPoly.C154_equal",
    "RoughPy.GenPoly.C154_zero",
    "RoughPy.GenPoly.C154_number",
    "RoughPy.GenPoly.C154_order",
    "RoughPy.GenPoly.C154_degree",
    "RoughPy.GenPoly.C154_order_degree",
    "RoughPy.GenPoly.C154_le_refuted",
    "RoughPy.GenPoly.C154_zero_refuted",
    "RoughPy.GenPoly.C154_fraction_refuted"
   ],
   "note": "Equality, zero test, conversion and the strict order are proved for polynomials in normal form; <= and >, the number zero and fractions not in lowest terms are refuted."
  },
  {
   "property": "C155",
   "status": "partial",
   "theorems": [
    "RoughPy.BigNum.C155_integer",
    "RoughPy.BigNum.C155_integer_order",
    "RoughPy.BigNum.C155_integer_equal_refuted",
    "RoughPy.BigNum.C155_integer_power_refuted",
    "RoughPy.BigNum.C155_fraction_partial",
    "RoughPy.BigNum.C155_sum_refuted",
    "RoughPy.BigNum.C155_sum_equal_refuted",
    "RoughPy.BigNum.C155_division_by_zero_refuted",
    "RoughPy.BigNum.C155_fraction_order",
    "RoughPy.BigNum.C155_fraction_functions",
    "RoughPy.BigNum.C155_power_partial",
    "RoughPy.BigNum.C155_power_refuted",
    "RoughPy.BigNum.C155_from_rational_integer_partial",
    "RoughPy.BigNum.C155_negative_refuted",
    "RoughPy.BigNum.C155_from_rational_fraction_partial",
    "RoughPy.BigNum.C155_common_factor_refuted",
    "RoughPy.BigNum.C155_parse",
    "RoughPy.BigNum.C155_parse_refuted",
    "RoughPy.BigNum.C155_trait_equal_refuted",
    "RoughPy.BigNum.C155_trait_imaginary_refuted",
    "RoughPy.BigNum.C155_formula_partial"
   ],
   "note": "Integers except ==, powers and negative from_rational; fractions in lowest terms except sums, division by zero and powers below -1; the exceptions are refuted."
  },
  {
   "property": "C156",
   "status": "partial",
   "theorems": [
    "RoughPy.GenArr.C156_values_partial",
    "RoughPy.GenArr.C156_memory_partial",
    "RoughPy.GenArr.C156_reserved_partial",
    "RoughPy.GenArr.C156_grow_refuted",
    "RoughPy.GenArr.C156_copy_empty_refuted",
    "RoughPy.GenArr.C156_self_assign_refuted",
    "RoughPy.GenArr.C156_assign_leaks_refuted",
    "RoughPy.GenArr.C156_self_move_refuted"
   ],
   "note": "Values for all programs that do not copy an array without a type or to itself, and do not grow a non-empty array of elements that own memory (all of these are undefined, refuted); release of memory if arrays are assigned only to variables without memory (else it is lost, refuted). Two kinds of element types; alignment, exhaustion of memory and element counts beyond the address space not modelled."
  },
  {
   "property": "C157",
   "status": "partial",
   "theorems": [
    "RoughPy.PolyText.C157_text_partial",
    "RoughPy.PolyText.C157_round_trip_partial",
    "RoughPy.PolyText.C157_ordered_partial",
    "RoughPy.PolyText.C157_malformed_refuted",
    "RoughPy.PolyText.C157_out_of_range_refuted",
    "RoughPy.PolyText.C157_round_trip_refuted",
    "RoughPy.PolyText.C157_bare_indeterminate_refuted",
    "RoughPy.PolyText.C157_separated_sign_refuted",
    "RoughPy.PolyText.C157_repeated_term_refuted",
    "RoughPy.PolyText.C157_repeated_power_refuted",
    "RoughPy.PolyText.C157_unreduced_refuted",
    "RoughPy.PolyText.C157_zero_refuted",
    "RoughPy.PolyText.C157_zero_coefficient",
    "RoughPy.PolyText.C157_large_refuted"
   ],
   "note": "Reading of texts with terms and indeterminates in any order, reading back of what is shown with at most one indeterminate per term, and the normal form of whatever is read are proved; the rest of the claim is refuted: two indeterminates are not read back, malformed text is not refused, repeated terms are dropped, fractions are not reduced, large coefficients are refused and decimal numbers can end the process."
  },
  {
   "property": "C158",
   "status": "partial",
   "theorems": [
    "RoughPy.Numpy.C158_dense_partial",
    "RoughPy.Numpy.C158_objects_partial",
    "RoughPy.Numpy.C158_sparse_ignored",
    "RoughPy.Numpy.C158_sparse_refuted",
    "RoughPy.Numpy.C158_zero_partial",
    "RoughPy.Numpy.C158_types_refuted",
    "RoughPy.Numpy.C158_unset_refuted",
    "RoughPy.Numpy.C158_padding_refuted",
    "RoughPy.Numpy.C158_sparse_example"
   ],
   "note": "Proved for dense elements with native numbers, for dense elements of full length with fractions or polynomials, and for zero; refuted for every other sparse element (entries are never written), for dense fractions that must be filled up, for types without an array type and for unset elements."
  },
  {
   "property": "C159",
   "status": "partial",
   "theorems": [
    "RoughPy.Tensor.C159_basis_partial",
    "RoughPy.Tensor.C159_between_partial",
    "RoughPy.Tensor.C159_words",
    "RoughPy.Tensor.C159_loop_refuted"
   ],
   "note": "Order, completeness and ranges are proved for bases whose dimension fits in 64 bits; that an iterator is exhausted after a loop is refuted."
  },
  {
   "property": "C160",
   "status": "partial",
   "theorems": [
    "RoughPy.PyOps.C160_tensor_partial",
    "RoughPy.PyOps.C160_lie_partial",
    "RoughPy.PyOps.C160_refuses",
    "RoughPy.PyOps.C160_divide_refuted",
    "RoughPy.PyOps.C160_divide_example",
    "RoughPy.PyOps.C160_scalar_left_refuted",
    "RoughPy.PyOps.C160_fraction_refuted",
    "RoughPy.PyOps.C160_large_refuted",
    "RoughPy.PyOps.C160_in_place_partial",
    "RoughPy.PyOps.C160_identity_refuted",
    "RoughPy.PyOps.C160_scalar_partial",
    "RoughPy.PyOps.C160_scalar_refuted"
   ],
   "note": "Programs with elements, floats, 64-bit ints and scalars compute in the algebra; refuted: dividing by an rp.Scalar multiplies, Scalar * element and Scalar - Scalar and all quotients of scalars raise, fractions and large ints are rounded, in-place operators with plain numbers make a new object."
  },
  {
   "property": "C161",
   "status": "partial",
   "theorems": [
    "RoughPy.Args.C161_tensor_partial",
    "RoughPy.Args.C161_lie_partial",
    "RoughPy.Args.C161_shuffle",
    "RoughPy.Args.C161_none",
    "RoughPy.Args.C161_refuses",
    "RoughPy.Args.C161_zero_refused",
    "RoughPy.Args.C161_nested_refused",
    "RoughPy.Args.C161_keys_refuted",
    "RoughPy.Args.C161_width_refuted",
    "RoughPy.Args.C161_storage_refuted",
    "RoughPy.Args.C161_pair_refuted"
   ],
   "note": "Elements have the sizes, type, storage and coefficients asked for; refuted: the argument keys is ignored, widths found from data with keys are wrong, Lie elements from data with keys are dense by default, a pair written as a tuple is one coefficient. Shuffle tensors: up to the request to the context."
  },
  {
   "property": "C162",
   "status": "partial",
   "theorems": [
    "RoughPy.HostMem.C162_view_partial",
    "RoughPy.HostMem.C162_view_refuses",
    "RoughPy.HostMem.C162_view_refuted",
    "RoughPy.HostMem.C162_write",
    "RoughPy.HostMem.C162_mode_partial",
    "RoughPy.HostMem.C162_mode_refuted",
    "RoughPy.HostMem.C162_allocate_partial",
    "RoughPy.HostMem.C162_allocate_short",
    "RoughPy.HostMem.C162_allocate_null",
    "RoughPy.HostMem.C162_allocate_refuted",
    "RoughPy.HostMem.C162_copy",
    "RoughPy.HostMem.C162_copy_refuses",
    "RoughPy.HostMem.C162_to_partial",
    "RoughPy.HostMem.C162_to_refuted",
    "RoughPy.HostMem.C162_destroy"
   ],
   "note": "Views, writes, copies and destruction for all contents; refuted: allocation swaps size and alignment, so only memory of at most 16 bytes (or the alignment) is sound, views with counts near 2^64 leave the block, views ignore the mode. Other devices are not modelled."
  },
  {
   "property": "C163",
   "status": "partial",
   "theorems": [
    "RoughPy.CacheArr.C163_partial",
    "RoughPy.CacheArr.C163_size_refuted",
    "RoughPy.CacheArr.C163_leak_refuted",
    "RoughPy.CacheArr.C163_free_refuted"
   ],
   "note": "Proved for histories in which sizes only grow beyond the inline buffer, and so for every use in the library, which never changes a size; refuted: resize of an inline array keeps the old size, shrinking leaks the block or gives it back with the wrong size."
  },
  {
   "property": "C164",
   "status": "partial",
   "theorems": [
    "RoughPy.PyOps.C164_scalar_partial",
    "RoughPy.PyOps.C164_element_partial",
    "RoughPy.PyOps.C164_raises_refuted",
    "RoughPy.PyOps.C164_fraction_refuted",
    "RoughPy.PyOps.C164_large_refuted"
   ],
   "note": "Scalars with scalars, floats and 64-bit integers, elements with everything but scalars; refuted: scalars compared with other objects or elements raise, fractions and large integers are rounded first. The comparison of two scalars of different types in C++ is simplified to that of their values."
  },
  {
   "property": "C165",
   "status": "partial",
   "theorems": [
    "RoughPy.ElemIter.C165_iterate_partial",
    "RoughPy.ElemIter.C165_loop_partial",
    "RoughPy.ElemIter.C165_items_refuted",
    "RoughPy.ElemIter.C165_temporary_refuted",
    "RoughPy.ElemIter.C165_no_storage_refuted"
   ],
   "note": "Proved for elements with storage and programs that read an item before its iterator goes on and while the element or an iterator has a name; refuted otherwise: kept items change and then are undefined, items of temporaries are undefined, elements without storage raise."
  },
  {
   "property": "C166",
   "status": "partial",
   "theorems": [
    "RoughPy.Launch.C166_groups_partial",
    "RoughPy.Launch.C166_left_over_partial",
    "RoughPy.Launch.C166_size_partial",
    "RoughPy.Launch.C166_groups_refuted",
    "RoughPy.Launch.C166_left_over_refuted",
    "RoughPy.Launch.C166_mask_refuted"
   ],
   "note": "Total size, directions and number of groups proved where they fit in their types; left-over proved when the work does not fill the groups. Refuted: a full last group counts as left over, numbers of groups are cut to 32 bits, and the mask always has one bit too few or is undefined behaviour."
  },
  {
   "property": "C167",
   "status": "partial",
   "theorems": [
    "RoughPy.TypeName.C167_found_partial",
    "RoughPy.TypeName.C167_other_names_partial",
    "RoughPy.TypeName.C167_float_partial",
    "RoughPy.TypeName.C167_bfloat_refuted",
    "RoughPy.TypeName.C167_wrong_name_refuted",
    "RoughPy.TypeName.C167_undefined_refuted",
    "RoughPy.TypeName.C167_signature_refuted"
   ],
   "note": "Each type but bfloat16 is found by its name; names not beginning with f find only their own type; f and a number of whole bytes below 256 finds only the type of that width. Refuted: bfloat16 is never found, wrong names find types, some names are undefined behaviour, and no string works as the dtype of a signature. Names are ASCII."
  }
 ]
}