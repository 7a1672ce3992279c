{
 "claims": [
  {
   "property": "C01",
   "status": "proved",
   "theorems": [
    "Biggus.C01_full_keys_is_numpy_expansion",
    "Biggus.C01_ellipsis_stands_for_missing_dims",
    "Biggus.C01_full_keys_one_key_per_dimension",
    "Biggus.C01_full_keys_error_iff"
   ],
   "note": "all key tuples with at most one Ellipsis; success/IndexError characterisation for any number of ellipses"
  },
  {
   "property": "C02",
   "status": "proved",
   "theorems": [
    "Biggus.C02_sliced_shape_is_numpy_shape",
    "Biggus.C02_list_key_rejected"
   ],
   "note": "all shapes and keys for which orthogonal indexing is defined, except list keys (rejected by the code)"
  },
  {
   "property": "C03",
   "status": "partial",
   "theorems": [
    "Biggus.C03_repeated_indexing_partial",
    "Biggus.C03_stored_mask_wrong",
    "Biggus.C03_masked_scalar_wrong",
    "Biggus.C03_zero_step_accepted"
   ],
   "note": "any number of indexing steps with any keys except newaxis (C08); a stored boolean mask that is indexed again gives wrong data in the code (proved)"
  },
  {
   "property": "C04",
   "status": "partial",
   "theorems": [
    "Biggus.C04_numpy_adapter_reads_orthogonally_partial",
    "Biggus.C04_ortho_adapter",
    "Biggus.C04_scalar_slice_tuple_transposed",
    "Biggus.C04_exact"
   ],
   "note": "orthogonal sources: all keys. NumPy sources: exact for all int/slice/tuple keys (C04_exact); a scalar and a tuple separated by a slice evaluate transposed in the code (proved)"
  },
  {
   "property": "C05",
   "status": "partial",
   "theorems": [
    "Biggus.C05_out_of_range_is_rejected",
    "Biggus.C05_integer_key",
    "Biggus.C05_integer_after_a_mask",
    "Biggus.C05_integer_where_a_mask_was",
    "Biggus.C05_integer_where_a_mask_was_any_keys",
    "Biggus.C05_mask_violation"
   ],
   "note": "After any keys without a boolean mask: rejected exactly when out of range. The code violates the property for a dimension from which a boolean mask has selected (C05_mask_violation): no integer is accepted there, whatever the other keys; which exception is raised is C05_integer_where_a_mask_was (a mask anywhere among the previous keys). Tuples and masks after a mask are not modelled beyond the failure."
  },
  {
   "property": "C06",
   "status": "partial",
   "theorems": [
    "Biggus.C06_simple_keys",
    "Biggus.C06_index_then_evaluate",
    "Biggus.C06_supported_keys_partial",
    "Biggus.C06_engine_supported_keys_partial",
    "Biggus.C06_engine_agrees",
    "Biggus.C03_masked_scalar_wrong"
   ],
   "note": "every expression of the grammar Spec/Built.lean of any depth, any number of indexing steps with ints, forward slices, newaxis; index arrays/masks under decidable guards; the excluded cases fail in the code (C03, C04, C08, C09, C12, C14 witnesses)"
  },
  {
   "property": "C07",
   "status": "partial",
   "theorems": [
    "Biggus.C07_constant_indexing",
    "Biggus.C07_out_of_range_accepted",
    "Biggus.C07_list_key_rejected",
    "Biggus.C07_exact"
   ],
   "note": "all valid keys; exact for all keys (C07_exact); out-of-range keys are accepted by the code (proved)"
  },
  {
   "property": "C08",
   "status": "partial",
   "theorems": [
    "Biggus.C08_new_axes_array",
    "Biggus.C08_newaxis_keys",
    "Biggus.C08_new_axis_after_integer_wrong",
    "Biggus.C08_exact",
    "Biggus.C08_right_iff",
    "Biggus.C08_wrong_axis_cut"
   ],
   "note": "newaxis keys among ints and slices are right everywhere; with a slice or tuple that selects a number other than 1 of an existing new axis the code is right exactly when no integer key comes before it (C08_right_iff); what it does otherwise is C08_exact (the wrong axis is stretched, or ValueError)"
  },
  {
   "property": "C09",
   "status": "partial",
   "theorems": [
    "Biggus.C09_broadcast_repeats_data",
    "Biggus.C09_invalid_broadcast_rejected",
    "Biggus.C09_nested_leading_misaligned",
    "Biggus.C09_leading_out_of_range_accepted",
    "Biggus.C09_nested_exact",
    "Biggus.C09_more_leading",
    "Biggus.C09_keys_refused"
   ],
   "note": "broadcasts of broadcasts with leading dimensions are misaligned by the code (proved)"
  },
  {
   "property": "C10",
   "status": "partial",
   "theorems": [
    "Biggus.C10_broadcast_arrays_partial",
    "Biggus.C10_broadcast_arrays_symmetric",
    "Biggus.C10_empty_leading_dimension_rejected",
    "Biggus.C10_leading_broadcast_rejected",
    "Biggus.C10_exact",
    "Biggus.C10_leading_broadcast_misaligned"
   ],
   "note": "leading dimensions of length 0 and operands that already have leading broadcast dimensions are rejected by the code (proved)"
  },
  {
   "property": "C11",
   "status": "partial",
   "theorems": [
    "Biggus.C11_transpose",
    "Biggus.C11_transpose_inverse",
    "Biggus.C11_transposed_indexing",
    "Biggus.C11_non_permutation_accepted",
    "Biggus.C11_transposed_index_arrays",
    "Biggus.C11_numpy_source_transposed"
   ],
   "note": "every permutation; simple keys, and index arrays over orthogonal sources, in any number of steps; axes that are not a permutation are accepted by the code (proved); other index arrays: C06_supported_keys_partial"
  },
  {
   "property": "C12",
   "status": "partial",
   "theorems": [
    "Biggus.C12_array_stack",
    "Biggus.C12_stack_indexing",
    "Biggus.C12_exact",
    "Biggus.C12_two_index_arrays_fail"
   ],
   "note": "C12_exact says what the code does for every list of keys on the stack dimensions: right if something is selected and there is at most one index array, not separated by a slice from an integer; IndexError for an empty selection and for two or more index arrays; otherwise the dimension of the index array in front or IndexError. The last three cases contradict the property (proved)."
  },
  {
   "property": "C13",
   "status": "proved",
   "theorems": [
    "Biggus.C13_multidim_array_stack",
    "Biggus.C13_size_mismatch"
   ],
   "note": "every list of arrays, every stack shape, both orders"
  },
  {
   "property": "C14",
   "status": "partial",
   "theorems": [
    "Biggus.C14_linear_mosaic",
    "Biggus.C14_mosaic_indexing_partial",
    "Biggus.C14_mosaic_index_arrays_partial",
    "Biggus.C14_negative_integer_wrong",
    "Biggus.C14_negative_step_wrong",
    "Biggus.C14_empty_slice_and_mask_fail",
    "Biggus.C14_numpy_tiles_fail",
    "Biggus.C14_slice_exact",
    "Biggus.C14_negative_integer_exact",
    "Biggus.C14_negative_integer_raises",
    "Biggus.C14_broadcast_tiles_fail",
    "Biggus.C14_empty_mosaic_fails",
    "Biggus.C14_negative_index_in_tuple_wrong"
   ],
   "note": "non-negative ints, forward non-empty slices, index tuples; exact behaviour for every slice (C14_slice_exact) and every negative int (C14_negative_integer_exact/raises): right iff one tile is touched / the other tiles are empty; boolean masks raise (proved)"
  },
  {
   "property": "C15",
   "status": "partial",
   "theorems": [
    "Biggus.C15_astype",
    "Biggus.C15_astype_indexing",
    "Biggus.C15_mask_indexing",
    "Biggus.C15_chained_astype_casts_once",
    "Biggus.C15_exact"
   ],
   "note": "exact: only the last of a chain of casts takes effect (C15_exact), so chained astype casts only once in the code (proved)"
  },
  {
   "property": "C16",
   "status": "proved",
   "theorems": [
    "Biggus.C16_cuts_tile_each_dimension",
    "Biggus.C16_each_element_in_exactly_one_chunk",
    "Biggus.C16_chunk_elements_are_array_elements"
   ],
   "note": "every shape, limit, iteration order"
  },
  {
   "property": "C17",
   "status": "proved",
   "theorems": [
    "Biggus.C17_chunk_size_limit",
    "Biggus.C17_save_chunk_size_limit",
    "Biggus.C17_small_array_single_chunk"
   ],
   "note": "every shape, limit >= 1, iteration order"
  },
  {
   "property": "C18",
   "status": "proved",
   "theorems": [
    "Biggus.C18_chunks_are_the_product_each_once",
    "Biggus.C18_traversal_follows_iteration_order"
   ],
   "note": "every shape, limit and permutation"
  },
  {
   "property": "C19",
   "status": "partial",
   "theorems": [
    "Biggus.C19_save",
    "Biggus.C19_save_writes_every_element_once",
    "Biggus.C32_save_reads_once_partial",
    "Biggus.C32_save_ortho_reads_once"
   ],
   "note": "every expression of the grammar Spec/Built.lean: each target element assigned exactly once with the source's element; that each source element is read only once is C32"
  },
  {
   "property": "C20",
   "status": "proved",
   "theorems": [
    "Biggus.C20_sum_of_any_chunking",
    "Biggus.C20_count_of_any_chunking",
    "Biggus.C20_mean_of_any_chunking",
    "Biggus.C20_chunking_independence",
    "Biggus.C20_count_sum_mean_arrays"
   ],
   "note": "exact arithmetic; every column and every cutting of it"
  },
  {
   "property": "C21",
   "status": "partial",
   "theorems": [
    "Biggus.C21_masked_count",
    "Biggus.C21_masked_sum_partial",
    "Biggus.C21_nomask_sum_raises",
    "Biggus.C21_masked_mean",
    "Biggus.C21_C23_masked_arrays"
   ],
   "note": "masked data without a mask array (nomask): sum over an axis other than 0 raises (proved)"
  },
  {
   "property": "C22",
   "status": "partial",
   "theorems": [
    "Biggus.C22_single_chunk_partial",
    "Biggus.C22_min_right_iff",
    "Biggus.C22_min_is_min_of_last_chunk",
    "Biggus.C22_max_is_max_of_last_chunk",
    "Biggus.C22_min_wrong_for_two_chunks",
    "Biggus.C22_masked_min_is_min_of_last_chunk",
    "Biggus.C22_masked_max_is_max_of_last_chunk",
    "Biggus.C22_masked_min_lost",
    "Biggus.C22_C23_one_chunk_arrays_partial",
    "Biggus.C22_masked_one_chunk_arrays_partial",
    "Biggus.C22_min_array_wrong",
    "Biggus.C22_exact_arrays",
    "Biggus.C22_masked_exact_arrays",
    "Biggus.C22_sources_iff"
   ],
   "note": "the property is false of the code if the axis is cut: the handlers overwrite their result. Proved: right for every expression of the grammar if the axis is not cut (other dimensions may be), exactly what is returned otherwise (the minimum of the last piece, enginePieces), and that for sources these are the only shapes and limits for which it is right whatever the data (C22_sources_iff)"
  },
  {
   "property": "C23",
   "status": "partial",
   "theorems": [
    "Biggus.C23_std_var_partial",
    "Biggus.C23_var_value_partial",
    "Biggus.C23_std_drops_leading_singletons",
    "Biggus.C23_std_wrong_for_singleton_first_chunk",
    "Biggus.C23_masked_std",
    "Biggus.C23_masked_var",
    "Biggus.C21_C23_masked_arrays",
    "Biggus.C22_C23_one_chunk_arrays_partial",
    "Biggus.C23_two_values_arrays_partial",
    "Biggus.C23_exact_arrays",
    "Biggus.C23_sources_iff"
   ],
   "note": "masked: every chunking. unmasked: right for every expression of the grammar if chunks have room for two values of a column; false of the code if the pieces are of one value: exactly what is returned is proved (C23_exact_arrays, stdValues), and for sources exactly for which shapes and limits it is right whatever the data (C23_sources_iff)"
  },
  {
   "property": "C24",
   "status": "partial",
   "theorems": [
    "Biggus.C24_elementwise",
    "Biggus.C24_indexed",
    "Biggus.C24_elementwise_unary",
    "Biggus.C24_no_masked_operation",
    "Biggus.C24_mismatched_chunks_wrong"
   ],
   "note": "ndarray() / masked_array(), also after any history of simple keys: proved whatever chunks the operands are read in. The streaming engine (ndarrays([...])): operands chunked alike, or each in one chunk; operands chunked differently give wrong data in the code (C24_mismatched_chunks_wrong)."
  },
  {
   "property": "C25",
   "status": "proved",
   "theorems": [
    "Biggus.C25_schedule_independent",
    "Biggus.C25_same_outcome"
   ],
   "note": "every graph of nodes, every schedule, every queue size and wiring order"
  },
  {
   "property": "C26",
   "status": "partial",
   "theorems": [
    "Biggus.C26_terminated_is_sequential",
    "Biggus.C26_result_is_sequential",
    "Biggus.C26_failure_propagates",
    "Biggus.C26_C27_tree_results",
    "Biggus.C26_group",
    "Biggus.C26_aborts_iff",
    "Biggus.C26_failure_overlooked"
   ],
   "note": "exact: a node that does not itself raise aborts iff a source fails and no source of the node ends earlier; false of the code when an operand sends fewer chunks than fail-free ones: the failure is overlooked and a result returned (proved)"
  },
  {
   "property": "C27",
   "status": "partial",
   "theorems": [
    "Biggus.C27_tree_terminates",
    "Biggus.C27_clocked_terminates",
    "Biggus.C27_failure_with_shared_source_hangs",
    "Biggus.C27_different_paces_deadlock",
    "Biggus.C27_small_terminates",
    "Biggus.C27_group_tree",
    "Biggus.C27_conflicting_orders_hang"
   ],
   "note": "false in the code for shared sources when a node fails or the nodes proceed at different paces (proved)"
  },
  {
   "property": "C28",
   "status": "partial",
   "theorems": [
    "Biggus.C28_together_as_alone",
    "Biggus.C28_one_chunk",
    "Biggus.C28_values",
    "Biggus.C28_values_one_chunk",
    "Biggus.C28_conflicting_orders_wrong"
   ],
   "note": "holds when no object is asked for in two different iteration orders, or when every array fits one chunk; false in the code otherwise (proved)"
  },
  {
   "property": "C29",
   "status": "proved",
   "theorems": [
    "Biggus.C29_nested_aggregations",
    "Biggus.C29_chunks_of_one_output_region_contiguous"
   ],
   "note": "every shape, limit, axis, order and nesting depth (aggregations and element-wise operations in between, whose operands are cut alike), whatever the data: contiguity, one chunk per output region, exact tiling"
  },
  {
   "property": "C30",
   "status": "partial",
   "theorems": [
    "Biggus.C30_aggregation_indexing",
    "Biggus.C30_aggregation_supported_keys_partial",
    "Biggus.C30_aggregation_index_arrays",
    "Biggus.C30_stack_source_fails",
    "Biggus.C30_min_differs"
   ],
   "note": "simple keys, and index arrays over orthogonal sources: every history; other index arrays: in one step under the source's guards. The property fails of the code for stacks indexed with two tuples and for min/max cut into several chunks (witnesses)"
  },
  {
   "property": "C31",
   "status": "partial",
   "theorems": [
    "Biggus.C31_single_axis",
    "Biggus.C31_not_one_axis",
    "Biggus.C31_invalid_axes",
    "Biggus.C31_min_max_sum_assert",
    "Biggus.C31_one_shot_iterator_refused"
   ],
   "note": "For every function, array and axis argument: a valid single axis is accepted and normalised; None and tuples of several axes are rejected. False in the code for min/max/sum, which raise AssertionError instead of the documented error, and for one-shot iterators; both are proved as counterexamples."
  },
  {
   "property": "C32",
   "status": "partial",
   "theorems": [
    "Biggus.C32_indexing_reads_nothing",
    "Biggus.C32_building_reads_nothing",
    "Biggus.C32_reads_once_partial",
    "Biggus.C32_engine_reads_once_partial",
    "Biggus.C32_ortho_reads_once",
    "Biggus.C32_no_element_twice",
    "Biggus.C32_indexed_reads",
    "Biggus.C32_broadcast_reads_again",
    "Biggus.C32_numpy_slice_reads_too_much",
    "Biggus.C32_save_reads_once_partial",
    "Biggus.C32_save_ortho_reads_once",
    "Biggus.C32_save_numpy_aggregation_reads_too_much"
   ],
   "note": "Building and indexing read nothing (all expressions, all keys). Evaluation and the engine read each needed source element exactly once and nothing else, for every chunk limit and every thrifty expression of the grammar, in particular all expressions over orthogonal sources without broadcasting. Missing because false of the code: broadcasts that are chunked read their array once per chunk, NumPy sources indexed in two dimensions and then chunked read the whole source for every chunk (both witnessed). save(): same, for saveThrifty expressions."
  },
  {
   "property": "C33",
   "status": "partial",
   "theorems": [
    "Biggus.C33_nbytes_partial",
    "Biggus.C33_nbytes_overflow",
    "Biggus.C33_size"
   ],
   "note": "size() picks the right unit for every nbytes; nbytes equals the product while it fits in int64. np.product wraps at 2^63: proved as a counterexample (C33_nbytes_overflow)."
  },
  {
   "property": "C34",
   "status": "proved",
   "theorems": [
    "Biggus.C34_stack_fill_value",
    "Biggus.C34_mosaic_fill_value",
    "Biggus.C34_containers_forget"
   ],
   "note": "for every stack and mosaic the constructors accept; NumPy's == on fill values is assumed symmetric, transitive and false on NaN. A mosaic of a single tile keeps that tile's fill value (also a complex NaN, which does not equal itself). Witness: new axes/broadcasts do not forward the fill value."
  },
  {
   "property": "C35",
   "status": "partial",
   "theorems": [
    "Biggus.C35_newaxes",
    "Biggus.C35_broadcast",
    "Biggus.C35_transposed_partial",
    "Biggus.C35_stack",
    "Biggus.C35_mosaic",
    "Biggus.C35_transposed_accepts_non_permutation",
    "Biggus.C35_empty_stack",
    "Biggus.C35_mosaic_index_error",
    "Biggus.C35_broadcast_twice_accepted"
   ],
   "note": "accepted-iff-consistent with ValueError otherwise, well-formedness and shape of what is accepted (its evaluation: C08, C09, C11, C12, C14). False of the code and shown so: TransposedArray accepts non-permutations; an empty stack/mosaic or a tile of too low rank raises IndexError; re-stretching a stretched axis is accepted."
  },
  {
   "property": "C36",
   "status": "proved",
   "theorems": [
    "Biggus.C36_groups",
    "Biggus.C36_succeeds",
    "Biggus.C36_gives_up",
    "Biggus.C36_example",
    "Biggus.C36_alike"
   ],
   "note": "Dimensions of positive length. C36_gives_up shows that the iteration limit is reached by legitimate inputs of more than 9999 slices."
  },
  {
   "property": "C37",
   "status": "proved",
   "theorems": [
    "Biggus.C37_group_keys",
    "Biggus.C37_succeeds",
    "Biggus.C37_each_key_once",
    "Biggus.C37_same_list_twice",
    "Biggus.C37_example"
   ],
   "note": "Arrays without zero-length dimensions. C37_same_list_twice shows why the lists must be separate objects: group_keys removes keys from its arguments."
  },
  {
   "property": "C38",
   "status": "partial",
   "theorems": [
    "Biggus.C38_dask_is_threaded_partial",
    "Biggus.C38_dask_terminates",
    "Biggus.C38_mismatched_chunks_fail",
    "Biggus.C38_many_chunks_fail"
   ],
   "note": "The graph that DaskGroup builds (chunk tasks, key grouping, handler tasks, collect tasks, node cache by object identity), executed in any order: for all lists of arrays (sharing objects in any way, any iteration orders, any chunk limit, plain or masked) for which evaluation is claimed right, every execution ends and returns what the threaded engine returns for each array alone. Missing because false of the code: operands cut in different chunks (AttributeError, witnessed), 10000 or more chunks along a dimension (RuntimeError, proved for every such vector); so the theorem asks for at most 9999 parts along each dimension of an operation, which is sharp."
  },
  {
   "property": "C39",
   "status": "partial",
   "theorems": [
    "Biggus.C39_indexing_keeps_dtype",
    "Biggus.C39_stack_checks_dtypes",
    "Biggus.C39_mosaic_checks_dtypes",
    "Biggus.C39_evaluated_dtype_partial",
    "Biggus.C39_elementwise_dtype",
    "Biggus.C39_masked_scalar_wrong",
    "Biggus.C39_python_number_wrong",
    "Biggus.C39_aggregation_dtype"
   ],
   "note": "dtype stable under any successful indexing of any expression; evaluated dtype equals declared dtype. False of the code and shown so: a single masked element evaluates to float64; an operand given as a Python number."
  },
  {
   "property": "C40",
   "status": "partial",
   "theorems": [
    "Biggus.C40_unsupported_operand",
    "Biggus.C40_operators",
    "Biggus.C40_rejected_operands",
    "Biggus.C40_declines",
    "Biggus.C40_numpy_left",
    "Biggus.C40_numpy_left_eager",
    "Biggus.C40_numpy_left_loses_mask",
    "Biggus.C40_priority"
   ],
   "note": "Operator dispatch through Python's reflected protocol for Built operands and NumPy/scalar right operands. NumPy arrays on the left: NumPy's dispatch by __array_priority__ is modelled, result right whether lazy or computed at once; masked data on the right loses its mask when computed at once: false of the code (proved)."
  },
  {
   "property": "C41",
   "status": "proved",
   "theorems": [
    "Biggus.C06_index_then_evaluate",
    "Biggus.C06_simple_keys"
   ],
   "note": "Grammar Arr.Built, histories of simple keys"
  },
  {
   "property": "C42",
   "status": "proved",
   "theorems": [
    "Biggus.C42_engine_is_direct"
   ],
   "note": "Arrays that the engine may cut; every chunk limit"
  },
  {
   "property": "C43",
   "status": "proved",
   "theorems": [
    "Biggus.C43_limit_irrelevant"
   ],
   "note": "Any two limits for which the expression is in the grammar (count, sum, mean and all masked ones but min/max: any limit)"
  },
  {
   "property": "C44",
   "status": "proved",
   "theorems": [
    "Biggus.C44_slices_are_snapshots",
    "Biggus.C44_snapshot",
    "Biggus.C44_broadcast_shares"
   ],
   "note": "Heap of stack objects and object arrays, expressions of every class over them; the later program may construct, index, copy and assign. C44_snapshot: any keys, same exception as for immutable expressions. The exception for stacks inside a BroadcastArray is necessary: C44_broadcast_shares."
  },
  {
   "property": "C45",
   "status": "proved",
   "theorems": [
    "Biggus.C45_assignment",
    "Biggus.C45_shape_not_checked",
    "Biggus.C45_object_array_shared",
    "Biggus.C45_self_assignment",
    "Biggus.C45_accepts"
   ],
   "note": "The hypotheses (item shape, value does not contain the stack, no other stack shares the object array) are necessary: proved witnesses"
  },
  {
   "property": "C46",
   "status": "proved",
   "theorems": [
    "Biggus.C46_deepcopy"
   ],
   "note": "Equal evaluation, and independence of every later program in both directions"
  },
  {
   "property": "C47",
   "status": "proved",
   "theorems": [
    "Biggus.C23_masked_std",
    "Biggus.C23_masked_var",
    "Biggus.C21_C23_masked_arrays"
   ],
   "note": "Column level for any chunking; arrays: any expression of the grammar; exact arithmetic"
  },
  {
   "property": "C48",
   "status": "proved",
   "theorems": [
    "Biggus.C21_masked_count",
    "Biggus.C21_masked_mean",
    "Biggus.C21_C23_masked_arrays"
   ],
   "note": "Column level for any chunking; arrays: any expression of the grammar; exact arithmetic"
  },
  {
   "property": "C49",
   "status": "proved",
   "theorems": [
    "Biggus.C49_one_chunk_aggregations",
    "Biggus.C49_masked_one_chunk_aggregations"
   ],
   "note": "All seven aggregations, plain and masked"
  },
  {
   "property": "C50",
   "status": "proved",
   "theorems": [
    "Biggus.C39_indexing_keeps_dtype"
   ],
   "note": "DtypeOk: what the constructors check"
  },
  {
   "property": "C51",
   "status": "proved",
   "theorems": [
    "Biggus.C32_indexing_reads_nothing",
    "Biggus.C32_building_reads_nothing"
   ],
   "note": "Instrumented model"
  },
  {
   "property": "C52",
   "status": "proved",
   "theorems": [
    "Biggus.C32_ortho_reads_once",
    "Biggus.C32_no_element_twice",
    "Biggus.C32_save_ortho_reads_once"
   ],
   "note": "Instrumented model; every chunk limit"
  },
  {
   "property": "C53",
   "status": "proved",
   "theorems": [
    "Biggus.C19_save",
    "Biggus.C19_save_writes_every_element_once"
   ],
   "note": "Grammar; every chunk limit"
  },
  {
   "property": "C54",
   "status": "proved",
   "theorems": [
    "Biggus.C33_size"
   ],
   "note": "Every number of bytes"
  },
  {
   "property": "C55",
   "status": "proved",
   "theorems": [
    "Biggus.C27_group_tree",
    "Biggus.C27_tree_terminates",
    "Biggus.C26_C27_tree_results"
   ],
   "note": "Transition system of threads and bounded queues; every schedule, any point of failure"
  },
  {
   "property": "C56",
   "status": "proved",
   "theorems": [
    "Biggus.C28_values",
    "Biggus.C28_together_as_alone"
   ],
   "note": "Compatible: one order per object; samePace: operands are streamed in the same way"
  },
  {
   "property": "C57",
   "status": "proved",
   "theorems": [
    "Biggus.C11_transpose",
    "Biggus.C11_transpose_inverse",
    "Biggus.C11_transposed_indexing"
   ],
   "note": "Genuine permutations, histories of simple keys"
  },
  {
   "property": "C58",
   "status": "proved",
   "theorems": [
    "Biggus.C12_array_stack",
    "Biggus.C14_linear_mosaic",
    "Biggus.C13_multidim_array_stack"
   ],
   "note": "Every shape, axis and nesting; indexing: see C12, C14"
  },
  {
   "property": "C59",
   "status": "proved",
   "theorems": [
    "Biggus.C08_new_axes_array",
    "Biggus.C09_broadcast_repeats_data",
    "Biggus.C09_invalid_broadcast_rejected"
   ],
   "note": "Broadcasts of broadcasts without leading dimensions included"
  },
  {
   "property": "C60",
   "status": "proved",
   "theorems": [
    "Biggus.C60_ortho_history",
    "Biggus.C04_ortho_adapter"
   ],
   "note": "Any history of keys without newaxis; result with at least one dimension, or a source that is not masked"
  },
  {
   "property": "C61",
   "status": "proved",
   "theorems": [
    "Biggus.C26_terminated_is_sequential",
    "Biggus.C26_result_is_sequential"
   ],
   "note": "Every graph of nodes, every reachable state"
  },
  {
   "property": "C62",
   "status": "proved",
   "theorems": [
    "Biggus.C40_operators",
    "Biggus.C40_declines",
    "Biggus.C40_unsupported_operand",
    "Biggus.C40_rejected_operands"
   ],
   "note": "Finite table of operators, arbitrary operands"
  },
  {
   "property": "C63",
   "status": "proved",
   "theorems": [
    "Biggus.C35_newaxes",
    "Biggus.C35_stack",
    "Biggus.C35_mosaic"
   ],
   "note": "Accepted iff consistent, ValueError otherwise; shape and well-formedness of what is accepted"
  },
  {
   "property": "C64",
   "status": "proved",
   "theorems": [
    "Biggus.C64_interrupted_save",
    "Biggus.C64_no_garbage"
   ],
   "note": "Every expression of the grammar, every number of pieces done, every failing read; the write of one piece is one step (target arrays in memory)."
  },
  {
   "property": "C65",
   "status": "proved",
   "theorems": [
    "Biggus.C65_deepcopy_keeps_sharing",
    "Biggus.C65_object_array_unshared"
   ],
   "note": "Sharing of stacks is kept; the sharing of one object array by two stacks is not (proved witness, outside the statement)."
  },
  {
   "property": "C66",
   "status": "proved",
   "theorems": [
    "Biggus.C66_index_arrays",
    "Biggus.C66_index_arrays_engine",
    "Biggus.C66_repeats",
    "Biggus.C66_repeats_engine"
   ],
   "note": "Grammar Spec/Built.lean with orthogonal sources, histories of PickKeys (Spec/Clean.lean); repeated and negative indices when no aggregation inside depends on the chunking (C66_repeats: min, max and unmasked std give other answers on more than one chunk, C20, C22, C23). NumPy sources mix integers and index arrays wrongly (C04)."
  },
  {
   "property": "C67",
   "status": "partial",
   "theorems": [
    "Biggus.C67_sum",
    "Biggus.C67_mean",
    "Biggus.C67_masked_sum",
    "Biggus.C67_masked_mean",
    "Biggus.C67_masked_mean_exact",
    "Biggus.C67_arrays",
    "Biggus.C67_masked_arrays",
    "Biggus.C67_mean_overflows",
    "Biggus.C67_masked_mean_overflows",
    "Biggus.C67_unsigned_masked_mean_raises"
   ],
   "note": "sum: exact for every dtype, data and chunking. mean: right exactly when the exact sum is a value of the dtype of the data (the code accumulates in that dtype); masked mean also needs the number of elements to fit. False of the code beyond (witnessed: the int8 mean of 100, 100 is -28; 256 int8 values have a masked mean; unsigned masked means raise TypeError)"
  },
  {
   "property": "C68",
   "status": "partial",
   "theorems": [
    "Biggus.C68_count",
    "Biggus.C68_masked_count",
    "Biggus.C68_arrays",
    "Biggus.C68_masked_arrays",
    "Biggus.C68_count_overflows"
   ],
   "note": "exact characterisation: the value int32 holds, right iff fewer than 2^31 elements; beyond that the code is wrong (proved)"
  },
  {
   "property": "C69",
   "status": "partial",
   "theorems": [
    "Biggus.C69_plain_exact",
    "Biggus.C69_masked_exact",
    "Biggus.C69_refused"
   ],
   "note": "Exact characterisation for every chunking, dtype kind and aggregation: which ones raise TypeError and that all the others give the value of C20-C23. The property itself fails: sum and mean of booleans, the masked mean of unsigned integers and the masked mean of a one-dimensional integer array with an all-masked chunk raise TypeError (C69_refused)."
  },
  {
   "property": "C70",
   "status": "proved",
   "theorems": [
    "Biggus.C70_every_schedule",
    "Biggus.C70_group_every_schedule",
    "Biggus.C70_save_every_schedule",
    "Biggus.C70_conflicting_orders_wrong"
   ],
   "note": "Every engine call, nested ones included, may have any complete execution of its threads (relation Arr.Runs; executions exist and all of them return the array). The restriction on what the objects of one call share is necessary: C70_conflicting_orders_wrong."
  },
  {
   "property": "C71",
   "status": "proved",
   "theorems": [
    "Biggus.C71_in_place",
    "Biggus.C71_in_place_masked",
    "Biggus.C71_one_chunk",
    "Biggus.C71_other_elements_wrong"
   ],
   "note": "The loop of save with every block read from the current content of the target. The restriction to pointwise expressions (or one chunk) is necessary: C71_other_elements_wrong."
  },
  {
   "property": "C72",
   "status": "proved",
   "theorems": [
    "Biggus.C72_evaluation",
    "Biggus.C72_built_from_current_parts",
    "Biggus.C72_mosaic_of_current_tiles",
    "Biggus.C72_elementwise",
    "Biggus.C72_elementwise_unary",
    "Biggus.C72_aggregations",
    "Biggus.C72_masked_aggregations"
   ],
   "note": "Expressions of every class over mutable stacks; value corollaries for element-wise operations and aggregations with the guards of C24, C20, C21"
  },
  {
   "property": "C73",
   "status": "proved",
   "theorems": [
    "Biggus.C73_shape_never_changes"
   ],
   "note": "Every class, every later program"
  },
  {
   "property": "C74",
   "status": "partial",
   "theorems": [
    "Biggus.C74_graph",
    "Biggus.C74_bounded_memory",
    "Biggus.C74_empty_axis_unbounded"
   ],
   "note": "Proved for every schedule and every number of steps: at most MAX_CHUNK_SIZE x (6 x number of array occurrences + 2 x number of results) elements are in flight. Restriction: no aggregation along an axis of length 0, because the code violates the bound there (C74_empty_axis_unbounded: an array without elements is one chunk whatever its shape). Not counted: the final results, the memory needed while a chunk of a source is read (including nested engine evaluations), and Python local variables that keep the previous chunk alive."
  },
  {
   "property": "C75",
   "status": "partial",
   "theorems": [
    "Biggus.C75_out_of_range_rejected",
    "Biggus.C75_built",
    "Biggus.C07_out_of_range_accepted",
    "Biggus.C76_leading_never_ends",
    "Biggus.C75_mosaic",
    "Biggus.C75_mosaic_of_sources",
    "Biggus.C75_whatever_the_other_keys",
    "Biggus.C75_empty_mosaic"
   ],
   "note": "Proved for every well-formed expression of every class and every dimension that is checked (Arr.checks, a small recursive specification): sources, stacks, mosaics (up to the mosaic axis), new and stretched axes, and everything built on them. The code violates it for ConstantArray dimensions (C07_out_of_range_accepted, C76_constant_never_ends) and leading dimensions of broadcasts (C76_leading_never_ends). For dimensions of a mosaic after its axis: IndexError if the tiles are made of sources by casts, transposition, aggregation and element-wise operations (C75_mosaic); for other mosaics only that the index is never accepted is proved (C78_never_accepted), not the kind of exception. A mosaic without elements along its axis rejects integers in range too (C75_empty_mosaic). Beside other keys: C75_whatever_the_other_keys, for dimensions of sources."
  },
  {
   "property": "C76",
   "status": "partial",
   "theorems": [
    "Biggus.C76_iteration",
    "Biggus.C76_nested_loops",
    "Biggus.C76_elements",
    "Biggus.C76_constant_never_ends",
    "Biggus.C76_leading_never_ends",
    "Biggus.C76_zero_dim_empty",
    "Biggus.C76_mask_then_iterate_raises"
   ],
   "note": "Proved for every expression of the grammar Arr.Built whose first dimension is checked, for any length; nested loops to any depth (C76_nested_loops, C76_elements: the elements in row-major order) for expressions without constants, leading broadcast dimensions and inner mosaics, except in the second operand of an operation (Arr.deep). The code violates it for constants and leading broadcast dimensions (iteration never ends), 0-dimensional arrays (iterating gives nothing instead of raising TypeError), and sources indexed with a boolean array (TypeError)."
  },
  {
   "property": "C77",
   "status": "partial",
   "theorems": [
    "Biggus.C77_unmasked_values_agree",
    "Biggus.C77_without_masks_equal",
    "Biggus.C77_indexed_and_streamed",
    "Biggus.C77_aggregated_masked_differs"
   ],
   "note": "Proved for every expression of the grammar (every class, aggregation, element-wise operation, dtype cast, declared missing value), every history of simple keys, and the streaming engine, provided only data without masked elements is aggregated; and, if nothing masks anything, the masked result has no masked element. The code violates it for aggregations of masked data, where ndarray() aggregates the fill values (C77_aggregated_masked_differs). Masked arrays are modelled with a full mask array: the masked sum of data held without one along an axis other than 0 raises (C21_nomask_sum_raises)."
  },
  {
   "property": "C78",
   "status": "partial",
   "theorems": [
    "Biggus.C78_never_accepted",
    "Biggus.C78_built",
    "Biggus.C78_too_many_keys",
    "Biggus.C78_mosaic_sequence_accepted",
    "Biggus.C07_out_of_range_accepted",
    "Biggus.C76_leading_never_ends"
   ],
   "note": "Proved for every well-formed expression of every class, every key tuple and every dimension except those where the code violates it: dimensions of a ConstantArray (C07_out_of_range_accepted), leading dimensions of a broadcast (C76_leading_never_ends) and, for sequences only, the axis of a mosaic (C78_mosaic_sequence_accepted). Which exception is raised is claimed only by C75 (a single integer) and for too many keys."
  },
  {
   "property": "C79",
   "status": "partial",
   "theorems": [
    "Biggus.C79_sum",
    "Biggus.C79_mean",
    "Biggus.C79_count",
    "Biggus.C79_min_max_of_last_chunk",
    "Biggus.C79_std_finite",
    "Biggus.C79_std_nan",
    "Biggus.C79_std_not_finite",
    "Biggus.C79_std_inf_exact",
    "Biggus.C79_std_wrong",
    "Biggus.C79_count_sum_mean_arrays",
    "Biggus.C79_one_chunk_arrays",
    "Biggus.C79_masked_sum",
    "Biggus.C79_masked_mean",
    "Biggus.C79_masked_count",
    "Biggus.C79_masked_std",
    "Biggus.C79_masked_std_wrong",
    "Biggus.C79_masked_arrays",
    "Biggus.C79_masked_min_max_one_chunk",
    "Biggus.C79_masked_equal",
    "Biggus.C79_masked_std_finite"
   ],
   "note": "Proved: sum, mean and count of every column for every chunking, masked or not, and of every expression of the grammar evaluated directly or by the engine; min and max of one chunk; std and var: finite data (with division by zero as in NumPy), data with a NaN (NaN), data with an infinity (never finite; exactly when NaN); masked std and var for every chunking with at least two unmasked values or only finite ones (numpy.ma masks results that are not finite). The code violates the claim for std/var of data with an infinity and of a single non-finite value (C79_std_wrong, C79_masked_std_wrong), and for several chunks as in C22/C23. Not modelled: rounding, signed zeros. numpy.ma is modelled with a full mask array."
  },
  {
   "property": "C80",
   "status": "proved",
   "theorems": [
    "Biggus.C80_sum_order",
    "Biggus.C80_sum_error",
    "Biggus.C80_sum_exact",
    "Biggus.C80_mean_error",
    "Biggus.C80_mean_error_long",
    "Biggus.C80_masked_sum",
    "Biggus.C80_masked_mean",
    "Biggus.C80_masked_mean_long",
    "Biggus.C80_arrays",
    "Biggus.C80_masked_arrays",
    "Biggus.C80_masked_mean_arrays_long",
    "Biggus.C80_chunks_matter",
    "Biggus.C80_masked_count_rounds"
   ],
   "note": "sum and mean, unmasked and masked, for every chunking, order of additions and rounding function with relative error u (instance: binary numbers of p digits, binary_rounding); arrays: every expression of the grammar. The counts are rounded as in the code (divided by the rounded length; masked means keep a running count in the dtype of the array, C80_masked_count_rounds shows it stop). The masked theorem for long axes is for mdtol >= 1 (the default). Overflow and underflow are left out"
  },
  {
   "property": "C81",
   "status": "proved",
   "theorems": [
    "Biggus.C81_std",
    "Biggus.C81_masked_std",
    "Biggus.C81_arrays",
    "Biggus.C81_two_values_arrays",
    "Biggus.C81_masked_arrays"
   ],
   "note": "C81_two_values_arrays: unmasked, whenever a chunk has room for two values of the axis; C81_arrays without that condition, where leading chunks of one value are forgotten (the bug of C23, stated exactly by stdValues). Masked: every chunking. ddof = 0 for masked arrays (C81_masked_std: any ddof below the number of values, exact counts if ddof > 1). Overflow and underflow are left out"
  },
  {
   "property": "C82",
   "status": "proved",
   "theorems": [
    "Biggus.C82_std",
    "Biggus.C82_masked_std",
    "Biggus.C82_two_values_arrays",
    "Biggus.C82_masked_arrays"
   ],
   "note": "Forward error bound with explicit constants for every rounding function, length and chunking (unmasked: chunks with room for two values of the axis; C82_std without that condition for the values that are not forgotten). Hypothesis: the counts are representable (in double precision: fewer than 2^53 values, binary_counts). Overflow and underflow are left out. pow_small turns the bound into 2(8n+4)u. Instance: 1000 doubles in [-1, 1], error below 1e-11"
  },
  {
   "property": "C83",
   "status": "proved",
   "theorems": [
    "Biggus.C83_interrupted_in_place",
    "Biggus.C83_interrupted_in_place_masked"
   ],
   "note": "every pointwise expression of the target, every crash point and every failing read; C83_repeated_is_wrong shows that such a save must not simply be repeated"
  },
  {
   "property": "C84",
   "status": "partial",
   "theorems": [
    "Biggus.C84_indexing_keeps_fill_partial",
    "Biggus.C84_evaluated_fill_partial",
    "Biggus.C84_views_of_default",
    "Biggus.C84_views_wrong",
    "Biggus.C84_engine_forgets",
    "Biggus.C84_mixed_stack_changes"
   ],
   "note": "indexing: every expression with one fill value throughout, any history without newaxis; masked_array(): every class that is not a view, cast or masking, and views of arrays with the default fill value. False of the code otherwise (witnessed): views, astype and masked_equal of an array with its own fill value, the engine, stacks of parts with different fill values"
  },
  {
   "property": "C85",
   "status": "proved",
   "theorems": [
    "Biggus.C85_programs",
    "Biggus.C85_masked_programs",
    "Biggus.C85_index_step",
    "Biggus.C85_agg_step",
    "Biggus.exProgram",
    "Biggus.C85_saved",
    "Biggus.C85_saved_masked",
    "Biggus.C85_together",
    "Biggus.C85_together_masked",
    "Biggus.exProgram_saved",
    "Biggus.exTogether_programs",
    "Biggus.C85_stack_step",
    "Biggus.C85_mosaic_step",
    "Biggus.C85_axes_steps",
    "Biggus.C85_elementwise_step",
    "Biggus.C85_dask",
    "Biggus.C85_dask_masked",
    "Biggus.exTwoSums_programs"
   ],
   "note": "Programs are the relation Arr.Program (Spec/Program.lean): one constructor per public operation, with the biggus operation on the left and NumPy's on the right. C85_index_step, C85_agg_step: such steps always succeed. exProgram: a stack, below a mean, of indexed sums. Exclusions are those of the statement (and broadcasting an array that has leading broadcast dimensions; an axis of length 0 is not aggregated); outside them the code is wrong or fails, as recorded under C04-C12, C22, C24, C27, C30."
  },
  {
   "property": "C86",
   "status": "proved",
   "theorems": [
    "Biggus.C86_quiet",
    "Biggus.C86_items_are_whole",
    "Biggus.C86_one_item",
    "Biggus.C86_before_or_after",
    "Biggus.C86_engine_elements",
    "Biggus.C86_reader",
    "Biggus.C86_expressions",
    "Biggus.C86_save",
    "Biggus.C86_quiet_save",
    "Biggus.C86_two_assignments_mix",
    "Biggus.C86_engine_tears_items"
   ],
   "note": "Assignments by other threads fall between the accesses of the evaluating thread, any number before each. The two witnesses show the limits stated in the property: several assigned items mix, and the engine tears items. Also for aggregations and element-wise operations over the stack: the result is that of an array whose elements are elements the stack had. The items are immutable."
  },
  {
   "property": "C87",
   "status": "proved",
   "theorems": [
    "Biggus.C87_quiet",
    "Biggus.C87_expressions",
    "Biggus.C87_sources",
    "Biggus.C87_with_itself",
    "Biggus.C87_two_objects_differ",
    "Biggus.C87_save",
    "Biggus.C87_save_source"
   ],
   "note": "C87_expressions: any producers (also views and stacks over changing sources). C87_sources: equal to an undisturbed evaluation by the model of the engine. The witness shows the limit stated in the property: two objects, two copies."
  }
 ]
}