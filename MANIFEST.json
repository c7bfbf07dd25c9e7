{
 "claims": [
  {
   "property": "C01",
   "status": "proved",
   "theorems": [
    "Verif.Lru.lru_refines_recency_list",
    "Verif.Lru.lru_no_undefined_behaviour",
    "Verif.Lru.lru_size_le_capacity",
    "Verif.Lru.lru_recent_key_survives",
    "Verif.Lru.lru_zero_capacity_violated",
    "Verif.Lru.lru_lowered_capacity_violated"
   ],
   "note": "For positive capacities. The two _violated theorems show the limits: capacity 0 is undefined behaviour, and lowering the capacity leaves the cache above it."
  },
  {
   "property": "C02",
   "status": "partial",
   "theorems": [
    "Verif.Exec.eval_expression_value_partial",
    "Verif.Exec.eval_expression_names_violated",
    "Verif.Exec.eval_expression_error_hidden_violated",
    "Verif.Exec.EvalText.swapped_names_violated"
   ],
   "note": "False of the code: the argument names are not part of the cache key. Proved for all interleavings of threads when equal source and signature come with equal names and eval_function is not used on the same sources."
  },
  {
   "property": "C03",
   "status": "partial",
   "theorems": [
    "Verif.Exec.eval_function_first_call_violated",
    "Verif.Exec.eval_calls_alive_partial"
   ],
   "note": "False of the code: the first successful eval_function for a source calls a destroyed object, in every reachable state. All other calls are proved to be on live objects."
  },
  {
   "property": "C04",
   "status": "proved",
   "theorems": [
    "Verif.Func.registry_first_wins",
    "Verif.Func.registry_result",
    "Verif.Func.registry_stable"
   ],
   "note": ""
  },
  {
   "property": "C05",
   "status": "partial",
   "theorems": [
    "Verif.Func.load_ignores_signature_violated",
    "Verif.Func.load_unknown_name_refused_partial",
    "Verif.Func.compare_signature_iff"
   ],
   "note": "False of the code: the result of the signature comparison is discarded, so every requested signature is accepted (proved for all signatures). Only unknown names are refused."
  },
  {
   "property": "C06",
   "status": "proved",
   "theorems": [
    "Verif.Memory.align_to_rounds_up",
    "Verif.Memory.align_ceil_rounds_up",
    "Verif.Memory.align_to_fixpoint",
    "Verif.Memory.valid_align_value_iff",
    "Verif.Memory.arena_element_size_rounds_up",
    "Verif.Memory.bits_byte_size_covers",
    "Verif.Memory.align_to_overflow_violated"
   ],
   "note": "The last theorem shows the no-overflow hypothesis is needed."
  },
  {
   "property": "C07",
   "status": "proved",
   "theorems": [
    "Verif.Memory.arena_ranges_disjoint",
    "Verif.Memory.arena_ranges_aligned",
    "Verif.Memory.arena_ranges_inside",
    "Verif.Memory.arena_no_undefined_behaviour",
    "Verif.Memory.arena_over_aligned_violated"
   ],
   "note": "For alignments up to the 16 bytes guaranteed by the system allocator (the default); above that the property fails (last theorem)."
  },
  {
   "property": "C08",
   "status": "proved",
   "theorems": [
    "Verif.Memory.arena_bytes_used_exact",
    "Verif.Memory.arena_failed_allocation_counted_violated"
   ],
   "note": "Histories without a failed allocation, as in the statement; a failed allocation is counted (last theorem)."
  },
  {
   "property": "C09",
   "status": "proved",
   "theorems": [
    "Verif.Memory.arena_limit_respected",
    "Verif.Memory.arena_failed_allocation_keeps_state",
    "Verif.Memory.arena_failure_reasons"
   ],
   "note": ""
  },
  {
   "property": "C10",
   "status": "proved",
   "theorems": [
    "Verif.Memory.arena_reset_reuses_memory"
   ],
   "note": ""
  },
  {
   "property": "C11",
   "status": "proved",
   "theorems": [
    "Verif.Memory.LevelDb.leveldb_ranges_disjoint",
    "Verif.Memory.LevelDb.leveldb_ranges_inside",
    "Verif.Memory.LevelDb.leveldb_aligned",
    "Verif.Memory.LevelDb.leveldb_usage",
    "Verif.Memory.LevelDb.leveldb_aligned_overflow_violated"
   ],
   "note": "For non-zero sizes that do not wrap when padding is added."
  },
  {
   "property": "C12",
   "status": "proved",
   "theorems": [
    "Verif.Ctx.CleanupList.cleanup_at_most_once",
    "Verif.Ctx.CleanupList.cleanup_fifo",
    "Verif.Ctx.CleanupList.cleanup_thread_order",
    "Verif.Ctx.CleanupList.cleanup_drain_complete",
    "Verif.Ctx.CleanupList.cleanup_no_use_after_free",
    "Verif.Ctx.CleanupList.cleanup_drain_returns"
   ],
   "note": ""
  },
  {
   "property": "C13",
   "status": "partial",
   "theorems": [
    "Verif.Ctx.Context.context_destroys_once",
    "Verif.Ctx.Context.context_getptr_dangling_violated",
    "Verif.Ctx.Context.context_no_dangling_partial"
   ],
   "note": "False of the code: Reset keeps the typed pointer table, so a lookup after a reset returns a destroyed object. Exactly-once destruction is proved for all histories, absence of dangling results for histories that do not look a type up across a reset."
  },
  {
   "property": "C14",
   "status": "proved",
   "theorems": [
    "Verif.Types.Str.string_view_eq_iff"
   ],
   "note": ""
  },
  {
   "property": "C15",
   "status": "proved",
   "theorems": [
    "Verif.Types.Str.string_view_compare_lex",
    "Verif.Types.Str.string_ops_lex",
    "Verif.Types.Str.lexCmp_swap",
    "Verif.Types.Str.lexCmp_eq_iff",
    "Verif.Types.Str.string_compare_long_violated"
   ],
   "note": "For strings below 2^31 bytes as the statement says; the last theorem shows the bound is needed."
  },
  {
   "property": "C16",
   "status": "partial",
   "theorems": [
    "Verif.Types.Str.ignore_case_partial",
    "Verif.Types.Str.ignore_case_violated",
    "Verif.Types.Str.ignore_case_never_folds_violated"
   ],
   "note": "False of the code: letters are never folded. What remains true is stated by the partial theorem."
  },
  {
   "property": "C17",
   "status": "partial",
   "theorems": [
    "Verif.Types.Bits.bit_vector_set_partial",
    "Verif.Types.Bits.bit_vector_set_returns_iff",
    "Verif.Types.Bits.bit_vector_clear_never_returns_violated",
    "Verif.Types.Bits.bit_vector_set_range",
    "Verif.Types.Bits.bits_set_frame"
   ],
   "note": "False of the code: clearing a bit in a zero byte never returns. All other writes are proved."
  },
  {
   "property": "C18",
   "status": "partial",
   "theorems": [
    "Verif.Types.Bits.concurrent_set_partial",
    "Verif.Types.Bits.concurrent_set_lost_violated"
   ],
   "note": "False of the code: a write can be lost under an interleaving. Proved when the writers touch different bytes."
  },
  {
   "property": "C19",
   "status": "partial",
   "theorems": [
    "Verif.Types.Vec.raw_size_eq_api",
    "Verif.Types.Vec.vector_header_partial",
    "Verif.Types.Vec.header_updates",
    "Verif.Types.Vec.vector_size_wraps_violated",
    "Verif.Types.Vec.vector_capacity_scaled_violated"
   ],
   "note": "Sizes of 2^30 and more wrap; the capacity is multiplied by the element size."
  },
  {
   "property": "C20",
   "status": "partial",
   "theorems": [
    "Verif.Types.Vec.slice_partial",
    "Verif.Types.Vec.slice_bits_partial",
    "Verif.Types.Vec.resize_partial",
    "Verif.Types.Vec.slice_overflow_violated",
    "Verif.Types.Vec.resize_wraps_violated"
   ],
   "note": "False when position plus length overflows 32 bits or a resize exceeds 32 bits."
  },
  {
   "property": "C21",
   "status": "partial",
   "theorems": [
    "Verif.Types.Vec.jagged_get_shifted",
    "Verif.Types.Vec.jagged_first_row_violated",
    "Verif.Types.Vec.jagged_size",
    "Verif.Types.Vec.fixed_rows_returned"
   ],
   "note": "False of the code: every row is the one after it; the exact shift is proved. Fixed-width rows are right."
  },
  {
   "property": "C22",
   "status": "partial",
   "theorems": [
    "Verif.Types.Dyn.dyn_object_layout_partial",
    "Verif.Types.Dyn.dyn_object_refines_partial",
    "Verif.Types.Dyn.dyn_object_set_status",
    "Verif.Types.Dyn.dyn_object_long_double_violated",
    "Verif.Types.Dyn.dyn_object_long_double_outside_violated",
    "Verif.Types.Dyn.dyn_object_header_violated"
   ],
   "note": "False for long double fields, which reserve 8 of 16 bytes. Proved for all other field types, headers below 2^31 bytes and at most 2^27 fields."
  },
  {
   "property": "C23",
   "status": "partial",
   "theorems": [
    "Verif.Types.Par.params_get_nearest_partial",
    "Verif.Types.Par.params_contains_partial",
    "Verif.Types.Par.set_parent_known",
    "Verif.Types.Par.set_parent_new",
    "Verif.Types.Par.params_index",
    "Verif.Types.Par.params_contains_violated",
    "Verif.Types.Par.params_cycle_violated"
   ],
   "note": "Proved for every chain that ends; SetParent accepts cycles, on which a lookup never returns. Contains agrees with Get when members are only put into objects."
  },
  {
   "property": "C24",
   "status": "proved",
   "theorems": [
    "Verif.Types.DT.control_word_roundtrip",
    "Verif.Types.DT.control_word_eq_iff",
    "Verif.Types.DT.control_word_update"
   ],
   "note": ""
  },
  {
   "property": "C25",
   "status": "partial",
   "theorems": [
    "Verif.Types.DT.dtype_order_partial",
    "Verif.Types.DT.dtype_primitive_order",
    "Verif.Types.DT.dtype_eq_arrays_violated",
    "Verif.Types.DT.dtype_lt_antisymm_violated",
    "Verif.Types.DT.dtype_lt_cycle_violated"
   ],
   "note": "A total order on descriptors without array lengths and with second type identifiers below 1024; false in general."
  },
  {
   "property": "C26",
   "status": "partial",
   "theorems": [
    "Verif.Types.DT.type_constructors_partial",
    "Verif.Types.DT.ptr_roundtrip_violated",
    "Verif.Types.DT.ptr_roundtrip_nested_violated"
   ],
   "note": "False for pointers to nested collections; proved for the rest."
  },
  {
   "property": "C27",
   "status": "partial",
   "theorems": [
    "Verif.Types.Conv.convert_partial",
    "Verif.Types.Conv.convert_same",
    "Verif.Types.Conv.convert_i8_domain",
    "Verif.Types.Conv.convert_i8_violated"
   ],
   "note": "False for negative 8-bit signed sources (missing break). Floating point types are not modelled."
  },
  {
   "property": "C28",
   "status": "partial",
   "theorems": [
    "Verif.Types.DT.tuple_size_partial",
    "Verif.Types.DT.tuple_size_pair_violated"
   ],
   "note": "Pairs and triples report the wrong size."
  },
  {
   "property": "C29",
   "status": "proved",
   "theorems": [
    "Verif.Ast.lex_covers",
    "Verif.Ast.lex_slices",
    "Verif.Ast.lex_ordered"
   ],
   "note": ""
  },
  {
   "property": "C30",
   "status": "proved",
   "theorems": [
    "Verif.Ast.parse_print",
    "Verif.Ast.parse_tree",
    "Verif.Ast.parse_sound",
    "Verif.Ast.parse_functions_print",
    "Verif.Ast.parse_function_print"
   ],
   "note": ""
  },
  {
   "property": "C31",
   "status": "partial",
   "theorems": [
    "Verif.Ast.functions_consume_all",
    "Verif.Ast.expression_prefix_partial",
    "Verif.Ast.expression_trailing_violated",
    "Verif.Ast.function_trailing_violated"
   ],
   "note": "Proved for the entry point for several functions; the entry points for one function and for an expression ignore what follows."
  },
  {
   "property": "C32",
   "status": "partial",
   "theorems": [
    "Verif.Ast.Lines.line_not_before_partial",
    "Verif.Ast.Lines.first_line_partial",
    "Verif.Ast.Lines.line_drift_violated"
   ],
   "note": "False: every line break before the position is forgotten, so the reported line drifts. The reported line is never too small."
  },
  {
   "property": "C33",
   "status": "proved",
   "theorems": [
    "Verif.Ast.Validate.accepted_jumps_in_loops",
    "Verif.Ast.Validate.jumps_in_loops_not_refused",
    "Verif.Ast.Validate.loop_depth_restored",
    "Verif.Ast.Validate.accepted_functions_jumps"
   ],
   "note": "Validation of expressions inside statements is a parameter."
  },
  {
   "property": "C34",
   "status": "proved",
   "theorems": [
    "Verif.Ast.Rpn.flattened_value"
   ],
   "note": "For every meaning of operators, calls and variables."
  },
  {
   "property": "C35",
   "status": "partial",
   "theorems": [
    "Verif.Ast.Literal.literal_value_partial",
    "Verif.Ast.Literal.round_representable",
    "Verif.Ast.Literal.round_nearest",
    "Verif.Ast.Literal.literal_rounded",
    "Verif.Ast.Literal.literal_value_violated",
    "Verif.Ast.Literal.literal_largest_violated"
   ],
   "note": "Proved up to 2^53; literals are read as binary64 and rounded above, and the largest ones are converted out of range."
  },
  {
   "property": "C36",
   "status": "partial",
   "theorems": [
    "Verif.Gen.accepted_body_generates",
    "Verif.Gen.blocks_well_formed_partial",
    "Verif.Gen.control_flow_partial",
    "Verif.Gen.control_flow_violated"
   ],
   "note": "False when an elif or else body ends in a nested statement or vector expression, and when code follows a jump. Simulation in both directions proved for all other bodies."
  },
  {
   "property": "C37",
   "status": "partial",
   "theorems": [
    "Verif.Gen.Scalar.assignments_do_what_they_say_partial",
    "Verif.Gen.Scalar.other_variables_unchanged_partial",
    "Verif.Gen.Scalar.assignment_changes_other_violated"
   ],
   "note": "False for var b = a (the new name shares the slot). Proved for programs whose definitions have other right-hand sides; no arrays, member accesses or nested assignments."
  },
  {
   "property": "C38",
   "status": "partial",
   "theorems": [
    "Verif.Gen.Scalar.conditional_operands_partial",
    "Verif.Gen.Scalar.conditional_operand_call_violated",
    "Verif.Gen.Scalar.conditional_operand_trap_violated"
   ],
   "note": "False when a skipped operand calls or traps. Proved when the conditional operands neither call nor trap."
  },
  {
   "property": "C39",
   "status": "partial",
   "theorems": [
    "Verif.Gen.Vec.elementwise_partial",
    "Verif.Gen.Vec.elementwise_whole_blocks",
    "Verif.Gen.Vec.vector_memory_safe",
    "Verif.Gen.Vec.different_sizes_reported",
    "Verif.Gen.Vec.padding_trap_violated"
   ],
   "note": "False when the unused lanes of the last block trap, e.g. x / (y - 1). Proved for all sizes when they do not; operands of operators must have one type (constants are converted), calls of vector functions stand in first operands. The lane-wise meaning of operators is a parameter."
  },
  {
   "property": "C40",
   "status": "proved",
   "theorems": [
    "Verif.Gen.VecBits.bit_access_inside",
    "Verif.Gen.VecBits.bool_access_inside",
    "Verif.Gen.VecBits.empty_bits"
   ],
   "note": ""
  },
  {
   "property": "C41",
   "status": "partial",
   "theorems": [
    "Verif.Gen.Vec.scalar_subexpression_partial",
    "Verif.Gen.Vec.scalar_subexpression_violated",
    "Verif.Comp.VecPipe.negative_constant_violated"
   ],
   "note": "False: the leaves of a scalar subexpression are converted before it is computed. Proved for operands of one type."
  },
  {
   "property": "C42",
   "status": "partial",
   "theorems": [
    "Verif.Func.CallConv.args_follow_sysv",
    "Verif.Func.CallConv.by_value_iff_memory",
    "Verif.Func.CallConv.member_args_violated",
    "Verif.Func.CallConv.member_by_value_arg_violated"
   ],
   "note": "Proved for free functions and all argument lists over the modelled classes. False for member functions, which are declared without the byval attribute."
  },
  {
   "property": "C43",
   "status": "partial",
   "theorems": [
    "Verif.Func.context_inserted",
    "Verif.Func.full_call_unchanged",
    "Verif.Func.count_mismatch_error",
    "Verif.Func.script_function_context_violated"
   ],
   "note": "Proved for registered functions. False for functions defined in the same source, whose context position is never computed."
  },
  {
   "property": "C44",
   "status": "proved",
   "theorems": [
    "Verif.Gen.IntOps.cast_preserves",
    "Verif.Gen.IntOps.cast_wraps",
    "Verif.Gen.IntOps.common_is_wider"
   ],
   "note": ""
  },
  {
   "property": "C45",
   "status": "partial",
   "theorems": [
    "Verif.Simd.sum_value_partial",
    "Verif.Simd.sum_lane_independent_partial",
    "Verif.Simd.sum_signed_no_overflow_partial",
    "Verif.Simd.sum_overflow_violated"
   ],
   "note": "The kernel equals the modular sum for every lane count; for signed types the scalar tail is undefined behaviour on overflow (violated witness) and correct without overflow. Floating point sums are not modelled."
  },
  {
   "property": "C46",
   "status": "partial",
   "theorems": [
    "Verif.Simd.max_partial",
    "Verif.Simd.min_partial",
    "Verif.Simd.max_below_lowest_violated",
    "Verif.Simd.min_above_max_violated"
   ],
   "note": "True when some element is at least the lowest finite value (for min: at most the largest). False for a vector of only -infinity (+infinity). NaN is outside the linear order of the model."
  },
  {
   "property": "C47",
   "status": "proved",
   "theorems": [
    "Verif.Simd.find_first",
    "Verif.Simd.find_first_string"
   ],
   "note": "Highway's Find is modelled from its documented contract; sizes below 2^30 as the vector header enforces."
  },
  {
   "property": "C48",
   "status": "partial",
   "theorems": [
    "Verif.Simd.gather_scalar",
    "Verif.Simd.gather_simd_partial",
    "Verif.Simd.gather_out_of_bounds_violated",
    "Verif.Simd.gather_bits"
   ],
   "note": "False of the code for indices outside the vector in full blocks (unchecked). Proved for in-range indices in full blocks, and for the scalar and bit branches for all indices."
  },
  {
   "property": "C49",
   "status": "partial",
   "theorems": [
    "Verif.Simd.filter_selected_partial",
    "Verif.Simd.filter_string_selected",
    "Verif.Simd.filter_bits_selected",
    "Verif.Simd.filter_short_mask_violated",
    "Verif.Simd.filter_tail_overread_violated"
   ],
   "note": "Correct for every lane count when the mask is long enough; the mask size is never checked and the last block may read past an unpadded mask."
  },
  {
   "property": "C50",
   "status": "partial",
   "theorems": [
    "Verif.Simd.match_mask_partial",
    "Verif.Simd.match_padding_violated"
   ],
   "note": "False when zero matches and a partial block remains."
  },
  {
   "property": "C51",
   "status": "partial",
   "theorems": [
    "Verif.Simd.avg_partial",
    "Verif.Simd.avg_zero_division_violated",
    "Verif.Simd.avg_sign_violated"
   ],
   "note": "False for narrow types when the size cast to the element type is zero or negative."
  },
  {
   "property": "C52",
   "status": "partial",
   "theorems": [
    "Verif.Simd.count_true_partial",
    "Verif.Simd.count_true_small_blocks_partial",
    "Verif.Simd.count_true_violated"
   ],
   "note": "True below 32 byte lanes, or when no 8-bit lane counter overflows; false with 32 byte lanes and 256 set bits."
  },
  {
   "property": "C53",
   "status": "partial",
   "theorems": [
    "Verif.Simd.not_elementwise_partial",
    "Verif.Simd.binary_elementwise",
    "Verif.Simd.not_padding_violated"
   ],
   "note": "All elements are right for every operation; the padding bits after negation are set."
  },
  {
   "property": "C54",
   "status": "partial",
   "theorems": [
    "Verif.Simd.find_char_first",
    "Verif.Simd.find_char_long_violated"
   ],
   "note": "Proved for strings up to 2^31 bytes; beyond, the position is truncated to int."
  },
  {
   "property": "C55",
   "status": "partial",
   "theorems": [
    "Verif.Simd.find_string_one_partial",
    "Verif.Simd.find_string_two_partial",
    "Verif.Simd.find_string_short_partial",
    "Verif.Simd.find_string_missed_violated",
    "Verif.Simd.find_string_false_hit_violated",
    "Verif.Simd.find_string_empty_violated"
   ],
   "note": "False of the code: candidates are compared at the block start. Proved for needles of length 1 and 2 and for haystacks shorter than a block."
  },
  {
   "property": "C56",
   "status": "proved",
   "theorems": [
    "Verif.Simd.split_by_char_runs",
    "Verif.Simd.join_runs",
    "Verif.Simd.runs_clean"
   ],
   "note": "For strings up to 2^32 bytes."
  },
  {
   "property": "C57",
   "status": "proved",
   "theorems": [
    "Verif.Tbl.argselect_descending",
    "Verif.Tbl.argselect_ascending"
   ],
   "note": "The ascending selection and the descending sort of the external library are parameters with their documented contract."
  },
  {
   "property": "C58",
   "status": "partial",
   "theorems": [
    "Verif.Tbl.table_filter",
    "Verif.Tbl.table_split",
    "Verif.Tbl.split_partition",
    "Verif.Tbl.pick_row",
    "Verif.Tbl.pick_aligned",
    "Verif.Tbl.table_filter_short_mask_violated"
   ],
   "note": "Proved for masks at least as long as the table; the length of the mask is never checked and a shorter one is read out of bounds."
  },
  {
   "property": "C59",
   "status": "partial",
   "theorems": [
    "Verif.Tbl.head_rows",
    "Verif.Tbl.tail_rows_partial",
    "Verif.Tbl.tail_zero_violated"
   ],
   "note": "Tail(0) returns the whole table."
  },
  {
   "property": "C60",
   "status": "proved",
   "theorems": [
    "Verif.Tbl.group_by_vector",
    "Verif.Tbl.group_by_vector_size",
    "Verif.Tbl.group_by_columns"
   ],
   "note": "Boolean key columns are outside: the equality of rows has no case for them."
  },
  {
   "property": "C61",
   "status": "proved",
   "theorems": [
    "Verif.Tbl.dedup_mask",
    "Verif.Tbl.dedup_keeps_first"
   ],
   "note": ""
  },
  {
   "property": "C62",
   "status": "partial",
   "theorems": [
    "Verif.Tbl.distinct_rows_partial",
    "Verif.Tbl.distinct_single_partial",
    "Verif.Tbl.distinct_unique",
    "Verif.Tbl.distinct_columns_violated"
   ],
   "note": "False for several columns: the per-column masks are combined with AND, so combinations are lost."
  },
  {
   "property": "C63",
   "status": "partial",
   "theorems": [
    "Verif.Tbl.concat_rows",
    "Verif.Tbl.concat_other_schema",
    "Verif.Tbl.merge_rows_partial",
    "Verif.Tbl.Col.merge_loaded_column_violated",
    "Verif.Tbl.Col.merge_unloaded_column_partial"
   ],
   "note": "Concat is proved. Merge is right when the key column has not been read before; otherwise it reads outside the column."
  },
  {
   "property": "C64",
   "status": "partial",
   "theorems": [
    "Verif.Tbl.add_rows_partial",
    "Verif.Tbl.add_rows_succeeds_iff",
    "Verif.Tbl.add_rows_single_partial",
    "Verif.Tbl.add_rows_failure_violated",
    "Verif.Tbl.insert_row_partial",
    "Verif.Tbl.insert_row_failure_violated",
    "Verif.Tbl.append_row_last",
    "Verif.Tbl.rows_aligned_partial"
   ],
   "note": "False of the code: a failure in a later row group leaves the earlier ones grown. Proved for single-group tables and for histories of successful calls."
  },
  {
   "property": "C65",
   "status": "proved",
   "theorems": [
    "Verif.Tbl.foreach_visits",
    "Verif.Tbl.foreach_order",
    "Verif.Tbl.foreach_mask_size",
    "Verif.Tbl.handle_int"
   ],
   "note": ""
  },
  {
   "property": "C66",
   "status": "proved",
   "theorems": [
    "Verif.Func.column_allowed_iff"
   ],
   "note": ""
  },
  {
   "property": "C67",
   "status": "proved",
   "theorems": [
    "Verif.Pool.run_calls_each_index_once",
    "Verif.Pool.chunk_calls_increasing",
    "Verif.Pool.plan_submits",
    "Verif.Pool.run_inverted_range"
   ],
   "note": ""
  },
  {
   "property": "C68",
   "status": "proved",
   "theorems": [
    "Verif.Pool.Barrier.run_returns_after_all_calls",
    "Verif.Pool.Barrier.run_progress",
    "Verif.Pool.Barrier.run_terminates",
    "Verif.Pool.Barrier.run_can_return"
   ],
   "note": ""
  },
  {
   "property": "C69",
   "status": "partial",
   "theorems": [
    "Verif.Pool.Nested.nested_run_deadlock_violated",
    "Verif.Pool.Nested.nested_run_progress_partial",
    "Verif.Pool.Nested.nested_run_bounded",
    "Verif.Pool.Nested.nested_run_completes_partial"
   ],
   "note": "False of the code when at least as many tasks nest a Run as there are threads: for every pool size a deadlock is reachable. Completion is proved when fewer tasks nest than there are threads; a task makes at most one nested Run in the model."
  },
  {
   "property": "C70",
   "status": "proved",
   "theorems": [
    "Verif.Lru.thread_cached_lru_isolated",
    "Verif.Lru.get_or_insert_hit",
    "Verif.Lru.get_or_insert_stable"
   ],
   "note": ""
  },
  {
   "property": "C71",
   "status": "proved",
   "theorems": [
    "Verif.Simd.iota_correct"
   ],
   "note": ""
  },
  {
   "property": "C72",
   "status": "partial",
   "theorems": [
    "Verif.Types.DT.get_dtype_injective",
    "Verif.Types.DT.get_dtype_nested_array_violated",
    "Verif.Types.Descriptors.descriptors_partial",
    "Verif.Types.Descriptors.descriptors_violated"
   ],
   "note": "Different types have different descriptors as soon as different classes have different identifiers (get_dtype_injective), which is so for up to 16319 classes whose identifiers come from one translation unit, in every schedule of threads (descriptors_partial). Classes of different translation units can share a descriptor (descriptors_violated). Arrays of arrays are outside the grammar: get_dtype_nested_array_violated shows they collide."
  },
  {
   "property": "C73",
   "status": "partial",
   "theorems": [
    "Verif.Types.DT.get_dtype_elem_partial",
    "Verif.Types.DT.map_value_type_violated"
   ],
   "note": "False for maps to fundamental types."
  },
  {
   "property": "C74",
   "status": "partial",
   "theorems": [
    "Verif.Tbl.Col.column_current_partial",
    "Verif.Tbl.Col.get_column_first_partial",
    "Verif.Tbl.Col.get_column_stale_violated",
    "Verif.Tbl.Col.set_column_size",
    "Verif.Tbl.Col.set_column_read",
    "Verif.Tbl.Col.set_column_overwritten_violated"
   ],
   "note": "False of the code: Get after a row change returns the emptied column, and loading after Set overwrites the vector given by the user."
  },
  {
   "property": "C75",
   "status": "partial",
   "theorems": [
    "Verif.Tbl.order_by_rows",
    "Verif.Tbl.topk_rows",
    "Verif.Tbl.order_by_refused",
    "Verif.Tbl.order_by_unloaded_column_violated"
   ],
   "note": "Proved for key vectors; ordering by the name of a column not read yet throws."
  },
  {
   "property": "C76",
   "status": "partial",
   "theorems": [
    "Verif.Tbl.Col.order_by_changes_source_violated"
   ],
   "note": "False of the code."
  },
  {
   "property": "C77",
   "status": "proved",
   "theorems": [
    "Verif.Tbl.map_rows",
    "Verif.Tbl.flat_map_rows"
   ],
   "note": ""
  },
  {
   "property": "C78",
   "status": "partial",
   "theorems": [
    "Verif.Tbl.filter_mask_partial",
    "Verif.Tbl.filter_mask_pool_violated"
   ],
   "note": "Proved without a pool; with a pool bits are lost."
  },
  {
   "property": "C79",
   "status": "partial",
   "theorems": [
    "Verif.Tbl.group_by_vector",
    "Verif.Tbl.group_by_columns_order_violated"
   ],
   "note": "True for a key vector, false for key columns."
  },
  {
   "property": "C80",
   "status": "partial",
   "theorems": [
    "Verif.Exec.repeated_expression_cached_partial",
    "Verif.Exec.other_signature_recompiled_violated"
   ],
   "note": "False of the code for every signature after the first."
  },
  {
   "property": "C81",
   "status": "partial",
   "theorems": [
    "Verif.Exec.nested_evaluation_violated",
    "Verif.Exec.nested_evaluation_first_partial"
   ],
   "note": "False of the code on cache hits: the mutex is held while the compiled code runs."
  },
  {
   "property": "C82",
   "status": "partial",
   "theorems": [
    "Verif.Exec.eval_function_own_source_partial",
    "Verif.Exec.eval_function_runs_expression_violated"
   ],
   "note": "False when a source is used with both functions."
  },
  {
   "property": "C83",
   "status": "proved",
   "theorems": [
    "Verif.Ast.lex_texts",
    "Verif.Ast.lex_write"
   ],
   "note": ""
  },
  {
   "property": "C84",
   "status": "partial",
   "theorems": [
    "Verif.Ast.colon_in_name_violated",
    "Verif.Ast.conditional_spaced_partial"
   ],
   "note": "False without a space after a name: the colon is taken into the name."
  },
  {
   "property": "C85",
   "status": "proved",
   "theorems": [
    "Verif.Ast.parse_ends"
   ],
   "note": "The depth of the C++ call stack is not modelled."
  },
  {
   "property": "C86",
   "status": "partial",
   "theorems": [
    "Verif.Ast.break_dropped_violated",
    "Verif.Ast.function_body_kept_partial"
   ],
   "note": "False for break and continue without a semicolon."
  },
  {
   "property": "C87",
   "status": "partial",
   "theorems": [
    "Verif.Ast.Literal.index_value_partial",
    "Verif.Ast.Literal.index_value_violated"
   ],
   "note": "Proved for plain numerals below 2^32."
  },
  {
   "property": "C88",
   "status": "partial",
   "theorems": [
    "Verif.Ast.Rpn.total_arity_partial",
    "Verif.Ast.Rpn.wrong_arity_violated"
   ],
   "note": "False: only the total number of arguments is checked."
  },
  {
   "property": "C89",
   "status": "partial",
   "theorems": [
    "Verif.Ast.Validate.functions_accepted_iff",
    "Verif.Ast.Validate.returns_own_type_partial",
    "Verif.Ast.Validate.returns_first_type_violated"
   ],
   "note": "False for functions after the first, whose returns are compared with the first function's type."
  },
  {
   "property": "C90",
   "status": "partial",
   "theorems": [
    "Verif.Ast.Literal.literal_suffix_partial",
    "Verif.Ast.Literal.literal_suffix_violated"
   ],
   "note": "False out of range: the value wraps."
  },
  {
   "property": "C91",
   "status": "partial",
   "theorems": [
    "Verif.Ast.Literal.literal_zero_fraction",
    "Verif.Ast.Literal.literal_point_violated"
   ],
   "note": "False for every literal with a zero fraction."
  },
  {
   "property": "C92",
   "status": "partial",
   "theorems": [
    "Verif.Gen.returns_a_value_partial",
    "Verif.Gen.returns_a_value_violated"
   ],
   "note": "False when control reaches the end of the body or a return without value."
  },
  {
   "property": "C93",
   "status": "partial",
   "theorems": [
    "Verif.Gen.Scalar.operand_order_partial",
    "Verif.Gen.Scalar.operand_order_violated"
   ],
   "note": "False with assignments inside expressions. Proved for all others without arrays and member accesses; effects before a trap not observed."
  },
  {
   "property": "C94",
   "status": "proved",
   "theorems": [
    "Verif.Gen.Scalar.well_typed_compiles",
    "Verif.Gen.Scalar.well_typed_program_compiles",
    "Verif.Gen.Scalar.define_needs_assignment",
    "Verif.Gen.Scalar.well_typed_compiles_partial"
   ],
   "note": "well_typed_compiles_partial is the special case without assignments, used for C38."
  },
  {
   "property": "C95",
   "status": "partial",
   "theorems": [
    "Verif.Gen.IntOps.compare_mixed_partial",
    "Verif.Gen.IntOps.compare_safe_types",
    "Verif.Gen.IntOps.compare_mixed_violated"
   ],
   "note": "False exactly for the pairs of a signed type and an unsigned type at least as wide."
  },
  {
   "property": "C96",
   "status": "partial",
   "theorems": [
    "Verif.Gen.IntOps.arith_wraps",
    "Verif.Gen.IntOps.arith_exact",
    "Verif.Gen.IntOps.division_exact",
    "Verif.Gen.IntOps.division_undefined",
    "Verif.Gen.IntOps.arith_mixed_exact",
    "Verif.Gen.IntOps.arith_mixed_violated"
   ],
   "note": "Proved for operands of one type; for mixed types when the operands fit into the common type."
  },
  {
   "property": "C97",
   "status": "partial",
   "theorems": [
    "Verif.Gen.IntOps.neg_exact",
    "Verif.Gen.IntOps.abs_partial",
    "Verif.Gen.IntOps.abs_unsigned_violated"
   ],
   "note": "False for abs of unsigned values above half the range."
  },
  {
   "property": "C98",
   "status": "partial",
   "theorems": [
    "Verif.Gen.Vec.operand_count_partial",
    "Verif.Gen.Vec.operand_count_violated"
   ],
   "note": "False: no check of the number of operands."
  },
  {
   "property": "C99",
   "status": "partial",
   "theorems": [
    "Verif.Gen.Vec.elementwise_partial",
    "Verif.Gen.Vec.function_operand_violated"
   ],
   "note": "False for calls in right operands. elementwise_partial covers calls in first operands."
  },
  {
   "property": "C100",
   "status": "partial",
   "theorems": [
    "Verif.Gen.VecBits.bit_slice_partial",
    "Verif.Gen.VecBits.bit_slice_violated"
   ],
   "note": "False for slices not beginning at a multiple of 64."
  },
  {
   "property": "C101",
   "status": "partial",
   "theorems": [
    "Verif.Gen.VecBits.new_vector_room_partial",
    "Verif.Gen.VecBits.new_vector_room_violated"
   ],
   "note": "False from 2^32 bytes on."
  },
  {
   "property": "C102",
   "status": "partial",
   "theorems": [
    "Verif.Session.source_independent",
    "Verif.Session.history_partial",
    "Verif.Session.history_only_refuses",
    "Verif.Session.history_violated"
   ],
   "note": "False: the cursor of the parse context survives. Proved for scripts, and for functions and expressions when no script of several functions was compiled before; a compiler never compiles something else because of its history."
  },
  {
   "property": "C103",
   "status": "partial",
   "theorems": [
    "Verif.Session.well_scoped_partial",
    "Verif.Session.checked_as_intended_partial",
    "Verif.Session.well_scoped_violated"
   ],
   "note": "False for functions named like an operator (max, filter, add, ...). Types are left out: an operator is either defined for its operands or not."
  },
  {
   "property": "C104",
   "status": "partial",
   "theorems": [
    "Verif.Session.call_target_partial",
    "Verif.Session.call_target_violated"
   ],
   "note": "False when a script defines a function with the name of a registered function it uses."
  },
  {
   "property": "C105",
   "status": "partial",
   "theorems": [
    "Verif.Access.access_chain_right",
    "Verif.Access.access_chain_partial",
    "Verif.Access.access_chain_ill_typed",
    "Verif.Access.access_chain_violated"
   ],
   "note": "False: a bracket access after a field access passes the checker and is refused by the code generator."
  },
  {
   "property": "C106",
   "status": "partial",
   "theorems": [
    "Verif.Stl.vector_find_partial",
    "Verif.Stl.vector_find_null",
    "Verif.Stl.vector_find_object_violated",
    "Verif.Stl.vector_find_large_violated"
   ],
   "note": "False for vectors of objects (addresses are compared) and for places from 2^31 on."
  },
  {
   "property": "C107",
   "status": "partial",
   "theorems": [
    "Verif.Stl.vector_get",
    "Verif.Stl.vector_set",
    "Verif.Stl.vector_add_partial",
    "Verif.Stl.vector_add_null_violated"
   ],
   "note": "False only for add on a null vector, which is dereferenced."
  },
  {
   "property": "C108",
   "status": "partial",
   "theorems": [
    "Verif.Stl.map_insert",
    "Verif.Stl.map_null",
    "Verif.Stl.map_get_partial",
    "Verif.Stl.map_get_missing_violated"
   ],
   "note": "False for get of a missing key in a map to objects."
  },
  {
   "property": "C109",
   "status": "partial",
   "theorems": [
    "Verif.Simd.split_by_string_partial",
    "Verif.Simd.split_by_string_violated",
    "Verif.Simd.split_by_empty_violated"
   ],
   "note": "Proved for separators of one or two bytes and for strings shorter than a block. False for longer separators."
  },
  {
   "property": "C110",
   "status": "proved",
   "theorems": [
    "Verif.StrCmp.compare_strings_lanes"
   ],
   "note": ""
  },
  {
   "property": "C111",
   "status": "partial",
   "theorems": [
    "Verif.Memory.Threads.thread_blocks_disjoint",
    "Verif.Memory.Threads.thread_no_race",
    "Verif.Memory.Threads.thread_vector_exclusive",
    "Verif.Memory.Threads.thread_arenas_complete",
    "Verif.Memory.Threads.memory_usage_quiet",
    "Verif.Memory.Threads.reset_quiet",
    "Verif.Memory.Threads.reset_race_violated"
   ],
   "note": "Disjointness and completeness hold for every interleaving; Reset and MemoryUsage race with allocations of other threads."
  },
  {
   "property": "C112",
   "status": "partial",
   "theorems": [
    "Verif.Gen.Flt.float_compare_partial",
    "Verif.Gen.Flt.float_ne_nan_violated"
   ],
   "note": "False for != with a NaN, which is false."
  },
  {
   "property": "C113",
   "status": "partial",
   "theorems": [
    "Verif.Gen.Flt.mixed_compare_partial",
    "Verif.Gen.Flt.mixed_compare_order_partial",
    "Verif.Gen.Flt.mixed_compare_violated"
   ],
   "note": "Exact for integers within the significand; comparisons are never reversed for larger ones, but different numbers may compare equal."
  },
  {
   "property": "C114",
   "status": "partial",
   "theorems": [
    "Verif.Gen.Flt.float_to_int_partial",
    "Verif.Gen.Flt.float_to_int_violated",
    "Verif.Gen.Flt.int_float_int"
   ],
   "note": "Undefined exactly for NaN, infinities and values out of range."
  },
  {
   "property": "C115",
   "status": "proved",
   "theorems": [
    "Verif.Gen.Flt.max_float",
    "Verif.Gen.Flt.min_float",
    "Verif.Gen.Flt.max_min_int"
   ],
   "note": ""
  },
  {
   "property": "C116",
   "status": "partial",
   "theorems": [
    "Verif.Gen.MathFns.int_pow_partial",
    "Verif.Gen.MathFns.int_pow_violated"
   ],
   "note": "Exact up to 53 bits; undefined out of range, wrong from 2^53 on."
  },
  {
   "property": "C117",
   "status": "partial",
   "theorems": [
    "Verif.Gen.MathFns.rounding_agrees_partial",
    "Verif.Gen.MathFns.scalar_rounding_spec",
    "Verif.Gen.MathFns.round_violated"
   ],
   "note": "False for round half way between integers: scalars round away from zero, vectors to even."
  },
  {
   "property": "C118",
   "status": "partial",
   "theorems": [
    "Verif.Gen.MathFns.clamp_partial",
    "Verif.Gen.MathFns.clamp_violated",
    "Verif.Gen.MathFns.abs_diff_partial",
    "Verif.Gen.MathFns.abs_diff_violated"
   ],
   "note": "False with bounds in the wrong order and for differences that do not fit."
  },
  {
   "property": "C119",
   "status": "proved",
   "theorems": [
    "Verif.Simd.Transform.unary_transform",
    "Verif.Simd.Transform.binary_transform",
    "Verif.Simd.Transform.ternary_transform"
   ],
   "note": "The vector function is taken to be lane-wise."
  },
  {
   "property": "C120",
   "status": "partial",
   "theorems": [
    "Verif.Func.Json.json_access_partial",
    "Verif.Func.Json.json_access_violated"
   ],
   "note": "Undefined exactly if a member or element is missing."
  },
  {
   "property": "C121",
   "status": "partial",
   "theorems": [
    "Verif.Func.Json.json_extract_partial",
    "Verif.Func.Json.json_extract_violated"
   ],
   "note": "False for numbers that do not fit: cut or undefined."
  },
  {
   "property": "C122",
   "status": "partial",
   "theorems": [
    "Verif.Tbl.Schema.add_columns_partial",
    "Verif.Tbl.Schema.add_columns_failure_violated"
   ],
   "note": "False for failing calls: columns added before the failure stay and point to a freed row schema."
  },
  {
   "property": "C123",
   "status": "proved",
   "theorems": [
    "Verif.Tbl.Schema.column_by_name"
   ],
   "note": ""
  },
  {
   "property": "C124",
   "status": "partial",
   "theorems": [
    "Verif.Tbl.Schema.row_set_partial",
    "Verif.Tbl.Schema.row_set_violated"
   ],
   "note": "False when a row type occurs twice: the first set of rows is used for both."
  },
  {
   "property": "C125",
   "status": "partial",
   "theorems": [
    "Verif.Tbl.Schema.extend_schema_partial",
    "Verif.Tbl.Schema.extend_schema_violated"
   ],
   "note": "False when the vector of columns grows; exact condition proved."
  },
  {
   "property": "C126",
   "status": "partial",
   "theorems": [
    "Verif.Schemas.registry_partial",
    "Verif.Schemas.registry_one_schema",
    "Verif.Schemas.registry_nested_violated",
    "Verif.Schemas.registry_kind_violated",
    "Verif.Schemas.registry_get_violated"
   ],
   "note": "False for nested requests (deadlock), kinds that differ and unknown tables."
  },
  {
   "property": "C127",
   "status": "partial",
   "theorems": [
    "Verif.Tbl.Cells.struct_cell_partial",
    "Verif.Tbl.Cells.struct_cell_other",
    "Verif.Tbl.Cells.struct_cell_violated"
   ],
   "note": "False for StringView members, std::vector<bool>, strings returned by value, vectors and arrays returned by methods, pointers to strings: accepted, but shown as empty."
  },
  {
   "property": "C128",
   "status": "partial",
   "theorems": [
    "Verif.Tbl.Cells.pb_cell",
    "Verif.Tbl.Cells.pb_repeated_partial",
    "Verif.Tbl.Cells.pb_repeated_violated"
   ],
   "note": "Single fields are exact. False for repeated fields: freed memory is read."
  },
  {
   "property": "C129",
   "status": "partial",
   "theorems": [
    "Verif.Tbl.Cells.fb_cell_partial",
    "Verif.Tbl.Cells.fb_repeated_partial",
    "Verif.Tbl.Cells.fb_cell_violated"
   ],
   "note": "False for fields left out: numbers are shown as 0 instead of the default, strings and vectors dereference a null pointer."
  },
  {
   "property": "C130",
   "status": "partial",
   "theorems": [
    "Verif.Types.Names.type_string_partial",
    "Verif.Types.Names.type_names_determine_types_partial",
    "Verif.Types.Names.pointer_elements_same_name_violated",
    "Verif.Types.Names.array_lengths_same_name_violated",
    "Verif.Types.Names.nested_types_have_no_name_violated"
   ],
   "note": "Holds for types with an identifier, collections of them, maps to built-in types, and pointers to those. False for pointers and collections as elements, arrays, tuples and maps to classes."
  },
  {
   "property": "C131",
   "status": "partial",
   "theorems": [
    "Verif.Comp.Members.members_of_a_type_partial",
    "Verif.Comp.Members.registration_answer_partial",
    "Verif.Comp.Members.members_of_nested_types_violated"
   ],
   "note": "False for types with pointers or collections as elements: they share one set of members."
  },
  {
   "property": "C132",
   "status": "partial",
   "theorems": [
    "Verif.Comp.Members.member_calls_partial",
    "Verif.Comp.Members.never_another_function",
    "Verif.Comp.Members.member_calls_violated",
    "Verif.Comp.Members.member_calls_underscore_violated"
   ],
   "note": "Never another function; but a script in which two names coincide can not be linked."
  },
  {
   "property": "C133",
   "status": "partial",
   "theorems": [
    "Verif.Ast.Symbols.type_names_known_partial",
    "Verif.Ast.Symbols.registered_before_compiler_known",
    "Verif.Ast.Symbols.type_registered_later_unknown_violated",
    "Verif.Ast.Symbols.primitive_alias_unknown_violated"
   ],
   "note": "Exact for every history. False for registrations after the last compiler was created, and for names given to primitive types."
  },
  {
   "property": "C134",
   "status": "partial",
   "theorems": [
    "Verif.Ast.SymbolsRace.one_writer",
    "Verif.Ast.SymbolsRace.no_race_partial",
    "Verif.Ast.SymbolsRace.symbols_race_violated"
   ],
   "note": "No two writers; no race if threads only compile or only create compilers; a race otherwise."
  },
  {
   "property": "C135",
   "status": "proved",
   "theorems": [
    "Verif.Comp.Pipeline.number_expression",
    "Verif.Comp.Pipeline.condition_expression",
    "Verif.Comp.Pipeline.number_exact",
    "Verif.Comp.Pipeline.condition_exact",
    "Verif.Comp.Pipeline.every_expression_has_text"
   ],
   "note": "From the text to the value, by composition of lexer, parser, code generation, literals and operators."
  },
  {
   "property": "C136",
   "status": "proved",
   "theorems": [
    "Verif.Comp.Function.function_computes",
    "Verif.Comp.Function.function_returns",
    "Verif.Comp.Function.call_deterministic",
    "Verif.Comp.Function.every_function_has_text"
   ],
   "note": "From the text of a function to its result, by composition of lexer, parser, basic blocks, slots and code of expressions."
  },
  {
   "property": "C137",
   "status": "partial",
   "theorems": [
    "Verif.Comp.StrLit.literals_denote_partial",
    "Verif.Comp.StrLit.literals_verbatim",
    "Verif.Comp.StrLit.every_plain_string_has_literal",
    "Verif.Comp.StrLit.escaped_literal_violated",
    "Verif.Comp.StrLit.quote_violated"
   ],
   "note": "Holds for literals without backslash. A backslash stays in the string; no literal begins with a quote."
  },
  {
   "property": "C138",
   "status": "partial",
   "theorems": [
    "Verif.Comp.Vars.read_variables_written_partial",
    "Verif.Comp.Vars.unwritten_variable_violated"
   ],
   "note": "Holds if variables are defined with a value and not used after the block of their definition. Otherwise a variable defined in a branch can be read after it (the check of the generated code that would find this is compiled only into debug builds)."
  },
  {
   "property": "C139",
   "status": "partial",
   "theorems": [
    "Verif.Comp.Vars.variable_places_exist_partial",
    "Verif.Comp.Vars.place_in_branch_violated"
   ],
   "note": "False for a variable that gets its first value in a branch: the place is made there only."
  },
  {
   "property": "C140",
   "status": "partial",
   "theorems": [
    "Verif.Comp.Vars.stack_bounded_partial",
    "Verif.Comp.Vars.stack_of_loop",
    "Verif.Comp.Vars.stack_in_loop_violated"
   ],
   "note": "False for loops with definitions, string literals or arrays in them: every iteration takes new stack until the function returns."
  },
  {
   "property": "C141",
   "status": "partial",
   "theorems": [
    "Verif.Comp.Accept.accepted_script_compiles_partial",
    "Verif.Comp.Accept.assignment_of_other_type_violated",
    "Verif.Comp.Accept.update_of_larger_type_violated",
    "Verif.Comp.Accept.string_argument_violated",
    "Verif.Comp.Accept.unassigned_variable_violated"
   ],
   "note": "Holds for statements that keep to the types of their variables. Accepted and then refused: x = 2.5 and x += 2.5 for an integer x, a std::string passed for a view (its conversion is not declared), a variable used in its own definition."
  },
  {
   "property": "C142",
   "status": "partial",
   "theorems": [
    "Verif.Comp.Accept.expression_type_predicted_partial",
    "Verif.Comp.Accept.select_type_violated"
   ],
   "note": "Exact unless c ? t : f has a t of a larger type of number: predicted is the type of f, computed is the larger."
  },
  {
   "property": "C143",
   "status": "proved",
   "theorems": [
    "Verif.Comp.Script.script_computes",
    "Verif.Comp.Script.script_result_unique",
    "Verif.Comp.Script.returned_value_stays",
    "Verif.Comp.Script.every_script_has_text"
   ],
   "note": "From the text of a script with calls and recursion to the results of its functions."
  },
  {
   "property": "C144",
   "status": "proved",
   "theorems": [
    "Verif.Comp.VecPipe.vector_expression",
    "Verif.Comp.VecPipe.vector_condition",
    "Verif.Comp.VecPipe.without_context_refused",
    "Verif.Comp.VecPipe.every_vector_expression_has_text"
   ],
   "note": "From the text of a vector expression of integers to the elements of the result."
  },
  {
   "property": "C145",
   "status": "partial",
   "theorems": [
    "Verif.Comp.VecPipe.number_first_violated",
    "Verif.Comp.VecPipe.selection_partial",
    "Verif.Comp.VecPipe.vector_expression"
   ],
   "note": "False: x > 0 ? 1 : x with 64-bit elements. Proved in parentheses, inside larger expressions, and for numbers of the elements' type."
  },
  {
   "property": "C146",
   "status": "proved",
   "theorems": [
    "Verif.Simd.Distance.l2_distance",
    "Verif.Simd.Distance.cosine_distance",
    "Verif.Simd.Distance.distance_sizes"
   ],
   "note": "For exact arithmetic; floating point rounding is not modelled."
  },
  {
   "property": "C147",
   "status": "partial",
   "theorems": [
    "Verif.Simd.Distance.dot_partial",
    "Verif.Simd.Distance.dot_violated",
    "Verif.Simd.Distance.dot_sizes"
   ],
   "note": "False for vectors with fewer elements than lanes in memory that ends with them: a whole block is read. Proved otherwise."
  },
  {
   "property": "C148",
   "status": "proved",
   "theorems": [
    "Verif.Ast.Pool.destroyed_exactly_once",
    "Verif.Ast.Pool.no_reuse_before_destruction",
    "Verif.Ast.Pool.existing_objects_have_memory",
    "Verif.Ast.Pool.reverse_order"
   ],
   "note": "On the arena model of C07."
  },
  {
   "property": "C149",
   "status": "proved",
   "theorems": [
    "Verif.Func.OpNames.names_apart",
    "Verif.Func.OpNames.names_exist",
    "Verif.Func.OpNames.cached_names"
   ],
   "note": "All pairs of operations and built-in types."
  },
  {
   "property": "C150",
   "status": "proved",
   "theorems": [
    "Verif.Comp.Holder.function_keeps_code",
    "Verif.Comp.Holder.unneeded_code_freed"
   ],
   "note": "All histories of compilers and function objects."
  },
  {
   "property": "C151",
   "status": "partial",
   "theorems": [
    "Verif.Comp.Holder.from_cache_violated",
    "Verif.Comp.Holder.from_cache_partial"
   ],
   "note": "False: moving does not carry the flag, in a new object it has no value."
  },
  {
   "property": "C152",
   "status": "proved",
   "theorems": [
    "Verif.Comp.Real.real_expression",
    "Verif.Comp.Real.every_real_expression_has_text"
   ],
   "note": "From the text of an expression with floating point numbers and built-in functions to its value; f16, f80, named constants and ^ are left out."
  },
  {
   "property": "C153",
   "status": "proved",
   "theorems": [
    "Verif.Comp.VecFn.vector_function",
    "Verif.Comp.VecFn.without_context_refused",
    "Verif.Comp.VecFn.every_vector_function_has_text"
   ],
   "note": "From the text of a function over vectors with local variables to the elements of the result. With the built-in mathematical functions and comparisons of strings; control flow, other uses of strings, calls of other functions and new variables that are just another vector are left out."
  },
  {
   "property": "C154",
   "status": "partial",
   "theorems": [
    "Verif.Comp.VecFn.vector_copy_violated",
    "Verif.Comp.VecFn.vector_copy_partial",
    "Verif.Comp.VecFn.vector_function"
   ],
   "note": "False for auto y = x: both names stand for one vector. Proved for assignments to variables that have a vector."
  },
  {
   "property": "C155",
   "status": "partial",
   "theorems": [
    "Verif.Comp.VecFn.accepted_assignment_violated",
    "Verif.Comp.VecFn.accepted_function_partial"
   ],
   "note": "False for numbers assigned to vectors and vectors to numbers. Proved for the functions of C153."
  },
  {
   "property": "C156",
   "status": "proved",
   "theorems": [
    "Verif.Comp.TableFn.table_function",
    "Verif.Comp.TableFn.every_table_function_has_text",
    "Verif.Comp.TableFn.someLib_ok"
   ],
   "note": "From the text of a function over tables to the rows of the result; bit columns, group_by, map and control flow are left out. someLib_ok: the contract of the sorting library can be met."
  },
  {
   "property": "C157",
   "status": "partial",
   "theorems": [
    "Verif.Comp.TableFn.sorted_column_violated",
    "Verif.Comp.TableFn.sorted_column_partial"
   ],
   "note": "False if the key is a single column: it is sorted in place. Proved for functions with computed keys."
  },
  {
   "property": "C158",
   "status": "proved",
   "theorems": [
    "Verif.Comp.RealFn.real_function_computes",
    "Verif.Comp.RealFn.real_function_returns",
    "Verif.Comp.RealFn.real_call_deterministic",
    "Verif.Comp.RealFn.every_real_function_has_text"
   ],
   "note": "From the text of a function with control flow over booleans, integers, f32 and f64 with built-in functions to its result. Excluded as in C136: variables defined by another variable alone (C37) or by an uneven choice (C142), control that C36 excludes; f16, f80."
  },
  {
   "property": "C159",
   "status": "proved",
   "theorems": [
    "Verif.Wrapped.method_called",
    "Verif.Wrapped.one_place_no_clash",
    "Verif.Wrapped.two_methods"
   ],
   "note": "Under the stated condition on hashes; a 64-bit hash cannot be injective on all names."
  },
  {
   "property": "C160",
   "status": "proved",
   "theorems": [
    "Verif.Pb.repeated_find",
    "Verif.Pb.map_contains",
    "Verif.Pb.null_container",
    "Verif.Pb.fbs_get"
   ],
   "note": "Protobuf and flatbuffers containers themselves by their documentation."
  },
  {
   "property": "C161",
   "status": "partial",
   "theorems": [
    "Verif.Pb.repeated_get_partial",
    "Verif.Pb.map_get_partial",
    "Verif.Pb.repeated_get_range_violated",
    "Verif.Pb.map_get_message_violated",
    "Verif.Pb.set_string_null_violated"
   ],
   "note": "False for indices outside, missing keys of maps to messages, and string setters of null messages."
  },
  {
   "property": "C162",
   "status": "proved",
   "theorems": [
    "Verif.Comp.Words.words_expression",
    "Verif.Comp.Words.every_words_expression_has_text"
   ],
   "note": "From the text of an expression with strings to its value; starts_with_ignore_case/ends_with_ignore_case (C16) are left out."
  },
  {
   "property": "C163",
   "status": "proved",
   "theorems": [
    "Verif.Comp.WordsFn.words_function_computes",
    "Verif.Comp.WordsFn.words_function_returns",
    "Verif.Comp.WordsFn.words_call_deterministic",
    "Verif.Comp.WordsFn.every_words_function_has_text"
   ],
   "note": "From the text of a function with strings to its calls. A variable is not defined by another variable alone (C37), and branches of `? :` have one type (C142)."
  },
  {
   "property": "C164",
   "status": "proved",
   "theorems": [
    "Verif.Simd.Sort.sorts_in_place",
    "Verif.Simd.Sort.sort_refused",
    "Verif.Simd.Sort.history_keeps_elements",
    "Verif.Simd.Sort.exampleLib_keeps"
   ],
   "note": "The sorting library is a parameter with its documented contract; exampleLib_keeps: the contract can be met. Calls outside the contract are an outcome of their own."
  },
  {
   "property": "C165",
   "status": "proved",
   "theorems": [
    "Verif.Comp.VecWords.vector_with_literal",
    "Verif.Comp.VecWords.vector_with_string",
    "Verif.Comp.VecWords.vector_with_vector",
    "Verif.Comp.VecWords.column_with_literal",
    "Verif.Comp.VecWords.column_with_string"
   ],
   "note": "Comparisons of two single strings in an expression with vectors are left out."
  },
  {
   "property": "C166",
   "status": "partial",
   "theorems": [
    "Verif.Comp.FieldsFn.fields_function_computes_partial",
    "Verif.Comp.FieldsFn.fields_call_deterministic",
    "Verif.Comp.FieldsFn.every_fields_function_has_text",
    "Verif.Comp.FieldsFn.boolean_field_violated",
    "Verif.Comp.FieldsFrame.other_contents_kept"
   ],
   "note": "Proved for fields that are numbers, strings or embedded structs. False of boolean fields: a function that returns one is well typed and refused (boolean_field_violated)."
  },
  {
   "property": "C167",
   "status": "partial",
   "theorems": [
    "Verif.Ctx.NewVec.vectors_show_elements_partial",
    "Verif.Ctx.NewVec.undefined_only_readonly",
    "Verif.Ctx.NewVec.calls_possible",
    "Verif.Ctx.NewVec.other_memory_kept",
    "Verif.Ctx.NewVec.booleans_kept",
    "Verif.Ctx.NewVec.set_readonly_violated"
   ],
   "note": "Proved for histories in which no element of a vector that must not be written is set; there the code writes through the null pointer instead of reporting an error (set_readonly_violated, undefined_only_readonly). Vectors of fewer than 2^30 elements. Vectors of strings and of pointers are not modelled."
  },
  {
   "property": "C168",
   "status": "partial",
   "theorems": [
    "Verif.Memory.ArenaStr.strings_live_in_their_arena_partial",
    "Verif.Memory.ArenaStr.strings_without_reset_partial",
    "Verif.Memory.ArenaStr.never_wrong_text",
    "Verif.Memory.ArenaStr.assigned_string_violated",
    "Verif.Memory.ArenaStr.moved_string_violated",
    "Verif.Memory.ArenaStr.later_text_violated"
   ],
   "note": "Proved for histories in which strings are assigned and moved inside one arena, and for histories without resets. False of assignments between arenas: the allocator goes along, and the text is lost when the other arena is reset."
  },
  {
   "property": "C169",
   "status": "partial",
   "theorems": [
    "Verif.Tbl.Indices.indices_after_first_partial",
    "Verif.Tbl.Indices.first_call_alone",
    "Verif.Tbl.Indices.table_indices",
    "Verif.Tbl.Indices.first_calls_violated",
    "Verif.Tbl.Indices.first_calls_race_violated"
   ],
   "note": "Proved for all orders of steps after one call has ended, for the first call alone, and for all histories of one table. False of first calls on several threads at once: one can get the numbers 0, 0, \u2026 (first_calls_violated), or both resize the shared vector (first_calls_race_violated)."
  },
  {
   "property": "C170",
   "status": "proved",
   "theorems": [
    "Verif.Comp.DynFn.dyn_function_computes",
    "Verif.Comp.DynFn.dyn_call_deterministic",
    "Verif.Comp.DynFn.host_sets",
    "Verif.Comp.DynFn.unknown_field_refused",
    "Verif.Comp.DynFn.every_dyn_function_has_text",
    "Verif.Comp.FieldsFrame.dyn_other_fields_kept"
   ],
   "note": "The function is given objects of the schemas of its arguments; the code does not check the schema of the object passed. Boolean fields are refused in statements (C166)."
  },
  {
   "property": "C171",
   "status": "proved",
   "theorems": [
    "Verif.Exec.EvalText.evaluated_text",
    "Verif.Exec.EvalText.evaluated_texts",
    "Verif.Exec.EvalText.other_text_refused",
    "Verif.Exec.EvalText.every_call_answered",
    "Verif.Exec.EvalText.evaluated_twice"
   ],
   "note": "Without the condition on names it is false: see swapped_names_violated in C02."
  },
  {
   "property": "C172",
   "status": "partial",
   "theorems": [
    "Verif.Tbl.History.tables_hold_rows_partial",
    "Verif.Tbl.History.head_of_all_rows_violated"
   ],
   "note": "Proved for histories in which no rows are added to a table that was returned by Head or Tail of a table with no more rows than asked for (or to that table): the result is the table itself, so it changes with it (head_of_all_rows_violated). Tail(0) is C59, calls of AddRows that fail half way C64. Columns are C74."
  },
  {
   "property": "C173",
   "status": "proved",
   "theorems": [
    "Verif.Types.ParamTree.reads_last_write",
    "Verif.Types.ParamTree.value_stays"
   ],
   "note": "Trees without parents (parents are C23). The condition is needed: see mixed_use_violated in the same module, an array that is also used as an object loses elements."
  },
  {
   "property": "C174",
   "status": "partial",
   "theorems": [
    "Verif.Tbl.Lifetime.tables_live_partial",
    "Verif.Tbl.Lifetime.head_after_drop_violated"
   ],
   "note": "Proved for programs that do not destroy a table that is shared as in C172. False of Head(k) and Tail(k) of a table with no more rows than asked for: the result is the table itself and dies with it (head_after_drop_violated)."
  },
  {
   "property": "C175",
   "status": "partial",
   "theorems": [
    "Verif.Ctx.ResetOrder.destructors_read_partial",
    "Verif.Ctx.ResetOrder.large_piece_violated"
   ],
   "note": "Proved for destructors that read pieces of at most 4080 bytes. False of every larger piece: Reset gives its block back to the system before it runs the destructors (large_piece_violated). Destructors that allocate from the context are not modelled."
  },
  {
   "property": "C176",
   "status": "partial",
   "theorems": [
    "Verif.Tbl.KeyBytes.grouped_by_values_partial",
    "Verif.Tbl.KeyBytes.boolean_column_violated",
    "Verif.Tbl.KeyBytes.negative_number_violated",
    "Verif.Tbl.KeyBytes.no_columns_violated"
   ],
   "note": "Proved for at least one column, of integers, strings and finite floating point numbers above -1 and below 2^64. False of a boolean column: every row gets its own table (boolean_column_violated). Undefined for a floating point number of at most -1, NaN or infinity (negative_number_violated) and for an empty list of columns (no_columns_violated)."
  },
  {
   "property": "C177",
   "status": "partial",
   "theorems": [
    "Verif.Tbl.Typed.taken_out_at_type",
    "Verif.Tbl.Typed.right_types_accepted_partial",
    "Verif.Tbl.Typed.refused_halfway_violated"
   ],
   "note": "The types are right in every history (taken_out_at_type). That calls succeed exactly with the right types and nothing is read past the end is proved as long as no AddRows or InsertRow is refused halfway (lists of different lengths or types in another order); after such a call Foreach is undefined (refused_halfway_violated). One row schema for each C++ type is assumed."
  },
  {
   "property": "C178",
   "status": "partial",
   "theorems": [
    "Verif.Ctx.Random.one_sequence_partial",
    "Verif.Ctx.Random.reproducible_partial",
    "Verif.Ctx.Random.later_seed_violated",
    "Verif.Ctx.Random.same_seed_again_violated",
    "Verif.Ctx.Random.after_reset_violated"
   ],
   "note": "Proved for the seed of the first request on a context that is not reset afterwards. Later seeds are ignored (later_seed_violated), a repeated request continues the sequence (same_seed_again_violated), and a request after a reset uses a destroyed generator (after_reset_violated). The generator itself is library code and a parameter."
  },
  {
   "property": "C179",
   "status": "partial",
   "theorems": [
    "Verif.Memory.Destroy.released_once_partial",
    "Verif.Memory.Destroy.std_vector_violated",
    "Verif.Memory.Destroy.disabled_in_map_violated"
   ],
   "note": "Proved for all types in which standard containers (with the standard allocator) have elements that need destructors and classes with disabled destructors are neither in them nor in maps. A standard container of elements without destructors is taken for one of the arena, so its memory is never freed, on libraries that answer through the specialised trait (std_vector_violated); disabled destructors in maps are run (disabled_in_map_violated). Erasing elements is not modelled."
  },
  {
   "property": "C180",
   "status": "partial",
   "theorems": [
    "Verif.Gen.MulAdd.agree_partial",
    "Verif.Gen.MulAdd.accurate_partial",
    "Verif.Gen.MulAdd.scalar_fms_violated",
    "Verif.Gen.MulAdd.vector_fma_violated"
   ],
   "note": "Proved where the product is a number of the format, of fma with fused instructions and of the others without; the error bound holds always. fms (and likewise fnma, fnms) of scalars is rounded twice (scalar_fms_violated), fma of vectors is on processors without fused instructions (vector_fma_violated). Infinities, NaN and the sign of zero are not modelled."
  },
  {
   "property": "C181",
   "status": "partial",
   "theorems": [
    "Verif.Types.TypeIds.numbers_of_types_partial",
    "Verif.Types.TypeIds.type_ids",
    "Verif.Types.TypeIds.no_deadlock",
    "Verif.Types.TypeIds.two_units_violated",
    "Verif.Types.Descriptors.descriptors_partial",
    "Verif.Types.Descriptors.descriptors_violated",
    "Verif.Types.TypeIds.calls_are_short",
    "Verif.Types.TypeIds.calls_return"
   ],
   "note": "Proved for TypeID::Get and Context::GetTypeId (type_ids) and for get_dtype when all numbers come from one translation unit. False of get_dtype otherwise: two classes from two units get the same number (two_units_violated), because nextTypeId in dtype.h is a static function of a header."
  },
  {
   "property": "C182",
   "status": "partial",
   "theorems": [
    "Verif.Log.EveryN.every_nth_partial",
    "Verif.Log.EveryN.recovers_partial",
    "Verif.Log.EveryN.counter_bounds",
    "Verif.Log.EveryN.lost_violated"
   ],
   "note": "Proved for executions that do not overlap, from the start (every_nth_partial) and after any history of overlapping ones (recovers_partial). Overlapping executions lose messages, even the first (lost_violated), because the counter is read again after it was changed."
  },
  {
   "property": "C183",
   "status": "partial",
   "theorems": [
    "Verif.Pool.Global.one_pool_partial",
    "Verif.Pool.Global.initialised_first_partial",
    "Verif.Pool.Global.init_at_the_same_time_violated",
    "Verif.Pool.Global.init_afterwards_violated",
    "Verif.Pool.Global.no_limit_violated",
    "Verif.Pool.Global.calls_return",
    "Verif.Pool.Global.no_deadlock"
   ],
   "note": "Proved when only get is called and when init has returned before. An init at the same time as a get hands out two pools (init_at_the_same_time_violated), a later one has no effect (init_afterwards_violated), and with a limit of zero the pool has 8 threads (no_limit_violated). What a pool does with its work is C67 to C69."
  },
  {
   "property": "C184",
   "status": "partial",
   "theorems": [
    "Verif.Log.Logger.set_between_partial",
    "Verif.Log.Logger.kept_partial",
    "Verif.Log.Logger.destroyed_violated",
    "Verif.Log.Logger.lost_violated"
   ],
   "note": "Proved when the logger is set while no thread logs, and for loggers the user keeps. A logger replaced while a thread logs is used after its destruction (destroyed_violated); a message is lost when none is set between the two looks at the pointer (lost_violated). Levels are not modelled."
  },
  {
   "property": "C185",
   "status": "proved",
   "theorems": [
    "Verif.Comp.VecMistake.mistakes_refused"
   ],
   "note": "For expressions of numbers and vectors of integers; strings, floating point numbers, calls and assignments are left out."
  }
 ]
}