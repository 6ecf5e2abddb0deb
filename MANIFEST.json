{
 "claims": [
  {
   "property": "C01",
   "status": "proved",
   "theorems": [
    "Laik.C01_intersect_mem",
    "Laik.C01_intersect_null_iff",
    "Laik.C01_intersect_abort_iff",
    "Laik.C01_intersect_comm",
    "Laik.C01_intersect_invalid",
    "Laik.C01_empty_input_not_null"
   ],
   "note": "Membership iff, null iff disjoint (non-empty inputs), symmetry, abort iff different spaces. C01_empty_input_not_null records that for an empty input a non-null empty range may be returned."
  },
  {
   "property": "C02",
   "status": "proved",
   "theorems": [
    "Laik.C02_isEmpty_iff",
    "Laik.C02_within_iff",
    "Laik.C02_within_sound",
    "Laik.C02_within_incomplete_empty",
    "Laik.C02_expand_least",
    "Laik.C02_isEqual_iff",
    "Laik.C02_size_counts",
    "Laik.C02_size_ok_iff"
   ],
   "note": "All five operations; within/isEqual/expand for non-empty ranges as stated, soundness of within for all; C02_within_incomplete_empty records the behaviour on empty ranges."
  },
  {
   "property": "C03",
   "status": "partial",
   "theorems": [
    "Laik.Codec.C03_roundtrip",
    "Laik.Codec.C03_injective",
    "Laik.Codec.C03_update_equiv",
    "Laik.Codec.C03_fresh_space_undefined",
    "Laik.Codec.C03_fits_1d_2d",
    "Laik.Codec.C03_fits_3d_iff",
    "Laik.Codec.C03_overflow_3d"
   ],
   "note": "Round trip proved for all integers; the property as a whole is false of the code: C03_fresh_space_undefined (range.space never set for a space obtained from the store) and C03_overflow_3d (100 byte buffer)."
  },
  {
   "property": "C04",
   "status": "proved",
   "theorems": [
    "Laik.C04_covers_sound"
   ],
   "note": "For every range list and every result of the sort."
  },
  {
   "property": "C05",
   "status": "partial",
   "theorems": [
    "Laik.C05_covers_complete_partial",
    "Laik.C05_covers_1d_partial",
    "Laik.C05_false_negative",
    "Laik.C05_empty_space_false",
    "Laik.C05_abort_on_covered",
    "Laik.C05_few_partial"
   ],
   "note": "False of the code in general: three witnesses (false negative, empty space, abort). Proved for non-empty space and ranges when no abort; 1d case with covered space fully including no abort; C05_few_partial: always an answer, and the right one, for few ranges (6, 3, 2 in 1, 2, 3 dimensions)."
  },
  {
   "property": "C06",
   "status": "proved",
   "theorems": [
    "Laik.C06_freeze_keeps_entries",
    "Laik.C06_freeze_merge_ownership",
    "Laik.C06_merge_empty_aborts",
    "Laik.C06_merge_multidim_aborts",
    "Laik.C06_freeze_single_index"
   ],
   "note": "Any appended list, any result of qsort, generic and single-index storage. Merging never changes ownership; merged ranges are separated. Merging an empty list aborts (C06_merge_empty_aborts)."
  },
  {
   "property": "C07",
   "status": "partial",
   "theorems": [
    "Laik.C07_enumerate",
    "Laik.C07_after_merge",
    "Laik.C07_maps_partial",
    "Laik.C07_single_index",
    "Laik.C07_tag_minus_one"
   ],
   "note": "Enumeration proved in full. Map numbering proved for tags >= 0; false for tag -1 (C07_tag_minus_one). In single-index storage all ranges share map 0 (C07_single_index)."
  },
  {
   "property": "C08",
   "status": "partial",
   "theorems": [
    "Laik.C08_list_success",
    "Laik.C08_list_ownership",
    "Laik.C08_table",
    "Laik.C08_migrate_partial",
    "Laik.C08_owner_missing_aborts",
    "Laik.C08_two_generations_abort",
    "Laik.C08_stale_map_cache_aborts",
    "Laik.C08_stale_map_offsets",
    "Laik.C08_single_index_maps_change",
    "Laik.C08_second_migration_undefined"
   ],
   "note": "Ownership by physical process preserved and success proved for all six derivation relations; excluded: filter id -1 (C08_second_migration_undefined). False parts: stale map cache after migration, changed map structure for single-index lists."
  },
  {
   "property": "C09",
   "status": "partial",
   "theorems": [
    "Laik.C09_process_filter",
    "Laik.C09_process_filter_frozen",
    "Laik.C09_index_filter_partial",
    "Laik.C09_index_filter_drops",
    "Laik.C09_index_filter_drops_tags",
    "Laik.C09_index_filter_no_own"
   ],
   "note": "Process filter proved in full; the index filter is proved for disjoint own ranges, with witnesses that it drops ranges otherwise."
  },
  {
   "property": "C10",
   "status": "proved",
   "theorems": [
    "Laik.C10_all",
    "Laik.C10_master",
    "Laik.C10_copy",
    "Laik.C10_copy_abort"
   ],
   "note": ""
  },
  {
   "property": "C11",
   "status": "proved",
   "theorems": [
    "Laik.C11_block_tiles"
   ],
   "note": "Any weight type and any arithmetic operations, no laws assumed."
  },
  {
   "property": "C12",
   "status": "partial",
   "theorems": [
    "Laik.C12_block_finishes_iff",
    "Laik.C12_block_loop_ends",
    "Laik.C12_block_aborts",
    "Laik.C12_block_empty_space",
    "Laik.C12_no_cycles"
   ],
   "note": "False as stated: proved that (exact arithmetic) it finishes iff count*cycles <= 2*size, with abort witnesses; loop termination for any arithmetic."
  },
  {
   "property": "C13",
   "status": "partial",
   "theorems": [
    "Laik.C13_bisection_tiles",
    "Laik.C13_bisection_finishes",
    "Laik.C13_bisection_finishes_pow2",
    "Laik.C13_bisection_aborts",
    "Laik.C13_bisection_empty_range"
   ],
   "note": "Tiling proved in full whenever it finishes; finishing proved for wide enough spaces and powers of two; abort witness for 2 indices and 5 processes."
  },
  {
   "property": "C14",
   "status": "partial",
   "theorems": [
    "Laik.C14_grid_tiles_partial",
    "Laik.C14_exact_borders",
    "Laik.C14_double_borders_divisible",
    "Laik.C14_grid_loses_index",
    "Laik.C14_grid_aborts"
   ],
   "note": "Tiling for all monotone border functions reaching both ends, for exact borders, and for binary64 borders when block count divides the size; witness that binary64 rounding loses an index (61 indices, 7 blocks)."
  },
  {
   "property": "C15",
   "status": "partial",
   "theorems": [
    "Laik.C15_corner_halo",
    "Laik.C15_halo_partial",
    "Laik.C15_halo_missing_at_border",
    "Laik.C15_halo_tag_zero_aborts"
   ],
   "note": "Corner halo proved; plain halo only away from borders, with witness of a missing halo at the border and abort for tag 0."
  },
  {
   "property": "C16",
   "status": "proved",
   "theorems": [
    "Laik.C16_reassign",
    "Laik.C16_ownership",
    "Laik.C16_stays_disjoint",
    "Laik.C16_migrates",
    "Laik.C16_remove_all_undefined",
    "Laik.C16_tag_lost"
   ],
   "note": "Non-empty shrunk groups; removing all processes is undefined (witness)."
  },
  {
   "property": "C17",
   "status": "partial",
   "theorems": [
    "Laik.C17_messages_match_partial",
    "Laik.C17_reductions_match_partial",
    "Laik.C17_filtered_lists_suffice",
    "Laik.C17_completes_iff",
    "Laik.C17_empty_range_aborts",
    "Laik.C17_overlap_aborts",
    "Laik.C17_unowned_aborts",
    "Laik.C17_large_range_aborts"
   ],
   "note": "The property is false for lists with empty ranges, overlapping ranges of one process, or borders more than 2^31 apart: the calculation aborts (C17_*_aborts). For all other lists, any group size, any sorting and any filtered lists containing own and overlapping ranges: messages and reductions of all pairs of processes match; completion is characterised exactly (C17_completes_iff)."
  },
  {
   "property": "C18",
   "status": "partial",
   "theorems": [
    "Laik.C18_delivers_partial",
    "Laik.C18_maps_hold_ranges",
    "Laik.C18_removeTask_wrong"
   ],
   "note": "Same conditions as C17 (non-empty, per-process disjoint, borders below 2^30). Exactly one value per target index, from the only source owner or reduced over exactly all source owners; operations refer to maps holding their range."
  },
  {
   "property": "C19",
   "status": "partial",
   "theorems": [
    "Laik.C19_messages_match_partial",
    "Laik.C19_messages_order_partial",
    "Laik.C19_delivers_partial",
    "Laik.C19_maps",
    "Laik.C19_missing_message",
    "Laik.C19_extra_message",
    "Laik.C19_order_differs"
   ],
   "note": "False of the code: messages sent but not expected, expected but not sent (e.g. All to Block), and different order (three witnesses). Proved without overlap in the source: same messages up to order; same order with at most one range on one side; every target index delivered exactly once."
  },
  {
   "property": "C20",
   "status": "proved",
   "theorems": [
    "Laik.C20_deadlock_free",
    "Laik.C20_pairing",
    "Laik.C20_terminates",
    "Laik.C20_unsorted_deadlock"
   ],
   "note": "Every reachable state of executions of 2-phase sorted sequences (buffered or rendezvous sends, collectives) can do a step without buffering or is done; executions are finite; receives get the message meant for them. Rounds of processes may be renumbered differently."
  },
  {
   "property": "C21",
   "status": "partial",
   "theorems": [
    "Laik.C21_sort_2phases_partial",
    "Laik.C21_sort_rounds_partial",
    "Laik.C21_phase_order",
    "Laik.C21_sort_unique",
    "Laik.C21_same_peer_order",
    "Laik.C21_gaps_remain"
   ],
   "note": "All but gap-free numbering when nothing is moved, which is false of the code (C21_gaps_remain)."
  },
  {
   "property": "C22",
   "status": "proved",
   "theorems": [
    "Laik.C22_combine_equiv",
    "Laik.C22_one_message",
    "Laik.C22_no_abort",
    "Laik.C22_empty_messages_abort",
    "Laik.C22_needs_independence"
   ],
   "note": "For sequences sorted by rounds in which actions of the same round are independent (needed: C22_needs_independence), for buffer sizes below 2^32 bytes. The new sequence may be sorted by its rounds in any way. Combining only empty messages aborts (C22_empty_messages_abort)."
  },
  {
   "property": "C23",
   "status": "partial",
   "theorems": [
    "Laik.C23_alloc_partial",
    "Laik.C23_disjoint_partial",
    "Laik.C23_no_abort_partial",
    "Laik.C23_ids_reserve",
    "Laik.C23_ids_use",
    "Laik.C23_ids_alloc",
    "Laik.C23_five_buffers",
    "Laik.C23_combine_within",
    "Laik.C23_wrap_overlap",
    "Laik.C23_wrap_no_buffer"
   ],
   "note": "Proved without 32-bit overflow: total reserved bytes and bytes per action below 2^32. With overflow it is false (C23_wrap_overlap, C23_wrap_no_buffer). IDs given by addBufReserve are fresh; combined actions fit their reservation; at most five buffers (C23_five_buffers)."
  },
  {
   "property": "C24",
   "status": "partial",
   "theorems": [
    "Laik.C24_reduction_unique",
    "Laik.C24_reduce3",
    "Laik.C24_reduce2",
    "Laik.C24_splitReduce_partial",
    "Laik.C24_no_abort",
    "Laik.C24_limit",
    "Laik.C24_mpi",
    "Laik.C24_tcp2_partial",
    "Laik.C24_tcp2_no_input",
    "Laik.C24_terminates",
    "Laik.C24_reduce2_differs"
   ],
   "note": "All interleavings, buffered FIFO channels: no deadlock, every output process gets a reduction of all inputs, equal for associative and commutative operations (and always for the central methods). False for more than 32 inputs (C24_limit: abort) and for the TCP2 backend without inputs (C24_tcp2_no_input); for other operations 2-round results differ (C24_reduce2_differs)."
  },
  {
   "property": "C25",
   "status": "partial",
   "theorems": [
    "Laik.C25_map_partial",
    "Laik.C25_strings",
    "Laik.C25_prefix_ignored",
    "Laik.C25_extension_undefined",
    "Laik.C25_remove_twice"
   ],
   "note": "Proved for all operation sequences in which a value set for a key is equal to, or not a prefix/extension of, the current value; in particular all strings set via laik_kvs_sets (C25_strings). False otherwise: prefix ignored, extension reads beyond the object."
  },
  {
   "property": "C26",
   "status": "partial",
   "theorems": [
    "Laik.C26_sync_partial",
    "Laik.C26_remove_aborts",
    "Laik.C26_double_change_aborts",
    "Laik.C26_no_change_aborts",
    "Laik.C26_small_aborts",
    "Laik.C26_double_change_master",
    "Laik.C26_conflict_one_aborts"
   ],
   "note": "All numbers of processes and rounds; needs per round at least one change with more than 3 bytes, no removal and no key changed twice by one process. Each of these restrictions is shown necessary (C26_*_aborts)."
  },
  {
   "property": "C27",
   "status": "partial",
   "theorems": [
    "Laik.C27_union",
    "Laik.C27_conflict_partial",
    "Laik.C27_conflict_strings",
    "Laik.C27_conflict_missed",
    "Laik.C27_duplicate_aborts",
    "Laik.C27_order"
   ],
   "note": "Union, order independence proved in full. Conflicts detected unless the difference is after a 0 byte (C27_conflict_missed); strings in full."
  },
  {
   "property": "C28",
   "status": "proved",
   "theorems": [
    "Laik.C28_members",
    "Laik.C28_tables"
   ],
   "note": "For any sorted order of the location array; groups with distinct locations."
  },
  {
   "property": "C29",
   "status": "proved",
   "theorems": [
    "Laik.C29_success",
    "Laik.C29_members",
    "Laik.C29_tables",
    "Laik.C29_translation"
   ],
   "note": "Any removal list including duplicates; abort iff an id is out of range."
  },
  {
   "property": "C30",
   "status": "proved",
   "theorems": [
    "Laik.C30_created",
    "Laik.C30_offsets_dense",
    "Laik.C30_offsets",
    "Laik.C30_section",
    "Laik.C30_mapno",
    "Laik.C30_count",
    "Laik.C30_maps_disjoint"
   ],
   "note": "Lexicographic layout: creation, dense offsets in lexicographic order, bounds, injectivity, section lookup, total size, disjointness of maps with disjoint allocations. Element-sized addresses, unbounded integers."
  },
  {
   "property": "C31",
   "status": "partial",
   "theorems": [
    "Laik.C31_piecewise_generic",
    "Laik.C31_piecewise_partial",
    "Laik.C31_strides_partial",
    "Laik.C31_pack_order_partial",
    "Laik.C31_mpi_partial",
    "Laik.C31_lex_wrong_section",
    "Laik.C31_piecewise_false"
   ],
   "note": "Any sequence of buffer sizes, any two layouts of the same dimensionality. Full for the generic functions (layout.c). For the specific functions of layout_lex.c only for mappings whose section has the strides of entry 0 (first section, 1d, same shape): the code uses the strides of entry 0, C31_lex_wrong_section and C31_piecewise_false show the failure."
  },
  {
   "property": "C32",
   "status": "partial",
   "theorems": [
    "Laik.C32_copy_generic",
    "Laik.C32_copy_partial",
    "Laik.C32_empty_rejected",
    "Laik.C32_lex_wrong_section"
   ],
   "note": "Full for the generic copy; for copy_lex under the same restriction on strides as C31 (C32_lex_wrong_section shows the failure). Source and destination cells must not overlap."
  },
  {
   "property": "C33",
   "status": "partial",
   "theorems": [
    "Laik.C33_consistent",
    "Laik.C33_same_cells",
    "Laik.C33_count",
    "Laik.C33_local_access",
    "Laik.C33_get_map_addr_partial",
    "Laik.C33_get_map_addr_iff",
    "Laik.C33_mapping_wf",
    "Laik.C33_get_map_addr_wrong"
   ],
   "note": "Same cells for pack/unpack/copy and for local access via laik_get_map_1d/2d/3d. laik_get_map_addr is only right if the required range starts at the start of the allocation (C33_get_map_addr_iff; C33_get_map_addr_wrong is a counterexample)."
  },
  {
   "property": "C34",
   "status": "partial",
   "theorems": [
    "Laik.C34_covering",
    "Laik.C34_covering_defined",
    "Laik.C34_global2local",
    "Laik.C34_round_trip_global",
    "Laik.C34_round_trip_local",
    "Laik.C34_owned_found",
    "Laik.C34_not_found_partial",
    "Laik.C34_no_gap",
    "Laik.C34_disjoint",
    "Laik.C34_cell",
    "Laik.C34_gap_found",
    "Laik.C34_mapno_unset"
   ],
   "note": "Covering ranges and all four translations proved for every list of mappings; local->global->local needs covering ranges of different maps to be disjoint (C34_disjoint: gap-free maps). The claim that an index not owned is not found is false for maps with gaps (C34_gap_found); mapNo is not reset without active mappings (C34_mapno_unset)."
  },
  {
   "property": "C35",
   "status": "partial",
   "theorems": [
    "Laik.C35_neutral_partial",
    "Laik.C35_minmax_wrong",
    "Laik.C35_minmax_swapped",
    "Laik.C35_neutral_false",
    "Laik.C35_init_range",
    "Laik.C35_no_input_partial",
    "Laik.C35_no_input_wrong",
    "Laik.C35_float_minmax_wrong"
   ],
   "note": "Integer types: neutral for Sum, Prod, And, Or (C35_neutral_partial); Min and Max start values are swapped (C35_minmax_wrong, C35_minmax_swapped, C35_float_minmax_wrong), so the full claim is false (C35_neutral_false). Reduce without input is right only for 8 bit types (C35_no_input_wrong)."
  },
  {
   "property": "C36",
   "status": "partial",
   "theorems": [
    "Laik.C36_order_independent_partial",
    "Laik.C36_always_defined",
    "Laik.C36_overflow_order",
    "Laik.C36_wrap_around",
    "Laik.C36_elementwise"
   ],
   "note": "Any order and bracketing gives the same result if no signed overflow occurs in any of them (C36_order_independent_partial); always for And/Or/Min/Max and for unsigned and 8/16 bit types (C36_always_defined). Signed 32/64 bit overflow is undefined and depends on order (C36_overflow_order). Floating point is not associative and not claimed."
  },
  {
   "property": "C37",
   "status": "partial",
   "theorems": [
    "Laik.C37_totals",
    "Laik.C37_current_mod",
    "Laik.C37_current",
    "Laik.C37_maximum",
    "Laik.C37_merge_partial",
    "Laik.C37_merge_max_bound",
    "Laik.C37_merge_max_wrong",
    "Laik.C37_merge_current_wrong",
    "Laik.C37_actions"
   ],
   "note": "Totals, current and maximum proved for one container; merging into the summary is only right for totals, with witnesses for current and maximum."
  },
  {
   "property": "C38",
   "status": "partial",
   "theorems": [
    "Laik.C38_any_cut_partial",
    "Laik.C38_same_partial",
    "Laik.C38_complete_partial",
    "Laik.C38_ctrl_d",
    "Laik.C38_quit_more",
    "Laik.C38_excess_depends",
    "Laik.C38_eof_data"
   ],
   "note": "Proved: for every stream of properly framed messages (lines that fit the receive buffer without control characters, blocks with exactly the data asked for) and every cut into reads the receiver ends in the same state, nothing pending, no fault. Missing: the claim for arbitrary byte streams, which is false of the code: Ctrl-D or quit followed by more bytes accesses the freed receive buffer, excess binary data is ignored or fails an assert depending on the cut, and a newline is stored as data when the connection closes within an element (theorems C38_ctrl_d, C38_quit_more, C38_excess_depends, C38_eof_data)."
  },
  {
   "property": "C39",
   "status": "partial",
   "theorems": [
    "Laik.C39_binary_partial",
    "Laik.C39_text_partial",
    "Laik.C39_big_element",
    "Laik.C39_text_overflow",
    "Laik.C39_istr_overflow"
   ],
   "note": "Proved end to end (sender loop, framing, any cut into reads, receiver): binary mode for element sizes 1..8189 and all ranges/layouts, with overwrite or reduction; text mode for elements up to 11 bytes (three dimensions: coordinates 0..10^14). Missing: larger elements, for which the code is wrong: binary mode fails an assert (C39_big_element), text mode overflows its 100 byte buffer from 30 bytes on (C39_text_overflow) and istr overflows 50 bytes for three large or negative coordinates (C39_istr_overflow)."
  },
  {
   "property": "C40",
   "status": "partial",
   "theorems": [
    "Laik.C40_resize_partial",
    "Laik.C40_nothing",
    "Laik.C40_same_group_partial",
    "Laik.C40_history_partial",
    "Laik.C40_group_limit",
    "Laik.C40_newcomer_shrink",
    "Laik.C40_remove_fails",
    "Laik.C40_error_peer"
   ],
   "note": "All processes (master, other old ones, newcomers) modelled with the messages between them, startup and finishing: for every series of resizes with requests which can be served (each process removed once, not the master, at most 256 LIDs) and any arrival order of enterresize and ok, all processes end each resize with the same members, order, translations and epoch (C40_same_group_partial, C40_history_partial). Missing: a newcomer is only covered if the world does not get smaller in the resize, because otherwise its translation is wrong (C40_newcomer_shrink), at most 49 changes of the world (C40_group_limit), no broken connections (C40_error_peer)."
  },
  {
   "property": "C41",
   "status": "partial",
   "theorems": [
    "Laik.C41_exactly_once_partial",
    "Laik.C41_served_now",
    "Laik.C41_world_of_served",
    "Laik.C41_set_world",
    "Laik.C41_epoch_master",
    "Laik.C41_epoch_peer",
    "Laik.C41_finish",
    "Laik.C41_lost_cutoff",
    "Laik.C41_kept_cutoff",
    "Laik.C41_removed_twice",
    "Laik.C41_joiner_gone",
    "Laik.C41_registered_twice",
    "Laik.C41_early_cutoff",
    "Laik.C41_early_lost",
    "Laik.C41_limit"
   ],
   "note": "Epoch and parent of the world proved for all states and messages (C41_epoch_master, C41_epoch_peer, C41_finish, C41_set_world). Requests are neither lost nor duplicated in all histories without closed connections, double registration, and cutoff in the second part of a resize (C41_exactly_once_partial); the exceptions are proved to lose requests or to fail."
  },
  {
   "property": "C42",
   "status": "proved",
   "theorems": [
    "Laik.C42_within",
    "Laik.C42_base",
    "Laik.C42_least",
    "Laik.C42_same_tag",
    "Laik.C42_different_tag",
    "Laik.C42_injective",
    "Laik.C42_succeeds",
    "Laik.C42_never_freed"
   ],
   "note": "Within, sharing for same tags, disjointness for different tags, least box, success. Also shown: memory of a reservation is never freed (C42_never_freed)."
  },
  {
   "property": "C43",
   "status": "partial",
   "theorems": [
    "Laik.C43_order",
    "Laik.C43_waits",
    "Laik.C43_wait_before_use",
    "Laik.C43_same_effect_partial",
    "Laik.C43_send_race",
    "Laik.C43_recv_buffer_used_early"
   ],
   "note": "Conversion of BufSend/BufRecv to non-blocking operations and sorting: order per peer, requests, place of waits proved for all sequences sorted by rounds. Equality of effects holds if buffers are not reused (C43_same_effect_partial); the code does not ensure this (C43_send_race; for switches see C52). Round limit 254 not modelled."
  },
  {
   "property": "C44",
   "status": "partial",
   "theorems": [
    "Laik.C44_sums",
    "Laik.C44_bytes_partial",
    "Laik.C44_bytes_overflow",
    "Laik.C44_reserve_aborts",
    "Laik.C44_local_sums",
    "Laik.C44_mpi_sums",
    "Laik.C44_combine"
   ],
   "note": "Sums proved for all sequences; bytes only if every message is smaller than 4 GiB (C44_bytes_overflow shows the wrap). Combining keeps element counts. Totals are unbounded numbers."
  },
  {
   "property": "C45",
   "status": "partial",
   "theorems": [
    "Laik.C45_mpi_ops_partial",
    "Laik.C45_mpi_logical",
    "Laik.C45_mpi_bool"
   ],
   "note": "Equal for Sum, Prod, Min, Max on all integer types; And/Or are mapped to logical instead of bitwise operations (C45_mpi_logical), which agree only on 0/1 (C45_mpi_bool). MPI library itself is trusted."
  },
  {
   "property": "C46",
   "status": "partial",
   "theorems": [
    "Laik.C46_clean",
    "Laik.C46_memory",
    "Laik.C46_no_ub_partial",
    "Laik.C46_bad_call",
    "Laik.C46_to_nothing_crash",
    "Laik.C46_outside_crash",
    "Laik.C46_user_shared"
   ],
   "note": "Proved for all sequences of calls which do not crash; the crashing calls are characterised and shown by witness; memory provided by the application may be used by two mappings."
  },
  {
   "property": "C47",
   "status": "partial",
   "theorems": [
    "Laik.C47_all",
    "Laik.C47_all_appended",
    "Laik.C47_all_owns",
    "Laik.C47_all_partitioner",
    "Laik.C47_all_single_index",
    "Laik.C47_all_incomplete",
    "Laik.C47_single",
    "Laik.C47_single_owns",
    "Laik.C47_master_partitioner",
    "Laik.C47_equal",
    "Laik.C47_equal_owns",
    "Laik.C47_equal_equivalence",
    "Laik.C47_equal_order",
    "Laik.C47_equal_maps",
    "Laik.C47_reduce",
    "Laik.C47_reduce_defined",
    "Laik.C47_reduce_aborts",
    "Laik.C47_reduce_overwritten",
    "Laik.C47_reduce_lost"
   ],
   "note": "isAll, isSingle, isEqual characterised exactly for all frozen lists. Input and output of 2d/3d reductions proved when the calculation does not abort; the result is overwritten by a local copy when source and target have separate memory (C47_reduce_overwritten), other 2d/3d reductions abort (C47_reduce_aborts)."
  },
  {
   "property": "C48",
   "status": "partial",
   "theorems": [
    "Laik.DE.C48_switch_completes_partial",
    "Laik.DE.C48_switch_delivers_partial",
    "Laik.DE.C48_switch_reaches_end",
    "Laik.DE.C48_reduction_order",
    "Laik.DE.C48_switch_exists_iff",
    "Laik.DE.C48_reduction_without_target_aborts"
   ],
   "note": "Proved for all 1d switches where each reduction has a target owner, which is exactly when the backend does not abort (C48_switch_exists_iff). Without any source owner the value is the unspecified content of the reducing process."
  },
  {
   "property": "C49",
   "status": "partial",
   "theorems": [
    "Laik.Sto.C49_allranges",
    "Laik.Sto.C49_myranges",
    "Laik.Sto.C49_transition_partial",
    "Laik.Sto.C49_calculated_partial",
    "Laik.Sto.C49_found_after_store",
    "Laik.Sto.C49_found_until_free",
    "Laik.Sto.C49_reused_address",
    "Laik.Sto.C49_merge_without_own"
   ],
   "note": "All and own ranges proved for all executions without reuse of addresses. Transitions need in addition ascending own ranges (else the index filter drops ranges, C09_index_filter_drops_tags). With reuse of an address false (C49_reused_address)."
  },
  {
   "property": "C50",
   "status": "partial",
   "theorems": [
    "Laik.Sgl.C50_no_new_partial",
    "Laik.Sgl.C50_new_separate_partial",
    "Laik.Sgl.C50_new_reused_partial",
    "Laik.Sgl.C50_new_needs_one_mapping",
    "Laik.Sgl.C50_new_reused_loses_values",
    "Laik.Sgl.C50_new_reads_outside"
   ],
   "note": "Proved for all switches without new indices, and with new indices for separate memory or reuse with same start. Otherwise false (C50_new_reused_loses_values, C50_new_reads_outside, C50_new_needs_one_mapping)."
  },
  {
   "property": "C51",
   "status": "partial",
   "theorems": [
    "Laik.Mp.C51_switch_completes_partial",
    "Laik.Mp.C51_switch_delivers_partial",
    "Laik.Mp.C51_switch_reaches_end",
    "Laik.Mp.C51_owners_agree_partial",
    "Laik.Mp.C51_switch_exists_iff",
    "Laik.Mp.C51_replicas_can_differ",
    "Laik.Mp.C51_many_inputs_abort",
    "Laik.Mp.C51_no_output_aborts"
   ],
   "note": "Proved for 1d containers and synchronous communication (asynchronous: C52). Owners agree only for associative and commutative reductions (C51_replicas_can_differ). Aborts for large or empty groups (C51_many_inputs_abort, C51_no_output_aborts)."
  },
  {
   "property": "C52",
   "status": "partial",
   "theorems": [
    "Laik.Mp.C52_switch_completes_partial",
    "Laik.Mp.C52_switch_delivers_partial",
    "Laik.Mp.C52_switch_reaches_end",
    "Laik.Mp.C52_same_as_blocking",
    "Laik.Mp.C52_switch_exists_iff",
    "Laik.Mp.C52_safe_without_overlap",
    "Laik.Mp.C52_in_place_race",
    "Laik.Mp.C52_pieces_race"
   ],
   "note": "Proved for 1d containers if reductions by messages with a process as input and output are neither in place nor in several pieces (AsyncSafe). False otherwise: C52_in_place_race, C52_pieces_race."
  },
  {
   "property": "C53",
   "status": "partial",
   "theorems": [
    "Laik.Mm.C53_channels_partial",
    "Laik.Mm.C53_received",
    "Laik.Mm.C53_sent",
    "Laik.Mm.C53_synchronous",
    "Laik.Mm.C53_tree",
    "Laik.Mm.C53_overlapping_groups",
    "Laik.Mm.C53_gives_up",
    "Laik.Mm.C53_exchange_blocks",
    "Laik.Mm.C53_lost_answer"
   ],
   "note": "Refinement to ideal channels for all executions if communicators of one generation share no process (Sep; C53_tree gives when that is so). Receives, sends and synchronous sends can be done from every reachable state (existence of a run; fairness is not modelled) if answers to GET and acknowledgements are not lost and attempts are left. False otherwise: C53_overlapping_groups, C53_gives_up, C53_lost_answer. C53_exchange_blocks: large messages exchanged by blocking sends block."
  },
  {
   "property": "C54",
   "status": "partial",
   "theorems": [
    "Laik.Mm.C54_results_partial",
    "Laik.Mm.C54_completes",
    "Laik.Mm.C54_barrier",
    "Laik.Mm.C54_sum",
    "Laik.Mm.C54_group",
    "Laik.Mm.C54_operations",
    "Laik.Mm.C54_ties_witness",
    "Laik.Mm.C54_hints_witness"
   ],
   "note": "For communicators with Sep of C53, sums, and different hints within +-2^30: results for all executions (C54_results_partial), no deadlock (C54_completes: from each state a run to the end; fairness not modelled), barrier, sums, groups of LAIK. False for other operations (C54_operations), equal hints (C54_ties_witness), hints far apart (C54_hints_witness)."
  },
  {
   "property": "C55",
   "status": "partial",
   "theorems": [
    "Laik.Tc.C55_values_partial",
    "Laik.Tc.C55_completes_partial",
    "Laik.Tc.C55_other_reductions_never_end"
   ],
   "note": "1d containers, memory as in C51, communicators with Sep of C53. Proved for all reductions if no collective is used, and for sums with collectives (C55_values_partial, C55_completes_partial); false for other reductions with collectives (C55_other_reductions_never_end). Assumes that answers to GET and notes that a message was taken are not lost, for no deadlock."
  },
  {
   "property": "C56",
   "status": "partial",
   "theorems": [
    "Laik.Ks.C56_values_partial",
    "Laik.Ks.C56_no_abort_partial",
    "Laik.Ks.C56_not_stuck_partial",
    "Laik.Ks.C56_terminates_partial",
    "Laik.Ks.C56_empty_string_hangs",
    "Laik.Ks.C56_removal_lost",
    "Laik.Ks.C56_set_and_removed_fails",
    "Laik.Ks.C56_long_key_cut",
    "Laik.Ks.C56_long_value_fails",
    "Laik.Ks.C56_long_name_fails",
    "Laik.Ks.C56_no_string_fails",
    "Laik.Ks.C56_blank_fails",
    "Laik.Ks.C56_conflict_fails"
   ],
   "note": "Proved for names, keys and strings which can be sent (at most 29/30 characters without white space; non-empty strings without leading white space or control characters; key and string together at most 89), if processes agree on strings set: C56_values_partial, C56_no_abort_partial, C56_not_stuck_partial, C56_terminates_partial. False otherwise, see the theorems C56_empty_string_hangs and following."
  },
  {
   "property": "C57",
   "status": "partial",
   "theorems": [
    "Laik.Ts.C57_values_partial",
    "Laik.Ts.C57_completes_partial",
    "Laik.Ts.C57_no_change_never_ends"
   ],
   "note": "Proved for rounds as in C26 (RoundsOK) with fewer than 2^31 bytes: C57_values_partial, C57_completes_partial, for all executions over minimpi. False for rounds without changes (C57_no_change_never_ends) and in the other cases of C26."
  },
  {
   "property": "C58",
   "status": "partial",
   "theorems": [
    "Laik.Lg.C58_message_partial",
    "Laik.Lg.C58_hidden",
    "Laik.Lg.C58_log",
    "Laik.Lg.C58_append_fails",
    "Laik.Lg.C58_long_word_fails",
    "Laik.Lg.C58_sorted_partial",
    "Laik.Lg.C58_env",
    "Laik.Lg.C58_filter_fails",
    "Laik.Lg.C58_sorted_fails"
   ],
   "note": "C58_message_partial (words up to 80, indentation up to 100, pieces after the first up to 1024 characters, numbers up to 6 digits), C58_hidden, C58_log, C58_sorted_partial (counters below 10000, fewer than 100 lines per message), C58_env. False otherwise: C58_append_fails, C58_long_word_fails, C58_filter_fails, C58_sorted_fails."
  },
  {
   "property": "C59",
   "status": "partial",
   "theorems": [
    "Laik.C59_local_aborts",
    "Laik.C59_sort_unique",
    "Laik.C59_sort_partial",
    "Laik.C59_deadlock_free",
    "Laik.C59_pairing",
    "Laik.C59_order"
   ],
   "note": "C59_sort_unique, C59_sort_partial, C59_order, C59_deadlock_free, C59_pairing for sequences in which local actions are alone in their round. False otherwise: C59_local_aborts shows that the sort then always aborts."
  },
  {
   "property": "C60",
   "status": "partial",
   "theorems": [
    "Laik.Hs.C60_completes_partial",
    "Laik.Hs.C60_delivers_partial",
    "Laik.Hs.C60_async_partial",
    "Laik.Hs.C60_switch_exists_iff",
    "Laik.Hs.C60_kept",
    "Laik.Hs.C60_elements_apart",
    "Laik.Hs.C60_prepares",
    "Laik.Hs.C60_async_race"
   ],
   "note": "C60_delivers_partial, C60_completes_partial for blocking communication, C60_async_partial for asynchronous communication with reductions that do not both read and write memory exposed to other processes; C60_kept, C60_elements_apart, C60_prepares, C60_switch_exists_iff. False without that condition: C60_async_race. Missing: reservations, provided memory, group changes, other layouts and dimensions."
  },
  {
   "property": "C61",
   "status": "proved",
   "theorems": [
    "Laik.As.C61_refines",
    "Laik.As.C61_refuses",
    "Laik.As.C61_active_after",
    "Laik.As.C61_pass",
    "Laik.As.C61_copySeq"
   ],
   "note": "C61_refines, C61_refuses, C61_active_after, C61_pass, C61_copySeq."
  },
  {
   "property": "C62",
   "status": "partial",
   "theorems": [
    "Laik.Nm.C62_counter_names_partial",
    "Laik.Nm.C62_aseq_overflow",
    "Laik.Nm.C62_part_names_iff",
    "Laik.Nm.C62_part_new",
    "Laik.Nm.C62_clone_overflow",
    "Laik.Nm.C62_long_name",
    "Laik.Nm.C62_distinct",
    "Laik.Nm.C62_distinct_counter",
    "Laik.Nm.C62_describe_1d",
    "Laik.Nm.C62_describe_gen"
   ],
   "note": "C62_counter_names_partial, C62_part_names_iff, C62_part_new, C62_long_name, C62_describe_1d give exact conditions; C62_distinct, C62_distinct_counter. False without them: C62_aseq_overflow, C62_clone_overflow."
  },
  {
   "property": "C63",
   "status": "partial",
   "theorems": [
    "Laik.Ag.C63_load_partial",
    "Laik.Ag.C63_tenth_agent",
    "Laik.Ag.C63_cleanup_partial",
    "Laik.Ag.C63_leak",
    "Laik.Ag.C63_failed_partial",
    "Laik.Ag.C63_failed_lost"
   ],
   "note": "C63_load_partial: exactly up to 9 agents; C63_cleanup_partial: all libraries but the last; C63_failed_partial: report of the last agent with failures. False of the code: C63_tenth_agent, C63_leak, C63_failed_lost."
  },
  {
   "property": "C64",
   "status": "proved",
   "theorems": [
    "Laik.Sv.C64_one_place",
    "Laik.Sv.C64_listener",
    "Laik.Sv.C64_exclusive",
    "Laik.Sv.C64_wakeup",
    "Laik.Sv.C64_shutdown_ends",
    "Laik.Sv.C64_shutdown_done",
    "Laik.Sv.C64_all_closed",
    "Laik.Sv.C64_fair",
    "Laik.Sv.C64_open_sockets",
    "Laik.Sv.C64_watched"
   ],
   "note": "C64_one_place, C64_listener, C64_exclusive, C64_wakeup, C64_shutdown_ends, C64_shutdown_done, C64_all_closed, C64_fair, C64_open_sockets, C64_watched."
  },
  {
   "property": "C65",
   "status": "proved",
   "theorems": [
    "Laik.Cn.C65_session",
    "Laik.Cn.C65_clean",
    "Laik.Cn.C65_progress",
    "Laik.Cn.C65_ends",
    "Laik.Cn.C65_connect",
    "Laik.Cn.C65_store"
   ],
   "note": "C65_session, C65_clean, C65_progress, C65_ends, C65_connect, C65_store."
  },
  {
   "property": "C66",
   "status": "partial",
   "theorems": [
    "Laik.Pf.C66_faults",
    "Laik.Pf.C66_no_closed_file",
    "Laik.Pf.C66_one_measured",
    "Laik.Pf.C66_backend",
    "Laik.Pf.C66_user_partial",
    "Laik.Pf.C66_total_zero",
    "Laik.Pf.C66_line",
    "Laik.Pf.C66_total_fails",
    "Laik.Pf.C66_user_fails",
    "Laik.Pf.C66_user_not_reset",
    "Laik.Pf.C66_freed",
    "Laik.Pf.C66_null",
    "Laik.Pf.C66_no_file",
    "Laik.Pf.C66_files_partial",
    "Laik.Pf.C66_files_fails"
   ],
   "note": "Proved: C66_faults (exact condition for no wrong access), C66_no_closed_file, C66_one_measured, C66_backend, C66_line. False of the code: total time (C66_total_zero, C66_total_fails), user time (C66_user_fails, C66_user_not_reset; C66_user_partial: last interval), accesses (C66_freed, C66_null), files (C66_files_fails, C66_no_file; C66_files_partial for no second file)."
  },
  {
   "property": "C67",
   "status": "partial",
   "theorems": [
    "Laik.C67_locations_partial",
    "Laik.C67_again_aborts",
    "Laik.C67_growth_outside",
    "Laik.C67_key",
    "Laik.C67_key_shared",
    "Laik.C67_added_unknown",
    "Laik.C67_empty_aborts"
   ],
   "note": "Proved: C67_locations_partial (first call in any world, any group, entries of others null), C67_key (exact condition for keys). False of the code: repeated calls (C67_again_aborts), growth (C67_growth_outside), added processes (C67_added_unknown), empty location of a single process (C67_empty_aborts)."
  },
  {
   "property": "C68",
   "status": "partial",
   "theorems": [
    "Laik.Rs.C68_completes_partial",
    "Laik.Rs.C68_delivers_partial",
    "Laik.Rs.C68_async_partial",
    "Laik.Rs.C68_switch_exists_iff",
    "Laik.Rs.C68_prepared",
    "Laik.Rs.C68_kept",
    "Laik.Rs.C68_local_iff",
    "Laik.Rs.C68_tags_lose"
   ],
   "note": "Proved: C68_completes_partial, C68_delivers_partial, C68_async_partial, C68_prepared, C68_kept for all histories if tags agree in switches within a reservation; C68_local_iff (exactly then); C68_switch_exists_iff. False of the code for different tags: C68_tags_lose."
  },
  {
   "property": "C69",
   "status": "partial",
   "theorems": [
    "Laik.Rl.C69_runs_iff",
    "Laik.Rl.C69_value_partial",
    "Laik.Rl.C69_no_leak_partial",
    "Laik.Rl.C69_switch_dangling",
    "Laik.Rl.C69_access_dangling",
    "Laik.Rl.C69_no_way_back",
    "Laik.Rl.C69_free_first",
    "Laik.Rl.C69_free_unallocated",
    "Laik.Rl.C69_initial_access",
    "Laik.Rl.C69_realloc_loses",
    "Laik.Rl.C69_realloc_leaks"
   ],
   "note": "Proved for all histories: C69_runs_iff (no fault exactly if all calls were allowed), C69_switch_dangling, C69_access_dangling, C69_no_way_back. C69_value_partial without switches between allocations of one reservation, C69_no_leak_partial without second allocations: false of the code otherwise (C69_realloc_loses, C69_realloc_leaks)."
  },
  {
   "property": "C70",
   "status": "partial",
   "theorems": [
    "Laik.Co.C70_handled",
    "Laik.Co.C70_nothing_lost",
    "Laik.Co.C70_all_handled",
    "Laik.Co.C70_in_order_partial",
    "Laik.Co.C70_no_fault_partial",
    "Laik.Co.C70_at_most_two",
    "Laik.Co.C70_never_closed",
    "Laik.Co.C70_two_abort",
    "Laik.Co.C70_reordered",
    "Laik.Co.C70_exit_aborts"
   ],
   "note": "Proved for all runs: C70_handled, C70_nothing_lost, C70_all_handled (no failure and everything gets handled without ends of processes), C70_at_most_two, C70_two_abort, C70_never_closed. C70_in_order_partial and C70_no_fault_partial for at most one connection between two processes: false of the code otherwise (C70_reordered, C70_exit_aborts)."
  },
  {
   "property": "C71",
   "status": "partial",
   "theorems": [
    "Laik.Cf.C71_settings",
    "Laik.Cf.C71_files",
    "Laik.Cf.C71_names_partial",
    "Laik.Cf.C71_name_cut",
    "Laik.Cf.C71_too_long",
    "Laik.Cf.C71_host_port",
    "Laik.Cf.C71_default_distinct",
    "Laik.Cf.C71_no_fault",
    "Laik.Cf.C71_abort_iff",
    "Laik.Cf.C71_newest",
    "Laik.Cf.C71_alive",
    "Laik.Cf.C71_freed_iff",
    "Laik.Cf.C71_no_leak",
    "Laik.Cf.C71_contents_fixed",
    "Laik.Cf.C71_one_update",
    "Laik.Cf.C71_fresh"
   ],
   "note": "Proved for all files and runs: C71_settings, C71_files, C71_default_distinct, C71_host_port, C71_too_long, C71_no_fault, C71_abort_iff, C71_newest, C71_alive, C71_freed_iff, C71_no_leak, C71_contents_fixed, C71_one_update, C71_fresh. C71_names_partial for addresses of up to 106 bytes: false of the code for 107 bytes (C71_name_cut)."
  },
  {
   "property": "C72",
   "status": "partial",
   "theorems": [
    "Laik.Su.C72_no_fault_partial",
    "Laik.Su.C72_long_host",
    "Laik.Su.C72_number",
    "Laik.Su.C72_table",
    "Laik.Su.C72_master",
    "Laik.Su.C72_ready_first",
    "Laik.Su.C72_late",
    "Laik.Su.C72_few",
    "Laik.Su.C72_bound",
    "Laik.Su.C72_completes",
    "Laik.Su.C72_goes_on"
   ],
   "note": "Proved for all orders of events if no host name is longer than 30 characters: C72_no_fault_partial, C72_number, C72_table, C72_master, C72_ready_first, C72_late, C72_few, C72_bound, C72_completes, C72_goes_on. With longer host names an assertion fails: C72_long_host."
  },
  {
   "property": "C73",
   "status": "partial",
   "theorems": [
    "Laik.Lp.C73_no_loop_fault",
    "Laik.Lp.C73_table",
    "Laik.Lp.C73_sends",
    "Laik.Lp.C73_dispatch",
    "Laik.Lp.C73_commands",
    "Laik.Lp.C73_no_fault_partial",
    "Laik.Lp.C73_unknown",
    "Laik.Lp.C73_myid",
    "Laik.Lp.C73_myid_refused",
    "Laik.Lp.C73_register",
    "Laik.Lp.C73_numbers",
    "Laik.Lp.C73_register_kept",
    "Laik.Lp.C73_fresh",
    "Laik.Lp.C73_quit_at_end",
    "Laik.Lp.C73_quit_at_end_known",
    "Laik.Lp.C73_quit_more",
    "Laik.Lp.C73_register_twice",
    "Laik.Lp.C73_unknown_id",
    "Laik.Lp.C73_two_connections",
    "Laik.Lp.C73_too_many"
   ],
   "note": "Proved for all events of all clients: C73_no_loop_fault (assertions of the loop and of registration), C73_table, C73_sends, C73_dispatch, C73_commands, C73_unknown; what announcing and registering does: C73_myid, C73_myid_refused, C73_register, C73_numbers, C73_register_kept, C73_fresh. Absence of all faults is proved for clients without myid, register and cutoff and with quit as last complete line: C73_no_fault_partial. Other clients can end the process: C73_quit_at_end, C73_quit_more, C73_register_twice, C73_unknown_id, C73_two_connections, C73_too_many."
  },
  {
   "property": "C74",
   "status": "partial",
   "theorems": [
    "Laik.Sg.C74_reply",
    "Laik.Sg.C74_ends_iff",
    "Laik.Sg.C74_no_fault_partial",
    "Laik.Sg.C74_states",
    "Laik.Sg.C74_long_command",
    "Laik.Sg.C74_long_command_witness",
    "Laik.Sg.C74_in_startup"
   ],
   "note": "C74_reply and C74_ends_iff hold for all tables: what is shown, and when exactly the command ends. C74_no_fault_partial: for complete tables with texts as limited by registration and queued commands up to 165 characters. Otherwise it is false: C74_long_command, C74_long_command_witness, C74_in_startup. C74_states: states are told apart."
  }
 ]
}