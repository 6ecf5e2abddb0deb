{"id": "C01", "title": "Range intersection is set intersection", "statement": "For two valid ranges of the same space, laik_range_intersect returns a range whose index set is exactly the intersection of the two index sets; for non-empty inputs it returns null exactly when the two ranges share no index. The operation is symmetric in its index set.", "quantifier": "all pairs of ranges in spaces with 1, 2 or 3 dimensions, all index values", "why_tests_cant": "The space of range pairs is infinite; corner cases (touching, nested, empty in one dimension, inverted bounds) combine per dimension.", "anchors": ["src/space.c: laik_range_intersect, intersectRange"]}
{"id": "C02", "title": "Containment, equality, bounding box and size agree with index sets", "statement": "laik_range_within_range(a,b) holds for non-empty a iff every index of a is in b; laik_range_expand(dst,src) yields the smallest box containing both non-empty ranges; laik_range_isEqual on non-empty ranges holds iff the index sets are equal; laik_range_isEmpty holds iff there is no index; laik_range_size is the number of indexes.", "quantifier": "all ranges, dims 1..3", "why_tests_cant": "Universal statement over unbounded integers and set-level meaning; tests only sample points.", "anchors": ["src/space.c: laik_range_within_range, laik_range_expand, laik_range_isEqual, laik_range_isEmpty, laik_range_size"]}
{"id": "C03", "title": "A space survives serialization to the space store", "statement": "Parsing the string produced by laik_space_serialize with laik_space_set yields a space with the same dimensionality and bounds, which behaves like the original in range operations, and the string always fits the buffer used for it.", "quantifier": "all spaces with any 64-bit bounds", "why_tests_cant": "Round trip must hold for every integer including negatives and maximum digits; buffer size violation only occurs at extreme values.", "anchors": ["src/space.c: laik_space_serialize, laik_space_set, laik_spacestore_get, laik_new_space"]}
{"id": "C04", "title": "A positive coverage answer can be trusted", "statement": "If laik_partitioning_coversSpace reports that a partitioning covers its space then every index of the space is contained in at least one range of the partitioning.", "quantifier": "all range lists (any order, overlaps, empty ranges), all spaces of dims 1..3", "why_tests_cant": "The algorithm subtracts boxes in sorted order; soundness is about every index of every space.", "anchors": ["src/rangelist.c: laik_rangelist_coversSpace", "src/partitioning.c: laik_partitioning_coversSpace"]}
{"id": "C05", "title": "A negative coverage answer can be trusted", "statement": "If laik_partitioning_coversSpace reports false then some index of the space is in no range of the partitioning; the check does not abort.", "quantifier": "all range lists and non-empty spaces", "why_tests_cant": "Requires exhibiting an uncovered index for each negative answer; false negatives need adversarial range combinations.", "anchors": ["src/rangelist.c: laik_rangelist_coversSpace"]}
{"id": "C06", "title": "Freezing a partitioning keeps what every process owns", "statement": "Sorting and merging performed when a partitioning is finished (laik_rangelist_freeze) never changes the set of (process, index) ownership pairs; with merging requested in 1d, the resulting ranges of a process with one tag are sorted, non-overlapping and not adjacent.", "quantifier": "all sequences of append calls, all process counts, single-index and general storage", "why_tests_cant": "Merging decisions depend on the whole history of appended ranges and on their sorted order.", "anchors": ["src/rangelist.c: laik_rangelist_freeze, sortRanges, mergeSortedRanges, updateOffsets, updateOffsetsSI"]}
{"id": "C07", "title": "Range enumeration of a process is complete and map numbers are consistent", "statement": "After a partitioning is frozen, iterating the ranges of process p yields exactly the ranges appended for p; map numbers of a process start at 0, never skip a value, ranges with the same non-zero tag share one map and ranges with tag 0 or different tags do not; enumerating ranges per map enumerates all ranges of the process exactly once.", "quantifier": "all frozen range lists", "why_tests_cant": "Offset tables encode partitions of the list; correctness is an invariant over all list contents.", "anchors": ["src/rangelist.c: updateOffsets, updateMapOffsets, laik_rangelist_tidrange, laik_rangelist_tidmaprange", "src/partitioning.c: laik_my_rangecount, laik_my_mapcount, laik_my_maprange"]}
{"id": "C08", "title": "Migrating a partitioning to another group preserves ownership by process", "statement": "laik_partitioning_migrate from a group to a derived (shrunk, union or parent) group leaves every range with the same physical process; it succeeds whenever every process owning ranges is a member of the new group and the groups are related by derivation.", "quantifier": "all groups, derivations and partitionings", "why_tests_cant": "Depends on arbitrary parent chains and id translations.", "anchors": ["src/partitioning.c: laik_partitioning_migrate", "src/rangelist.c: laik_rangelist_migrate", "src/space.c: laik_calc_transition"]}
{"id": "C09", "title": "Running a partitioner with a filter delivers exactly the wanted ranges", "statement": "Storing only the own ranges (process filter) gives exactly the sub-list of the full run for this process; storing intersecting ranges (index filter) keeps every range of any process which shares an index with the own ranges.", "quantifier": "all partitioners, all own range lists the filter is built from", "why_tests_cant": "The index filter uses a binary search over sorted own ranges; wrong drops need special interval configurations.", "anchors": ["src/partitioning.c: tidfilter, idxfilter_check, laik_rangefilter_add_idxfilter, laik_partitioning_store_intersectranges", "src/partitioner.c: laik_append_range"]}
{"id": "C10", "title": "All, Master and Copy partitioners assign what they promise", "statement": "The all partitioner gives every process exactly the whole space, the master partitioner gives process 0 the whole space and nobody else anything, and the copy partitioner gives each process, in the selected dimension, the coupled copy of its ranges in the other partitioning.", "quantifier": "all spaces, groups and base partitionings", "why_tests_cant": "Universal over process counts and spaces.", "anchors": ["src/partitioner.c: runAllPartitioner, runMasterPartitioner, runCopyPartitioner"]}
{"id": "C11", "title": "Block partitioner covers every index exactly once", "statement": "Whenever the block partitioner finishes, every index of the space is owned by exactly one process, and each process gets blocks in cyclic order of processes, for any index/task weight functions, including floating-point rounding, negative and NaN weights.", "quantifier": "all 1d/2d/3d spaces, group sizes, cycle counts and weight functions (arbitrary, law-free arithmetic)", "why_tests_cant": "Weight functions are user callbacks; rounding behaviours cannot be enumerated.", "anchors": ["src/partitioner.c: runBlockPartitioner"]}
{"id": "C12", "title": "Block partitioner terminates normally", "statement": "The block partitioner without weights never aborts: it finishes with all indexes distributed for every space size and process count.", "quantifier": "all space sizes, group sizes and cycle counts (exact arithmetic)", "why_tests_cant": "Abort depends on arithmetic relation between size and process count; needs a proof of the cut point rule.", "anchors": ["src/partitioner.c: runBlockPartitioner"]}
{"id": "C13", "title": "Bisection partitioner covers every index exactly once", "statement": "The recursive bisection partitioner assigns each index of the space to exactly one process of the group and does not abort.", "quantifier": "all spaces of dims 1..3 and all group sizes", "why_tests_cant": "Recursive splitting of width and process range; failures occur for particular ratios only.", "anchors": ["src/partitioner.c: doBisection, runBisectionPartitioner"]}
{"id": "C14", "title": "Grid partitioner covers every index exactly once", "statement": "The grid partitioner assigns each index of the space to exactly one process when the grid has as many blocks as processes.", "quantifier": "all spaces, block counts per dimension, arbitrary rounding of the block borders", "why_tests_cant": "Uses floating-point block borders; disjointness must not depend on rounding.", "anchors": ["src/partitioner.c: runGridPartitioner"]}
{"id": "C15", "title": "Halo partitioners extend ranges by the halo and stay in the space", "statement": "Each range produced by the halo / corner-halo partitioner lies within the space and together they cover, for each base range, all indexes of the space within the given depth (in axis direction resp. including corners).", "quantifier": "all spaces, base partitionings and depths", "why_tests_cant": "Border cases where the halo is cut by the space boundary.", "anchors": ["src/partitioner.c: runHaloPartitioner, runCornerHaloPartitioner"]}
{"id": "C16", "title": "Reassigning keeps data in place and empties removed processes", "statement": "The reassign partitioner for a shrunk group leaves every range of a remaining process unchanged, re-distributes every index of a removed process to some remaining process exactly once, and leaves nothing at removed processes, so that migration to the new group succeeds.", "quantifier": "all old partitionings, shrunk groups and weight functions (law-free arithmetic)", "why_tests_cant": "Depends on user weights and arbitrary group shrinks.", "anchors": ["src/partitioner.c: runReassignPartitioner", "src/partitioning.c: laik_partitioning_migrate"]}
{"id": "C17", "title": "1d transitions: every send has exactly one matching receive", "statement": "For a 1d space with data to preserve, the transition calculated on each process is consistent with the ones calculated on all others: the list of messages process a sends to b equals, in order and in index ranges, the list process b expects from a; collective reductions appear in the same order with same participants on every participant.", "quantifier": "all pairs of partitionings of all 1d spaces, all group sizes, all pairs of processes", "why_tests_cant": "Each process computes its transition independently; consistency is a relation between all pairs of processes for all inputs.", "anchors": ["src/space.c: calcAddReductions, do_calc_transition"]}
{"id": "C18", "title": "1d transitions deliver the right value at every index", "statement": "After a 1d transition with preserved data flow, each process owning index i in the target partitioning holds the value of the unique source owner, or with a reduction the reduction over exactly all processes that owned i in the source partitioning; no index is delivered twice.", "quantifier": "all 1d partitioning pairs, reductions, index values", "why_tests_cant": "Data-flow correctness for every index and every process.", "anchors": ["src/space.c: calcAddReductions, addTask, removeTask, appendBorder"]}
{"id": "C19", "title": "2d/3d transitions: every send has exactly one matching receive in the same order", "statement": "For 2d and 3d spaces without reduction, the list of messages process a sends to b equals, in order and in index ranges, the list process b expects to receive from a.", "quantifier": "all pairs of 2d/3d partitionings and processes", "why_tests_cant": "As C17; additionally the send and receive sides enumerate ranges in different nesting orders.", "anchors": ["src/space.c: do_calc_transition"]}
{"id": "C20", "title": "Sorting send/receive actions avoids deadlock", "statement": "If all processes execute their action sequences in the order produced by the 2-phase sort with blocking (rendezvous) sends and receives and the per-pair message lists match, then every execution completes: no reachable state is stuck.", "quantifier": "all numbers of processes, all matched message sets, all interleavings", "why_tests_cant": "Deadlock freedom quantifies over schedules and message patterns.", "anchors": ["src/action.c: laik_aseq_sort_2phases, cmp2phase"]}
{"id": "C21", "title": "Sorting an action sequence only reorders it as allowed", "statement": "Sorting by rounds or phases yields a permutation of the actions in which rounds stay in order and actions with the same peer and direction (or local actions of a round) keep their relative order; round numbers are renumbered without gaps and stay monotone.", "quantifier": "all action sequences", "why_tests_cant": "Stability and permutation claims over arbitrary sequences.", "anchors": ["src/action.c: laik_aseq_sort_2phases, laik_aseq_sort_rounds, addResorted"]}
{"id": "C22", "title": "Combining actions preserves message contents", "statement": "Combining all sends of a round to one peer into one message, and all receives from one peer, does not change the sequence of elements transferred to any peer nor the memory cells they are read from or written to.", "quantifier": "all action sequences and memory contents", "why_tests_cant": "Needs equivalence of two executions for every memory state.", "anchors": ["src/action.c: laik_aseq_combineActions, laik_aseq_allocBuffer"]}
{"id": "C23", "title": "Temporary buffers of an action sequence never overlap or overflow", "statement": "After buffer allocation, different reservations occupy disjoint parts of the allocated buffer, each action only touches bytes of its own reservation, and all reservations lie within the buffer.", "quantifier": "all action sequences with reservations", "why_tests_cant": "Memory-safety invariant over all sequences.", "anchors": ["src/action.c: laik_aseq_allocBuffer, laik_aseq_addBufReserve"]}
{"id": "C24", "title": "Manual reductions deliver the reduction of all inputs to all outputs", "statement": "Splitting a group reduction into point-to-point messages and local reductions makes every process of the output group hold the reduction of the values of all processes of the input group, and for associative, commutative operations all hold the same value.", "quantifier": "all input/output groups, values and operations", "why_tests_cant": "Quantifies over groups and values; non-associative (floating point) operations may differ.", "anchors": ["src/action.c: laik_aseq_splitReduce, laik_aseq_addReduce2Rounds, laik_aseq_addReduce3Rounds", "src/backend-mpi.c: laik_mpi_exec_groupReduce", "src/backend-tcp2.c: exec_reduce"]}
{"id": "C25", "title": "The key-value store is a map", "statement": "laik_kvs_get after any sequence of set/remove/sort calls returns the value most recently set for that key, and nothing for keys never set or removed.", "quantifier": "all operation histories and keys", "why_tests_cant": "Lookup mixes binary search in a sorted prefix and linear search; correctness is an invariant over histories.", "anchors": ["src/kvs.c: laik_kvs_set, laik_kvs_remove, laik_kvs_entry, laik_kvs_get, laik_kvs_sort"]}
{"id": "C26", "title": "Synchronization makes all key-value stores equal", "statement": "After all processes call laik_kvs_sync with non-conflicting updates, all processes have the same value for every key: the previous common value updated by all changes; it does not abort.", "quantifier": "all numbers of processes and all update histories since the last sync", "why_tests_cant": "Distributed convergence for every combination of histories.", "anchors": ["src/kvs.c: laik_kvs_sync, laik_kvs_changes_sort, laik_kvs_changes_merge, laik_kvs_changes_apply", "src/backend-mpi.c: laik_mpi_sync"]}
{"id": "C27", "title": "Merging change journals is a conflict-checked union", "statement": "Merging two sorted journals yields a sorted journal containing each key once with its value, detects every pair of conflicting values for the same key, and does not depend on the order in which journals are merged.", "quantifier": "all pairs of journals", "why_tests_cant": "Algebraic law over all journals.", "anchors": ["src/kvs.c: laik_kvs_changes_merge, laik_kvs_changes_add"]}
{"id": "C28", "title": "Union of groups", "statement": "laik_new_union_group returns a group with exactly the processes of both groups, each once; the translation tables between union and both parents are mutually inverse on common processes and -1 elsewhere, and the calling process has the id of its location.", "quantifier": "all pairs of groups", "why_tests_cant": "Universal over groups with arbitrary location ids.", "anchors": ["src/core.c: laik_new_union_group"]}
{"id": "C29", "title": "Shrinking a group", "statement": "laik_new_shrinked_group removes exactly the listed processes, keeps the order of the others, and its translation tables from/to the parent are mutually inverse with -1 for removed processes.", "quantifier": "all groups and removal lists (also with duplicates)", "why_tests_cant": "Universal over groups.", "anchors": ["src/core.c: laik_new_shrinked_group, laik_clone_group"]}
{"id": "C30", "title": "Lexicographic layout places each index at its own cell", "statement": "In the lexicographic layout, different indexes of a map's range get different offsets, all offsets lie in the allocated size, offsets follow lexicographic order with dimension 0 fastest, and different maps of a layout never overlap.", "quantifier": "all layouts (number of maps, ranges, dims)", "why_tests_cant": "Injectivity and bounds for all sizes.", "anchors": ["src/layout_lex.c: laik_new_layout_lex, offset_lex, section_lex, mapno_lex"]}
{"id": "C31", "title": "Pack and unpack with any buffer splitting is lossless", "statement": "Packing a range piecewise into buffers of arbitrary sizes and unpacking the pieces piecewise at the receiver (possibly with a different layout) copies exactly the values of the range to the right indexes and touches nothing else; both sides agree when all is transferred.", "quantifier": "all ranges, layouts, buffer size sequences and memory contents", "why_tests_cant": "Resumption logic depends on where buffers are cut.", "anchors": ["src/layout_lex.c: pack_lex, unpack_lex", "src/layout.c: laik_layout_pack_gen, laik_layout_unpack_gen", "src/backend-mpi.c: laik_mpi_exec_packAndSend, laik_mpi_exec_recvAndUnpack"]}
{"id": "C32", "title": "Copying between mappings copies exactly the given range", "statement": "laik_data_copy / layout copy moves the value of every index of the range from source to destination mapping and changes no other cell.", "quantifier": "all ranges and mapping pairs (overlap free)", "why_tests_cant": "Index arithmetic with strides in up to 3 dims.", "anchors": ["src/layout_lex.c: copy_lex", "src/layout.c: laik_layout_copy_gen", "src/data.c: laik_data_copy"]}
{"id": "C33", "title": "Re-using an old allocation keeps every preserved value addressable", "statement": "When a new mapping is embedded into the old allocation, each index of the new mapping resolves to the same memory cell as in the old mapping, for all access functions.", "quantifier": "all old/new mapping ranges where re-use is accepted", "why_tests_cant": "Address computations via base/start/layout must agree for all indexes.", "anchors": ["src/data.c: initEmbeddedMapping, checkMapReuse, laik_get_map_addr", "src/layout_lex.c: reuse_lex"]}
{"id": "C34", "title": "Local and global index translation are inverse", "statement": "laik_global2local_1d and laik_local2global_1d / maplocal variants are mutually inverse on owned indexes, and return not-found exactly for indexes not owned.", "quantifier": "all mappings and indexes", "why_tests_cant": "Universal over mappings.", "anchors": ["src/data.c: laik_global2local_1d, laik_maplocal2global_1d, laik_local2global_1d"]}
{"id": "C35", "title": "Initialization provides the neutral element of the reduction", "statement": "Data initialized for a reduction operation is neutral: reducing it with any value gives that value, for all supported types and operations.", "quantifier": "all types, operations and values", "why_tests_cant": "Value range of 64-bit types is not enumerable.", "anchors": ["src/type.c: laik_char_init, laik_int32_init, laik_int64_init, laik_uint32_init, laik_uint64_init, laik_double_init, laik_float_init and *_reduce"]}
{"id": "C36", "title": "Reductions on integer types do not depend on input order", "statement": "For integer types, reducing a multiset of inputs gives the same result for all orders and groupings.", "quantifier": "all input sequences and permutations", "why_tests_cant": "Permutations and values unbounded.", "anchors": ["src/type.c: laik_int32_reduce, laik_int64_reduce, laik_uint32_reduce, laik_uint64_reduce, laik_char_reduce, laik_uchar_reduce"]}
{"id": "C37", "title": "Memory accounting is exact", "statement": "The reported current memory equals allocated minus freed bytes at every time, the reported maximum is the maximum of the current value over the history, and merging statistics adds counters.", "quantifier": "all allocation/free histories", "why_tests_cant": "Invariant over histories.", "anchors": ["src/data.c: laik_switchstat_malloc, laik_switchstat_free, laik_addSwitchStat"]}
{"id": "C38", "title": "TCP message framing is independent of how bytes arrive", "statement": "The sequence of commands and binary elements processed from a connection depends only on the byte stream, not on how reads split it into chunks.", "quantifier": "all byte streams and all splittings into reads", "why_tests_cant": "Exponentially many splits of unbounded streams.", "anchors": ["src/backend-tcp2.c: process_rbuf, got_bytes, got_binary_data"]}
{"id": "C39", "title": "TCP binary and hex data transfer is lossless", "statement": "The receiver of a range over the TCP backend stores exactly the sent element bytes in order, for the binary mode (blocks with 16-bit length header) and the text mode (hex bytes).", "quantifier": "all element sizes, element counts and byte values", "why_tests_cant": "All byte values incl. control characters, newline and 'B' and all block cuts.", "anchors": ["src/backend-tcp2.c: send_data, send_data_bin, send_data_bin_flush, send_range, got_data, got_binary_data"]}
{"id": "C40", "title": "All processes agree on the new world after a TCP resize", "statement": "At the end of a resize, master and non-master processes build the same new group: same members, same order, same translation to the old world.", "quantifier": "all sets of joining and leaving processes", "why_tests_cant": "Each process derives the group from its local peer table.", "anchors": ["src/backend-tcp2.c: tcp2_resize"]}
{"id": "C41", "title": "World resize bookkeeping", "statement": "The epoch changes exactly when the world group changes, a finished resize detaches the new world from the old, and resize requests are neither lost nor duplicated.", "quantifier": "all histories of resize calls", "why_tests_cant": "Invariant over histories.", "anchors": ["src/core.c: laik_set_world, laik_allow_world_resize, laik_finish_world_resize, laik_add_join_req, laik_add_remove_req"]}
{"id": "C42", "title": "Reserved memory is shared by same tags and never too small", "statement": "For a reservation with several partitionings, each map of each partitioning lies within the memory reserved for its tag, maps with same tag share the memory and maps with different tags do not overlap.", "quantifier": "all sequences of partitionings added to a reservation", "why_tests_cant": "Covering ranges computed over all partitionings.", "anchors": ["src/data.c: laik_reservation_add, laik_reservation_alloc, coveringRanges"]}
{"id": "C43", "title": "Asynchronous conversion keeps message order and completion", "statement": "Converting sends/receives to non-blocking operations keeps per-peer order, every started operation is waited for exactly once, and no receive buffer is used before its wait.", "quantifier": "all action sequences", "why_tests_cant": "Order/pairing over arbitrary sequences.", "anchors": ["src/backend-mpi.c: laik_mpi_asyncSendRecv"]}
{"id": "C44", "title": "Statistics of an action sequence count every action", "statement": "The message, element and byte counts calculated for an action sequence equal the sums over its send, receive and reduce actions; combining actions leaves element counts unchanged.", "quantifier": "all action sequences", "why_tests_cant": "Aggregate invariants over arbitrary sequences.", "anchors": ["src/action.c: laik_aseq_calc_stats, laik_aseq_combineActions"]}
{"id": "C45", "title": "Reductions done with MPI agree with the type's reduce function", "statement": "For each reduction operation, the MPI operation chosen by the MPI backend computes the same value from two inputs as the reduce function registered with the data type, so results do not depend on whether a reduction is done by MPI_Reduce or by LAIK's own point-to-point reduction.", "quantifier": "all pairs of input values, all reduction operations, all integer types", "why_tests_cant": "Tests use a handful of values; the difference between logical and bitwise operations shows only for values other than 0 and 1.", "anchors": ["src/backend-mpi.c: getMPIOp, laik_mpi_exec_reduce", "src/type.c: laik_*_reduce"]}
{"id": "C46", "title": "Switching partitionings neither leaks nor frees memory twice", "statement": "Along every sequence of switches of a container between partitionings, each block of memory allocated for mappings is freed exactly once, memory reused for a new mapping is not freed with the old one, memory provided by the application is never freed, and mappings of the active partitioning only point to memory still allocated.", "quantifier": "all sequences of switches, all partitionings, with and without reuse or reservation", "why_tests_cant": "Ownership moves between old and new mappings on reuse; leaks and double frees only show after particular sequences.", "anchors": ["src/data.c: prepareMaps, checkMapReuse, initEmbeddedMapping, laik_allocateMap, allocateMappings, freeMap, freeMappingList, doTransition, laik_switchto_partitioning"]}
{"id": "C47", "title": "Checks on the shape of a partitioning can be trusted", "statement": "laik_partitioning_isAll answers true iff each process has exactly one range, the full space; isSingle answers r iff there is exactly one range, the full space, owned by r; isEqual never fails its assert, is an equivalence, and answers true iff both partitionings give each process the same ranges. The 2d/3d transition calculation uses these answers so that a reduction gets its inputs from exactly the source owners and reaches exactly the target owners.", "quantifier": "all range lists in all formats, all numbers of processes, all dimensions", "why_tests_cant": "The answers are used to replace index-wise reductions by one reduction over the full space; a wrong answer gives wrong data only for unusual partitionings.", "anchors": ["src/rangelist.c: laik_rangelist_isAll, laik_rangelist_isSingle, laik_rangelist_isEqual", "src/partitioning.c: laik_partitioning_isAll, laik_partitioning_isSingle, laik_partitioning_isEqual", "src/space.c: do_calc_transition", "src/data.c: doTransition, copyMaps"]}
{"id": "C48", "title": "A switch of a 1d container over the TCP2 backend ends and delivers the right data", "statement": "When all processes of a group switch a 1d container from one partitioning to another over the TCP2 backend (calculation of the transition at each process, splitting and sorting of actions, sends, receives and reductions by the backend, local copies), then in every interleaving, with or without buffering of messages, no process is stuck, every message has the size the receiver expects, the number of steps is bounded, and at the end each process has at every index it owns in the target the value of the only source owner, or the reduction of the values of exactly all source owners; all target owners of an index have the same value.", "quantifier": "all pairs of partitionings in 1d with disjoint ranges per process, all numbers of processes, all memory contents and layouts with separate cells per index, all reduction operations, all interleavings", "why_tests_cant": "Combines the transition calculation, the sort of actions, the message protocol and the reduction algorithm of several processes; a wrong combination shows up only for some partitionings, process counts and schedules.", "anchors": ["src/data.c: doTransition, copyMaps, createTransASeq", "src/space.c: calcAddReductions", "src/action.c: laik_aseq_splitTransitionExecs, laik_aseq_addReds, laik_aseq_addSends, laik_aseq_addRecvs, laik_aseq_sort_2phases", "src/backend-tcp2.c: tcp2_exec, exec_reduce, send_range, recv_range"]}
{"id": "C49", "title": "Range lists stored with filters suffice for own ranges and transitions", "statement": "A partitioning stores range lists of partitioner runs with different filters: all ranges, own ranges, or ranges intersecting own ranges of two partitionings. In every sequence of creating and freeing partitionings and storing lists, the lookup of all ranges returns the list of an unfiltered run, the lookup of own ranges returns a list with exactly the own ranges (with same map numbers) of an unfiltered run, and a transition calculated from the lists looked up for a pair of partitionings is the same as with the lists of unfiltered runs. After storing a list, the lookup succeeds until the partitioning is freed.", "quantifier": "all sequences of calls over any number of partitionings, all 1d partitioners (ranges or single indices, with and without merging) with disjoint ranges per process, all process counts, all sort orders among equal entries", "why_tests_cant": "Filtering drops ranges before merging and sorting, so lists differ from the full list; a missing or differently merged range changes transitions only for particular combinations of partitionings. Stale entries appear only if memory addresses are reused.", "anchors": ["src/partitioning.c: laik_partitioning_allranges, laik_partitioning_myranges, laik_partitioning_interranges, laik_partitioning_store_allranges, laik_partitioning_store_myranges, laik_partitioning_store_intersectranges, laik_free_partitioning", "src/partitioner.c: laik_run_partitioner, laik_append_range, laik_append_index_1d", "src/space.c: calcAddReductions"]}
{"id": "C50", "title": "A switch with only one process keeps all values", "statement": "With the backend for a single process, a switch of a 1d container between any two partitionings ends without failure and every index in both source and target partitioning has after the switch the value it had before, whatever mappings there are, whether memory is reused or copied, and also if the target has indices the source did not have and a reduction was asked for.", "quantifier": "all pairs of well-formed 1d range lists of one process, all placements of mappings in memory (separate, reused, in a reservation), all memory contents, all reduction operations", "why_tests_cant": "The backend is used for sequential runs of applications, where partitionings mostly have the same indices. Its code for reductions is only reached if a target has new indices, and harm depends on sizes of gaps, on the place of mappings in memory and on reuse of allocations.", "anchors": ["src/backend-single.c: laik_single_exec", "src/data.c: doTransition, copyMaps, checkMapReuse, initEmbeddedMapping", "src/space.c: calcAddReductions"]}
{"id": "C51", "title": "A switch over the MPI backend moves and combines all values", "statement": "When all processes of a group switch a 1d container from one partitioning to another with the MPI backend, after all the rewriting the backend does with the actions (combining messages, all-reduce detection, splitting of group reductions into rounds, buffers, two sorts), no process waits forever or gets a message of unexpected size, and at the end every process has at every index it owns in the target the value of the only owner before, the neutral element if there was none, or the reduction of the values of exactly all owners before. All owners get the same value.", "quantifier": "all group sizes, all pairs of 1d range lists, all element sizes and reductions, mpi_reduce on and off, all placements of mappings and buffers in memory, all memory contents, all interleavings, with or without buffering of messages, all results of collectives allowed by MPI", "why_tests_cant": "The rewriting steps depend on each other and on sizes of groups (thresholds 8 and 32), on contiguity of addresses and on the order of actions at other processes. A test runs a few partitionings with few processes on one machine, where MPI buffers small messages and so hides wrong orders, and mostly with integer-valued sums.", "anchors": ["src/backend-mpi.c: laik_mpi_prepare, laik_mpi_exec", "src/action.c: laik_aseq_flattenPacking, laik_aseq_replaceWithAllReduce, laik_aseq_combineActions, laik_aseq_allocBuffer, laik_aseq_splitReduce, laik_aseq_sort_rounds, laik_aseq_sort_2phases", "src/data.c: doTransition, copyMaps"]}
{"id": "C52", "title": "Asynchronous communication gives the same result as blocking communication", "statement": "With asynchronous communication (the default of the MPI backend), where sends and receives are replaced by requests which are waited for later, a switch of a 1d container between partitionings never gets stuck, and every end of an execution has the values which an execution with blocking sends and receives gives: at each index owned in the target the value of the only owner before, the neutral element, or the reduction of the values of exactly all owners before.", "quantifier": "all group sizes, all pairs of 1d range lists, all element sizes and reductions, mpi_reduce on and off, all placements of mappings and buffers, all memory contents, all interleavings, all times between posting and end of a request at which data is taken from or put into memory", "why_tests_cant": "Whether the buffer of a pending send is overwritten depends on when the MPI library reads it. Small messages are copied when the send is posted, so tests with small data never see a wrong value; with large messages it depends on timing.", "anchors": ["src/backend-mpi.c: laik_mpi_asyncSendRecv, laik_mpi_prepare, laik_mpi_exec", "src/action.c: laik_aseq_combineActions, laik_aseq_addReduce2Rounds, laik_aseq_addReduce3Rounds"]}
{"id": "C53", "title": "Message passing of the TCP backend based on GLib gives one ordered channel per communicator, ranks and tag", "statement": "With the message passing library of the old TCP backend (minimpi), every execution of any programs of any number of processes is an execution with ideal channels: a receive on a communicator gets exactly the next message which was sent by the given rank of that communicator, with that tag and kind, to the own rank; no message is received twice, altered, taken from another channel or lost, although messages travel over many connections in any order, are offered (TRY), asked for (GET) or pushed (ADD) at the same time, and are refused when an inbox is full. A receive of a message which was sent gets done; a send blocked as the outbox is full goes on when the messages were received; when a synchronous send returns, the message is at the receiver.", "quantifier": "all sets of communicators, all programs with sends, synchronous sends, receives and sends in the background, all message contents and sizes, all limits of inbox and outbox, all numbers of attempts, all interleavings of the threads of all processes, all orders of delivery, all points at which connections break", "why_tests_cant": "Tests run a few processes on one machine with connections which do not break and small messages, which fit into the inbox and arrive in order. Header collisions need two groups made from the same one, loss needs a connection to break at one moment, and giving up needs a process to be late by more than ten seconds.", "anchors": ["src/backends/tcp/minimpi.c: laik_tcp_minimpi_header, laik_tcp_minimpi_lookup, laik_tcp_minimpi_send, laik_tcp_minimpi_recv, laik_tcp_minimpi_comm_dup, laik_tcp_minimpi_comm_split", "src/backends/tcp/messenger.c: laik_tcp_messenger_client, laik_tcp_messenger_server, laik_tcp_messenger_get, laik_tcp_messenger_push, laik_tcp_messenger_send", "src/backends/tcp/map.c"]}
{"id": "C54", "title": "Collective operations of the TCP backend based on GLib have the results of MPI and never deadlock", "statement": "If all processes of communicators call broadcasts, reductions, barriers, splits, and sends with their receives in the same order, with the message passing library of the old TCP backend (minimpi), then whatever happens to messages no process aborts or sees an error from an operation, and a process which is done has exactly the memory and communicators given by the definition of the operations. From every state reached, all processes can get to the end, however small inboxes and outboxes are. When a process left a barrier, all processes entered it. A reduction of integers gives the sum over all processes modulo the size of the type. A communicator made for a new group of LAIK has the processes in the order of their ids in the group.", "quantifier": "all sequences of operations, all communicators, roots, buffers, types and element counts, all colours and hints, all numbers of processes, all limits of inbox and outbox, all interleavings and orders of delivery, all floating point additions", "why_tests_cant": "Tests use some groups of few processes with inboxes large enough for all messages. That an order of sends and receives blocks when boxes are full depends on sizes and timing; wrong orders after splits need equal or large hints.", "anchors": ["src/backends/tcp/minimpi.c: laik_tcp_minimpi_bcast, laik_tcp_minimpi_reduce, laik_tcp_minimpi_allreduce, laik_tcp_minimpi_barrier, laik_tcp_minimpi_comm_split, laik_tcp_minimpi_combine, laik_tcp_split_compare", "src/backends/tcp/backend-tcp.c: laik_tcp_updateGroup"]}
{"id": "C55", "title": "A switch over the TCP backend based on GLib moves and combines all values and never deadlocks", "statement": "When all processes of a group switch a 1d container between partitionings, and the prepared actions are run by laik_tcp_exec over the message passing library of the TCP backend (minimpi), no process aborts or sees an error. When a process is done, it has at every index it owns in the target the element of the only owner in the source, the neutral element without owner, or the combination of the elements of exactly all owners, the same in all executions. From every state reached all processes can get to the end, however small inboxes and outboxes are.", "quantifier": "all transitions, all numbers of processes, all element types, all reductions, all sizes and addresses of mappings, all limits of inbox and outbox, all interleavings and orders of delivery, all floating point additions", "why_tests_cant": "The order of actions of a process is sorted for the MPI backend, where a send waits for its receive; over minimpi, a send returns when the outbox has room, and waits otherwise. Whether this deadlocks depends on sizes of boxes and timing. Tests have few processes, sums of doubles only, and boxes larger than all messages of a switch.", "anchors": ["src/backends/tcp/backend-tcp.c: laik_tcp_exec, laik_tcp_prepare, laik_mpi_exec_reduce, getMPIOp, getMPIDataType", "src/backends/tcp/minimpi.c: laik_tcp_minimpi_send, laik_tcp_minimpi_recv, laik_tcp_minimpi_reduce, laik_tcp_minimpi_allreduce, laik_tcp_minimpi_bcast", "src/action.c: laik_aseq_flattenPacking, laik_aseq_splitReduce, laik_aseq_allocBuffer, laik_aseq_sort_2phases, laik_aseq_combineActions"]}
{"id": "C56", "title": "Synchronization of key-value stores over the TCP2 backend makes all stores equal and never hangs", "statement": "When all processes synchronize the same sequence of key-value stores with laik_kvs_sync over the TCP2 backend, after each synchronization all processes have for every key of the store the value last set by any process, whatever the order in which lines arrive. No process fails or hangs, also if process 0 already asks for changes of the next synchronization while others still receive those of the one before, and all executions end.", "quantifier": "all numbers of processes, all sequences of stores, keys and values set by the processes before each synchronization, all interleavings of the processes and arrivals of lines", "why_tests_cant": "Permission to send for the next synchronization may arrive before the end of the previous one; the wait loops depend on shared fields set by handlers (exit flag, counters) in an order given by timing. Tests run few processes on one machine, with short keys and values.", "anchors": ["src/backend-tcp2.c: tcp2_sync, got_kvs, got_kvs_allow, got_kvs_changes, got_kvs_data, run_loop, send_cmd", "src/kvs.c: laik_kvs_sync, laik_kvs_sets, laik_kvs_set, laik_kvs_remove"]}
{"id": "C57", "title": "Synchronization of key-value stores over the TCP backend based on GLib makes all stores equal and never deadlocks", "statement": "When all processes synchronize a key-value store with laik_kvs_sync, which runs laik_tcp_sync over the message passing library of the TCP backend (minimpi), no process aborts or sees an error, in no execution. After any number of rounds of updates and synchronizations, each process which is done has for every key the value set by any process. From every state reached all processes can get to the end, however small inboxes and outboxes are.", "quantifier": "all numbers of processes, all sequences of rounds and of keys and values set by each process in each round, all limits of inbox and outbox, all interleavings, orders of delivery and losses of connections", "why_tests_cant": "Whether a process sends one or three messages depends on its changes, and what to receive next on the content of the last message; all use the same tag. Messages of different sizes may not fit into boxes, and process 0 only asks for one process after the other. Tests run few processes with boxes larger than all changes.", "anchors": ["src/backends/tcp/backend-tcp.c: laik_tcp_sync", "src/backends/tcp/minimpi.c: laik_tcp_minimpi_send, laik_tcp_minimpi_recv", "src/kvs.c: laik_kvs_sync, laik_kvs_changes_sort, laik_kvs_changes_merge, laik_kvs_changes_apply, laik_kvs_changes_ensure_size, laik_kvs_changes_set_size"]}
{"id": "C58", "title": "Log messages are printed completely without writing beyond buffers", "statement": "Every message given to laik_log, or built with laik_log_begin, laik_log_append and laik_log_flush, is printed exactly if its level and the location ID of the process pass the settings. The lines printed show the whole message: each starts with the prefix, a line of the message with more than 100 characters is broken at blanks, as late as possible, and continuations are indented. Neither the buffer for the message nor the buffer for a line overflows, no assertion fails. Sorting lines by their prefix keeps the order of output of a process. The environment variable LAIK_LOG sets level, prefix and filter as its help text says.", "quantifier": "all messages, numbers and lengths of pieces, log levels, filters, prefixes, and all sequences of messages and increments of the counter for prefixes", "why_tests_cant": "Log messages in tests are short; buffers of 1024 and 250 bytes only are at stake with long pieces, long words or deep indentation, at log levels not used in tests.", "anchors": ["src/logging.c: laik_log_init_internal, laik_log_begin, log_append, laik_log_append, laik_log_inc, log_flush, laik_log_flush, laik_log"]}
{"id": "C59", "title": "Sorting actions by binary digits of ranks avoids deadlocks", "statement": "laik_aseq_sort_rankdigits never aborts; its result is a permutation of the actions with monotone rounds, actions other than sends and receives first in their round, then messages by the lowest bit in which the ranks of sender and receiver differ, from the process with bit 0 to the process with bit 1 first; messages with the same peer and direction keep their order. If the sequences of all processes match and are sorted this way, executing them with blocking sends and receives never gets stuck, and every receive gets the message meant for it.", "quantifier": "all action sequences, numbers of processes, ranks, rounds, and all interleavings of the processes", "why_tests_cant": "The function is an alternative to the 2-phase sort, its calls are commented out in the backends: no test runs it at all.", "anchors": ["src/action.c: cmp_rankdigits, getActionPeer, laik_aseq_sort_rankdigits, addResorted"]}
{"id": "C60", "title": "Contents of a container over any history of switches", "statement": "At any time in the life of a 1d container with lexicographic layout over the MPI backend (after any sequence of writes by the application, switches with and without reductions, switches not keeping data), with mappings placed by prepareMaps, checkMapReuse and malloc: preparing mappings never fails an assert; different elements owned by a process never share memory; a switch always completes; afterwards each owner of an index finds, at the address returned to the application, the element of the only owner before, the neutral element if there was none, or the combination of the elements of all owners before. An element not written by the application is the same after any number of switches.", "quantifier": "all histories of writes and switches, numbers of processes, partitionings, element sizes, reductions, results of malloc, contents of memory, interleavings of processes", "why_tests_cant": "Memory is re-used from mappings which re-used memory of earlier mappings, with offsets depending on the whole history of partitionings; tests run a few fixed histories and check sums.", "anchors": ["src/data.c: laik_switchto_partitioning, doTransition, prepareMaps, checkMapReuse, initEmbeddedMapping, allocateMappings, laik_allocateMap, copyMaps, freeMaps, laik_get_map_1d", "src/action.c: laik_aseq_flattenPacking"]}
{"id": "C61", "title": "Storage of action sequences", "statement": "An action sequence behaves like two lists of actions, whatever sequence of appending, copying (with or without change of the round), changing in place, activating, discarding and freeing is done with it: iterating over the active sequence with nextAction sees exactly the expected actions in order with all their bytes, and ends exactly at the end of the bytes in use; number of actions and of rounds are right; no byte outside of the buffers is read or written, whatever new memory contains. Values which do not fit into the header are refused by an assert. Transformations which read the active sequence while they append to the new one give the concatenation of what they append for each action.", "quantifier": "all sequences of operations, actions, parameters, contents of new memory", "why_tests_cant": "Actions are packed structs of different sizes in a byte buffer which is moved when it grows; a test sees a few sequences, mostly smaller than the first allocation.", "anchors": ["src/action.c: laik_aseq_new, laik_aseq_addAction, laik_aseq_discardNewActions, laik_aseq_activateNewActions, laik_aseq_freeTempSpace, laik_aseq_add, laik_aseq_copySeq", "include/laik/action-internal.h: Laik_Action, nextAction, Laik_ActionSeq"]}
{"id": "C62", "title": "Names of objects fit into their memory and are different", "statement": "Names made by LAIK for action sequences, containers, reservations, spaces, transitions, types and partitionings, and descriptions of layouts, are never written outside of the memory provided for them, and different objects get different names.", "quantifier": "all numbers of objects created before, all names of cloned partitionings, all layouts", "why_tests_cant": "Memory for names is as long as a template with some spaces; overflows need a million switches, a chain of clones, or many mappings in a process, and are mostly hidden by the rounding of malloc.", "anchors": ["src/action.c: laik_aseq_new", "src/data.c: laik_new_data, laik_reservation_new, prepareMaps", "src/space.c: laik_new_space, do_calc_transition", "src/type.c: laik_type_new", "src/partitioning.c: laik_partitioning_new, laik_clone_empty_partitioning, laik_partitioning_set_name", "src/layout_lex.c: describe_lex", "src/layout.c: laik_layout_describe_gen"]}
{"id": "C63", "title": "External agents: table of agents, libraries closed, failures collected", "statement": "As many agents as the table has entries (10) can be loaded, more are refused; all loaded agents are asked in the order of loading; cleaning up closes every opened library once; the report of failed nodes has the failures of all agents.", "quantifier": "all sequences of loaded agents, with and without library, all reports of agents", "why_tests_cant": "Examples load one agent, so bounds of the table and merging of reports never matter, and a library which stays open is not visible.", "anchors": ["src/external.c: laik_ext_init, laik_ext_load_agent_from_file, laik_ext_loadagent, laik_ext_cleanup, laik_get_failed", "src/program.c: laik_set_iteration", "include/laik/ext.h: struct _Laik_RepartitionControl"]}
{"id": "C64", "title": "Threads of the TCP server: sockets are not lost, closed once, served fairly; threads end", "statement": "For any interleaving of the threads of the server of the TCP backend each socket is at exactly one place (queue, returned, handled, closed); the listening socket stays in use; no thread sleeps while a returned socket waits to be watched or after the shutdown was signalled; after the shutdown all threads end and every socket is closed exactly once; a socket with input is served after a bounded number of others; the number of open sockets is limited.", "quantifier": "all numbers of threads, limits of connections, interleavings, results of accept/poll/handlers, histories of connections", "why_tests_cant": "Lost wakeups and sockets closed twice need certain interleavings of threads, with bytes in the signal socket at certain times.", "anchors": ["src/backends/tcp/server.c: laik_tcp_server_accept, laik_tcp_server_run, laik_tcp_server_free, laik_tcp_server_new", "src/backends/tcp/socketqueue.c: laik_tcp_socket_queue_cancel, laik_tcp_socket_queue_pop, laik_tcp_socket_queue_push, laik_tcp_socket_queue_remove"]}
{"id": "C65", "title": "Connections of the TCP backend: requests are handled once, in order, unchanged; connections can be used again", "statement": "For any splitting of bytes by the network, any limit of buffers and closing by any side at any time, the server handles only requests of the client, each once, in order and with the bytes sent, and the client takes as answer only what the server answered to this request. A connection stored for further use has no bytes of old messages on the way. Requests end unless a side closes the connection. The list of stored connections loses no sockets and respects its limit.", "quantifier": "all sequences of requests and answers with any bytes (below 2^63 each), all splittings into calls of send/recv, all buffer sizes, all points of closing; all lists of stored connections", "why_tests_cant": "Pieces in which bytes are delivered and points of connection losses are chosen by the network, tests on one host see few of them.", "anchors": ["src/backends/tcp/socket.c: laik_tcp_socket_send_data, laik_tcp_socket_receive_data, laik_tcp_socket_send_bytes, laik_tcp_socket_receive_bytes, laik_tcp_socket_send_uint64, laik_tcp_socket_receive_uint64", "src/backends/tcp/messenger.c: laik_tcp_messenger_client, laik_tcp_messenger_server", "src/backends/tcp/client.c: laik_tcp_client_connect, laik_tcp_client_store"]}
{"id": "C66", "title": "Profiling: measured times are right, only live instances and open files are used, files get closed", "statement": "At any time the backend time reported is the time spent in the backend for the measured instance since its measurement began or was reset; the total time contains the backend time; the user time is the sum of the intervals marked by the application; at most one instance is measured; functions never use controllers of finalized instances, null pointers or closed files; files get closed at the latest when instances are finalized.", "quantifier": "all sequences of calls of the functions for profiling, switches and finalization for any number of instances, all times, success or failure of opening files", "why_tests_cant": "Wrong accesses need certain orders of calls for several instances or after finalization; wrong times are not checked by tests as they differ from run to run.", "anchors": ["src/profiling.c: laik_enable_profiling, laik_reset_profiling, laik_profile_user_start, laik_profile_user_stop, laik_enable_profiling_file, laik_get_total_time, laik_get_backend_time, laik_writeout_profile, laik_close_profiling_file, laik_profile_printf, laik_free_profiling", "src/data.c: doTransition", "src/core.c: laik_finalize"]}
{"id": "C67", "title": "Location strings: after synchronization every process knows the location of every process", "statement": "After laik_sync_location was called by all processes, laik_group_location gives in every process, for every group and every process in it, the location string of that process; no process aborts, and no memory outside of the array of locations is accessed; this also holds for repeated calls and after processes were added.", "quantifier": "all numbers of processes, location IDs and location strings, all groups, all calls (also after resizes)", "why_tests_cant": "The array of locations is filled by callbacks from the synchronization of a key-value store of all processes; wrong accesses need growth of the instance between calls; the existing test calls it once in a fixed world and prints.", "anchors": ["src/core.c: laik_sync_location, update_location, locationkey, laik_group_location", "src/kvs.c: laik_kvs_set, laik_kvs_changes_apply, laik_kvs_sync, laik_kvs_reg_callbacks", "src/backend-mpi.c: laik_mpi_sync", "src/backend-tcp2.c: tcp2_resize"]}
{"id": "C68", "title": "Contents of a container are kept over all uses of reservations and prepared actions", "statement": "In any history of a container with reservations (switches into, within, between and out of reservations, execution of prepared sequences any number of times, changes by applications), every switch ends, and each owner of an index in the target then has the element of the only owner before, the neutral element, or the combination of the elements of all owners.", "quantifier": "all numbers of processes, partitionings of reservations and their tags, contents of memory, addresses given by malloc, histories, schedules of blocking and asynchronous MPI communication", "why_tests_cant": "Within a reservation nothing is copied locally and memory of old and new mappings overlaps; whether data is overwritten before it is sent or copied depends on tags, order of communication and addresses; tests use one pair of partitionings with equal tags.", "anchors": ["src/data.c: laik_reservation_alloc, prepareMaps, copyMaps, checkMapReuse, doTransition, laik_calc_actions, laik_exec_actions, initEmbeddedMapping", "src/backend-mpi.c: laik_mpi_prepare, laik_mpi_exec"]}
{"id": "C69", "title": "Mapping lists and reservations are used only while they exist", "statement": "For every order of calls which create, extend, allocate, give and free reservations, switch a container, prepare and execute sequences and access contents: no freed or missing object is used and no check fails if and only if each call was allowed by the calls before it; then the contents are those written last as long as switches keep them, and no mapping list is lost.", "quantifier": "all histories of calls on a container with any number of reservations, partitionings and prepared sequences, with backends which prepare sequences or not", "why_tests_cant": "Freed lists and reservations stay referenced by the container and by prepared sequences; whether this is noticed depends on the order of calls and on malloc. Tests have one order.", "anchors": ["src/data.c: prepareMaps, freeMappingList, doTransition, copyMaps, laik_data_use_reservation, laik_reservation_new, laik_reservation_add, laik_reservation_free, laik_reservation_getMList, laik_reservation_alloc, laik_exec_transition, laik_calc_actions, laik_exec_actions, laik_switchto_partitioning, laik_set_initial_partitioning, laik_get_map"]}
{"id": "C70", "title": "Messages over connections opened when needed arrive once, under the right sender, in order, and ends of processes are noticed without failure (TCP2)", "statement": "Processes open connections to each other at their first message, possibly both at the same time. Each message is handled exactly once by the process it was sent to and as a message of its sender, in order of sending; if a process ends the others notice it and go on.", "quantifier": "all numbers of processes, all orders of messages, accepted connections, handled input and ends of processes", "why_tests_cant": "Whether two processes connect to each other at the same time, and in which order a process looks at its connections, depends on timing.", "anchors": ["src/backend-tcp2.c: ensure_conn, send_cmd, send_bin, got_myid, got_cmd, got_bytes, got_connect, got_register, add_rfd, rm_rfd"]}
{"id": "C71", "title": "The configuration of the TCP backend is what the file says, processes have different addresses, and threads using it while it is read again are safe", "statement": "Each setting has the value of the file, or the default if not given; a file with a wrong value changes nothing. Different addresses lead to different sockets. Users get the newest correct configuration; it stays unchanged and in memory as long as they use it and is freed afterwards; at most one thread reads the file again, at most once a second, and the threads never wait for each other forever.", "quantifier": "all files, environments and addresses; all orders of calls, ends of use, and steps of update threads", "why_tests_cant": "The configuration is read again by a thread in the background, so use after free, lost objects or waiting forever depend on timing; a clash of addresses needs names of a certain length.", "anchors": ["src/backends/tcp/config.c: laik_tcp_config, laik_tcp_config_update, laik_tcp_config_ref, laik_tcp_config_unref, laik_tcp_config_new_custom, laik_tcp_config_new_default, laik_tcp_config_parse_addresses, laik_tcp_config_parse_bool, laik_tcp_config_parse_size, laik_tcp_config_parse_time", "src/backends/tcp/socket.c: laik_tcp_socket_new"]}
{"id": "C72", "title": "Processes of the TCP2 backend start together: same table and numbers, nobody begins early, and the startup always ends", "statement": "However fast the processes run, all processes that join a world of the wanted size get different numbers in the order in which the master heard from them, the same table of locations, hosts, ports and flags, and the same world size. Nobody begins before all members know each other and accept connections. No assertion fails, the startup ends if there are enough processes, and processes which come too late are queued without any effect on the others.", "quantifier": "all world sizes from 2 to MAX_PEERS, all numbers of processes, all locations, hosts, ports, flags; all orders in which the processes and the master handle messages", "why_tests_cant": "The order of registrations and replies is different in each start; a test sees few orders with few processes, on machines with short names.", "anchors": ["src/backend-tcp2.c: startup_master, startup_non_master, got_register, got_id, got_getready, got_ok, got_phase, laik_init_tcp2"]}
{"id": "C73", "title": "The event loop of the TCP2 backend serves every ready connection and every command once, and its tables always fit to the open descriptors", "statement": "Whatever clients send and in whatever order they connect and leave, with descriptors used again after close: the event loop calls the callback of every ready descriptor once, every command is handled once and in order for its own connection, the set given to select, the callbacks, the highest descriptor, the buffers and the open descriptors fit to each other, nothing opened is forgotten, and data for a process goes to an open connection on which it was announced. No assertion fails and no freed memory is used.", "quantifier": "all sequences of events (ready descriptors with any input, sends, phases of the program), all descriptors given by the operating system, any number of clients", "why_tests_cant": "Callbacks change the table while the loop runs over it; which descriptors are ready together and which numbers are used again depends on timing and on other programs. Clients of the interactive commands are not tested at all.", "anchors": ["src/backend-tcp2.c: add_rfd, rm_rfd, run_loop, check_loop, got_connect, got_bytes, process_rbuf, got_cmd, got_quit, got_myid, got_register, got_cutoff, ensure_conn, send_cmd"]}
{"id": "C74", "title": "The status command of TCP2 shows every process and every unknown client once, without writing beyond its buffer", "statement": "At any time and for any client asking, the reply to the status command has exactly one entry for each known process, with its location, host, port, flags, connection and state, and one for each connection in use without LID, with its state and queued command, in order of numbers. No assertion fails, no text is missing and nothing is written beyond the buffer for a line.", "quantifier": "all contents of the tables of processes and connections, all queued commands, any client", "why_tests_cant": "The command is for interactive use and not tested; whether lines fit depends on what other clients have queued, and whether tables are complete on the time of asking.", "anchors": ["src/backend-tcp2.c: got_status, get_statestring"]}
