# Formal model of LAIK in Lean 4

The source under study is `/repo` (envelope-project/laik, C).  It is read as
text only.  Lean project: `lean/`, modules `lean/Verif/*.lean`.

## Layout

* `Verif/Model/*.lean` – model definitions (each cites file and lines) and
  helper lemmas.
* `Verif/Spec/*.lean` – small specifications that do not use the model's helpers.
* `Verif/Props/*.lean` – the property theorems named in `MANIFEST.json`, with
  `example`s showing that their hypotheses are satisfiable.

## Trusted base

* Lean 4.33.0 kernel; axioms at most `propext`, `Classical.choice`, `Quot.sound`.
* The reading of the C code: nothing is extracted mechanically.
* 64-bit integers are modelled as unbounded `Int`/`Nat` unless a property is
  about truncation (each definition says so).
* Failed `assert`, `laik_panic`, `exit(1)` and undefined behaviour (NULL
  dereference, out-of-bounds access) are a distinct outcome (`none` / error).
* `qsort` is modelled as a function that returns a sorted permutation; where
  the comparator distinguishes original positions the result is unique, else
  the statements hold for every sorted permutation.
* Floating point: weights in partitioners are an arbitrary type with arbitrary
  (law-free) operations, so the structural theorems cover IEEE doubles
  including NaN.  Theorems about termination without abort use exact rational
  arithmetic and say so.
* Not modelled: allocation failure, MPI library internals,
  socket system calls, parsing of environment variables other than `LAIK_LOG`,
  the configuration of `src/backends/tcp/*` and its pool of client threads (what its
  message passing guarantees is C53, its server threads are C64).

## Properties

| id | modelled | proof idea |
|----|----------|------------|
| C01 | `laik_range_intersect` per dimension | membership iff; case split on dims |
| C02 | `isEmpty`, `within`, `expand`, `isEqual`, `size` | membership characterisations; counting by product |
| C03 | serializer / sscanf parser on character lists | decimal print/parse round trip; length bound; 3d overflow witness |
| C04 | `laik_rangelist_coversSpace` work list | invariant: uncovered indexes are in the work list |
| C05 | same | invariant: work list pieces are non-empty and uncovered; witness for failure |
| C06 | append, sort, merge | ownership invariant over merge |
| C07 | offset tables, map numbers | prefix partition of the sorted list |
| C08 | migrate via group tables | ownership preserved under injective translation |
| C09 | tid filter, index filter binary search | filter = list filter; binary search invariant |
| C10 | All/Master/Copy | direct |
| C11 | block loop with law-free weights | loop invariant: emitted ranges tile the prefix |
| C12 | block loop, exact arithmetic | cut-point closed form; witness for abort |
| C13 | recursive bisection | induction on process count |
| C14 | grid borders | tiling from shared borders |
| C15 | halo extension | membership; witness for missing border halo |
| C16 | reassign loop | loop invariant, composition with migrate |
| C17 | `calcAddReductions` sweep for every process | per-sweep global event list; each process's ops are projections |
| C18 | same | active-set invariant of the sweep |
| C19 | 2d/3d loops | witness for order mismatch; partial matching as multisets |
| C20 | rendezvous semantics of action lists | global linear order consistent with local orders |
| C21 | sort by comparator | sorted permutation, stability |
| C22 | combine + allocation | interpretation of sequences on memory |
| C23 | buffer allocation | cumulative offsets |
| C24 | 2-/3-round split | interpretation; fold lemmas |
| C25 | KVS operations | refinement to `Key → Option Value` |
| C26 | sync over processes | convergence from merge law; abort witnesses |
| C27 | journal merge | merge of sorted association lists |
| C28, C29 | union / shrink | list lemmas |
| C30–C34 | lex layout, pack/unpack, copy, reuse, translation | mixed radix arithmetic; resumption invariant; total count of a layout is the sum of its sections, also after re-use (`C33_count`) |
| C35, C36 | `type.c` | BitVec arithmetic; fold permutation |
| C37 | `addSwitchStat`, allocation counters of switch statistics | invariant over all histories of allocations and releases; merge of two histories with witness of the wrong maximum |
| C38 | receive buffer of the TCP2 backend as a state machine over reads of any length (`Spec/Stream`, `Model/TcpFrame`) | for protocol conforming peers the state after any prefix of the stream equals the specified one, by induction over the reads; counterexamples for other streams |
| C39 | sender loop, send buffer, text commands and receiver (`Model/TcpData`), on top of the framing of C38 | groups of elements in blocks and lines of text are `Proper` messages; their effect is a fold over the indexes in traversal order |
| C40 | resize of the TCP2 backend in all processes, with commands exchanged (`Model/TcpResize`); roles of LIDs as specification (`Spec/Resize`) | loop invariant of the group creation against lists over LIDs; effect of command sequences; agreement of all processes as invariant over histories |
| C41 | queue of resize requests in the master with requests at connections (`Model/ReqQueue`); arriving requests as specification (`Spec/ReqQueue`); world and epoch of `Model/TcpResize` | requests served, queued and waiting are a permutation of the requests arrived, as invariant over histories; epochs for arbitrary states |
| C42 | `laik_reservation_alloc`: grouping by tag, covering boxes, embedding; result of `qsort` is any sorted permutation | hull invariant of the loops, sharing/disjointness of cells; success under stated tag rules |
| C43, C44 | async conversion, statistics | projection / sum lemmas |
| C45 | `getMPIOp` against `type.c` | equal per operation except And/Or, with witness |
| C46 | heap of allocations, ownership of mappings, reuse, switch | ownership invariant over all sequences of calls; crashes characterised exactly |
| C47 | the three checks on frozen lists, choice of the reduction in 2d/3d, order of reduction and local copy (`Model/FormCheck`) | iff with a specification on the lists of ranges per process (`Spec/Form`); groups of `Model/RangeListLemmas` |
| C48 | split and sort of the operations of a transition, `exec_reduce`, `tcp2_exec`, `copyMaps` on memory cells (`Model/Tcp2Exec`) on top of the transition (C17) and sort (C21) models; interleaving semantics with memory and message contents (`Spec/DataExec`) | invariant: contents of all messages are the expected ones (`Model/DataExecLemmas`), reduction to one index (`Model/DataPointwise`), order of messages (`Model/Tcp2Order`) with the deadlock theorem of C20, values by cases of the transition (`Model/Tcp2Switch`) |
| C49 | heap of partitioning objects with stored lists, calls as steps (`Model/Stored`); runs with filters on top of C06-C09 models | lists as sorted and merged form of the kept calls (`Model/StoredLemmas`); merged ranges are the maximal owned intervals, so own parts agree and filtered lists keep all borders inside own ranges (`Model/StoredEnough`); invariant over executions; then C17 |
| C50 | operations of the C17 transition for one process, mappings with base address and required range, flat memory with allocated blocks, `memcpy` failing for accesses outside and for overlaps (`Model/SingleExec`) | operations are local copies or reductions without input (`one_of_calculated`); frame of the reductions; copies with the point-wise argument of C48 |
| C51 | transition operations of C17 at each process, then each step of `laik_mpi_prepare` on actions with byte addresses, buffers anywhere not in use; execution by processes with memory, messages and collectives (`Spec/NetExec`, `Model/MpiPrepare`) | each step keeps meaning per process (C20, C22), messages of a pair of processes match by relabelling (`Model/MpiMatch`), contents by a ghost execution (`Model/MpiChain`, `Model/MpiJoin`), final memory index by index (`SwOK.final`, `MSwitch.inv`); existence by `switch_iff` |
| C52 | actions of C51 rewritten to requests and waits and sorted (`Model/MpiAsync`); execution with requests where data is read or written at any time before the end of the wait (`Spec/AsyncExec`) | simulation of an asynchronous execution by a blocking one (`Model/MpiAsyncSim`, `Model/MpiAsyncRun`) if no buffer of a pending request is accessed; that is derived for prepared sequences from a condition on the partitionings (`Model/MpiAsyncReg`, `Model/MpiAsyncV3`, `AsyncSafe.noRace`); wrong results shown otherwise (`C52_in_place_race`, `C52_pieces_race`) |
| C53 | processes with flows, inbox, outbox, a main thread and a background thread; tasks and data on connections as a bag of items which may be handled in any order and lost (`Model/MiniMpi`); programs with ideal channels as specification (`Spec/MiniMpi`) | refinement to ideal channels by an invariant (`Model/MiniMpiInv`, `Model/MiniMpiRun`): each step is a step with ideal channels or none; invariants that nothing is lost (`Model/MiniMpiLive`) and that what was received leaves the outbox (`Model/MiniMpiClean`); from each reachable state a run is given which ends the receive or send (`Model/MiniMpiProgress`); wrong behaviour outside of the conditions shown with executions (`Props/MiniMpi`) |
| C54 | each operation as a program of one process (`Model/MiniColl`), run by the message passing of C53; specification: effect on the memory of all processes, without messages (`Spec/MiniColl`) | every operation is a list of events, each a message from one process to another (`Spec/Choreo`, `Model/CollEvs`); programs of processes are projections of the list (`Model/Choreo`); for each list of events, processes agree with the run of the list in order (`Model/ChoreoRun`) and can get to the end by doing the first event not done (`Model/ChoreoLive`, with progress of C53); running the events gives the result specified (`Model/CollRun`, `Model/CollSplit`, `Model/CollSum`); barrier by causality (`Model/CollBarrier`) |
| C55 | `laik_tcp_exec` for prepared actions as a program of one process of C53, on bytes of memory (`Model/TcpSwitch`); calculation of actions and preparation as in C51 (transition, packing, combining, reductions, buffers, sorting) | an execution of the actions in the model of C51, where a send waits for its receive, is taken as list of events of C54 (`Model/TcpEvs`, `Model/TcpBuild`): its projection to a process is the program of that process; so results and absence of deadlocks follow from C54's theorems on lists of events, and values from C51; collectives of programs from `Model/TcpStatic`; `Model/TcpNoRet`: programs which never end |
| C56 | `tcp2_sync` and handlers of `kvs` commands for all processes as a step relation: entering, writing a line, handling a line, going on from a wait loop; lines of text with `sprintf`/`sscanf` and their limits, FIFO connections, stores as in C25 (`Model/Tcp2Sync`); specification of values by `Spec/KvsRounds` | invariant for process 0 and each other process, with the lines on the way (`Model/Tcp2SyncInv`), kept by all steps (`Tcp2SyncLocal`, `Tcp2SyncCli`, `Tcp2SyncSys`), progress and a decreasing measure (`Tcp2SyncProg`); text in `Tcp2SyncText`, stores in `Tcp2SyncStore` |
| C57 | `laik_tcp_sync` as a program of one process of C53, with numbers and characters as bytes of messages, which does different things for different received counts (`Model/TcpSync`); stores and changes as in C25/C26; specification of values from C26 (`roundsSpec`) | `Model/ProgSim`: a program may do anything for messages which do not arrive; executions of programs and of a list of events of C54 match step by step in both directions. `Model/TcpSyncEvs`, `Model/TcpSyncRound`: the events for given changes, their messages are those of the programs; values from the lemmas of C26. `Model/TcpSyncStuck`: without changes, by an invariant of ideal channels |
| C58 | Static variables of logging.c as a state, texts as lists of characters, loops of `log_flush` with positions as in C; formatted pieces and the time are given (`Model/Log`). Specification: lines with indentation which show a message, are wrapped, not broken without need (`Spec/Log`) | Invariant of the search for the end of a line (`Model/LogLemmas`), induction over lines (`Model/LogParts`); order of numbers with leading zeros and length of prefixes (`Model/LogOrder`) |
| C59 | `cmp_rankdigits` with the loops over bits, failing for actions without peer; result of a `qsort` whose comparisons did not fail (`Model/DigitSort`); sequences and executions as in C20, C21 | the comparison is a lexicographic order by round, phase, peer, position; the phase is a function of sender and receiver, so the global order of C20 is used with other phases (`Model/Deadlock`: `gkeyBy`, `ExecOKBy`) |
| C60 | life of a container as steps between (task ranges, mapping lists of all processes, memories of all processes); new mappings are the result of the models of C33, C34 (`coveringRanges`, `prepMaps`, `checkMapReuse`) with memory of `malloc` (free, not in mappings of the process) for those without; a switch is a complete execution of the programs of C51, C52 on the memory (`Model/Placement`, `Model/History`) | invariant of mapping lists over all histories (`Placed`: consistent layout, allocations apart from each other, required parts within them; `Covers`: map numbers of owned ranges); from it the assumption `MMemOK` of C51 and C52 on placement of elements, which is then no assumption any more; `laik_get_map_1d` and the backend compute the same address |
| C61 | bytes of active and temporary buffer, with growth by `realloc`, 4-byte header, `nextAction`, loops (`Model/ActionStore`); specification by lists of actions (`Spec/ActionStore`) | simulation: bytes in use are the concatenation of the encodings of actions; encodings are read back; steps of both sides correspond, also where asserts fail; transformation loops by induction over the active sequence |
| C62 | texts as written by `sprintf` into memory of known size (`Model/Names`), decimal numbers as in C03 | number of digits by powers of ten; names are split at their last dash |
| C63 | arrays of 10 entries as lists, a write outside is a failure (`Model/Agents`) | invariant for the arrays after loading any list of agents; induction over agents asked |
| C64 | transition system with any number of threads; shared queue with `revents`, lock, bytes in the signal socket (`Model/Server`); `poll` reports any sockets, but the signal socket exactly if it has bytes. Not modelled: `poll` interrupted by signals (the code then fails an assert) | counting places of sockets; invariants for lock, wakeups and lengths; weight decreasing with each step after the shutdown; number of calls to wait decreasing with each call |
| C65 | bytes of requests and answers, incremental reading (how many bytes the next `recv` asks for), connection as transition system with one step per `send`/`recv` (`Model/Conn`); search and storing of unused connections. Not modelled: timeouts as times (a side may close at any time), TCP itself (bytes arrive in order), unanswered `connect` | invariant: bytes read, on the way and still to be sent give the encoding of the current message; weight decreasing with each transfer; induction on the list of stored connections |
| C66 | controllers of instances, `laik_profinst`, files; calls as operations with faults (`Model/Profiling`). Simplified: times are exact numbers; lines in files without guid, phase and iteration | invariant linking the state to the list of past calls; exact condition for absence of faults; sums by induction on calls; negations with concrete calls |
| C67 | key-value store of C25/C26 with callbacks, array of allocated size, keys of 9 characters (`Model/Locations`). Simplified: strings copied instead of pointers; location IDs not negative; MPI backend | callbacks are exactly those for changes not yet in the own store, by induction on applied changes; merged changes from C26; negations in general (second call, growth) or with concrete processes |
| C68 | histories of C60 with mappings which are of no reservation or in any of several reservations calculated as in C42 (`Model/ResSwitch`); actions of the MPI backend of C51 and C52. Simplified: 1d, lexicographic layout, one group, memory given by malloc is not in use; asserts and frees in the use of reservations not included | elements of old and new mappings are the same for the same index or apart, from C42 (allocation per tag) and placement of C60; then C51 and C52; necessity of equal tags for all local switches by showing that no action is executed; negation for the Master and bisection partitioners in one process |
| C69 | objects of lists, reservations and sequences with a flag if freed; any use of a freed object is a fault (`Model/ResLife`). Simplified: one container in a process which is in all groups, contents of a list as one value (elements: C68), every partitioning has ranges in the process, addresses of freed objects are not given again, a copy is needed in every switch which keeps contents | specification from the list of calls only (`Spec/ResLife`); invariant which gives each list its reservation, allocation and number of entry (`Model/ResLifeLemmas`), kept by each call (`Model/ResLifeSteps`, `Model/ResLifeRun`); induction over histories |
| C70 | all processes with their tables of connections and all connections with their queues; events send, accept, read, exit in any order (`Model/TcpConn`). One command is one item (framing: C23); connections to living processes succeed; file descriptors are not used again; no resize (C40) | invariant on connections and tables (`Model/TcpConnLemmas`); effect of each event on handled, waiting and lost messages of each pair (`Model/TcpConnRun`); specification from the list of events only (`Spec/TcpConn`) |
| C71 | contents and addresses (`Model/TcpConfig`): the reader of key files of GLib is given by its results, times are rational numbers; `getaddrinfo`, `socket`, `connect`, `bind` not modelled. Objects, references, update threads (`Model/TcpConfigRun`): parts under the lock are one step each, in any order; one time per call | meaning of each setting and of the newest configuration separately (`Spec/TcpConfig`); invariant: counters equal the references of users, the static variable and update threads; static variables follow the only thread at work (`Model/TcpConfigLemmas`) |
| C72 | master, any number of other processes, and the commands on the way between them; each process handles its next command at any time (`Model/TcpStartup`). Commands are values instead of text of at most 50 characters per word; connections deliver in order and do not break; commands of the application that follow are left out | numbers by the order in which the master first reads something, common table as a function of them (`Spec/TcpStartup`). Invariant: every process has handled a prefix of one fixed sequence of commands, and the rest of what was sent is on the way; a weight of the work left goes down in each step (`Model/TcpStartupLemmas`) |
| C73 | one process with its table of descriptors, the set for `select`, the table of peers and the open descriptors; ready descriptors with any input and descriptors given by the operating system as events (`Model/TcpLoop`). Bytes are given as complete lines and an incomplete one (C38); connections can be opened; contents of registrations (C72), removal requests (C41), states of peers are left out | commands and ready descriptors from the list of events only (`Spec/TcpLoop`); invariant on table, set, highest descriptor and open descriptors; each callback removes at most its own descriptor (`Model/TcpLoopLemmas`); for harmless clients also that connections of a LID are in the table of peers (`Model/TcpLoopCalm`); negations with concrete clients |
| C74 | tables as functions, texts as lists of characters, `sprintf` to an array as a check of the length, lines sent as list (`Model/TcpStatus`); sending itself is C73 | entries and their lines independent of the loops (`Spec/TcpStatus`); induction over processes and descriptors; lengths of numbers and texts; negations for long queued commands and for tables with gaps |

## Modules

| files in `Verif/` | code |
|---|---|
| `Model/Range` | `src/space.c` 61-297 |
| `Model/SpaceCodec` | `src/space.c` 330-459, store access 461-514 |
| `Model/Covers` | `src/rangelist.c` 160-305 |
| `Model/RangeList`, `RangeListLemmas` | `src/rangelist.c` 100-160, 307-704 |
| `Model/Group` | `src/core.c` 396-533 (groups; without the backend callback) |
| `Model/Migrate` | `src/partitioning.c` 589-628 |
| `Model/Partitioner` | `src/partitioning.c` 60-190 (filters), `src/partitioner.c` 110-360 (all, master, copy, halo) |
| `Model/Split`, `Block`, `Reassign` | `src/partitioner.c` 372-487, 532-622, 712-820 |
| `Model/Transition`, `TransitionLemmas` | `src/space.c` 746-768, 772-876, 1061-1330 |
| `Model/Transition2d` | `src/space.c` 1427-1439, 1484-1544 |
| `Model/ActionSort`, `Deadlock`, `Spec/Exec` | `src/action.c` 1579-1712, 1815-1858; rendezvous semantics of sends and receives |
| `Model/Combine`, `CombineLemmas`, `Spec/Memory` | `src/action.c` 1096-1573 |
| `Model/AllocBuf` | `src/action.c` 263-283, 845-1056 |
| `Model/SplitReduce`, `NetLemmas`, `Spec/Net` | `src/action.c` 2067-2332, `src/backend-mpi.c` 566-678, `src/backend-tcp2.c` 2243-2320 |
| `Model/Kvs*`, `Spec/Kvs` | `src/kvs.c`, sync in `src/backend-mpi.c` 1080-1193 |
| `Model/Async`, `AsyncLemmas`, `Spec/Async` | `src/backend-mpi.c` 214-272, executions of non-blocking operations |
| `Model/Stats` | `src/action.c` 2423-2565, `src/backend-mpi.c` 964-990 |
| `Model/Layout`, `Model/LayoutLemmas`, `Model/LayoutTraverse`, `Model/LayoutPack` | `src/layout_lex.c` 27-543 (without describe), `src/layout.c` 37-273 |
| `Model/LayoutCopy` | lemmas on `copy_lex`, `laik_layout_copy_gen`, `laik_data_copy` (`src/data.c` 534-546) |
| `Model/PackSend` | `src/backend-mpi.c` 473-520 |
| `Model/Reuse`, `Model/ReuseLemmas` | `src/data.c` 336-397, 468-531, 609-692, 1409-1416, 1462-1542 |
| `Model/IndexTrans` | `src/data.c` 303-330, 1545-1607 |
| `Model/Types`, `Spec/Reduce` | `src/type.c` (init and reduce functions), `src/backend-mpi.c` 456-470 |
| `Model/MemStat`, `Spec/MemHist` | `src/data.c` 44-153 |
| `Model/MapMem`, `Model/MapMemLemmas` | `src/data.c` 336-531, 609-692, 744-758, 779-872, 1294-1334, 1374-1384 |
| `Model/Reserve`, `Model/ReserveLemmas` | `src/data.c` 976-1186 |
| `Spec/Stream`, `Model/TcpFrame`, `Model/TcpFrameLemmas` | `src/backend-tcp2.c` 185, 453-480, 695-741, 1472-1477, 1520-1655 |
| `Spec/Transfer`, `Model/TcpData`, `Model/TcpDataLemmas`, `Model/TcpTextLemmas` | `src/backend-tcp2.c` 317-351, 695-823, 2088-2222 |
| `Spec/Resize`, `Model/TcpResize*` | `tcp2_resize`, `tcp2_finish_resize`, startup and group creation in `laik_init_tcp2`, `got_id`, `got_backedout`, `got_getready`, `got_phase`, `got_enterresize`, `got_ok`, LID assignment of `got_register`, `laik_create_group` (memory layout), `laik_set_world`; system of all processes | text of commands, connections, logging |
| `Spec/ReqQueue`, `Model/ReqQueue`, `Props/ReqQueue` | C41: requests to join and leave, their queue, epochs |
| `Spec/Form`, `Model/FormCheck`, `Props/FormCheck` | C47: isAll, isSingle, isEqual; reductions in 2d/3d |
| `Spec/DataExec`, `Model/DataExecLemmas`, `Model/DataPointwise` | C48: execution of sends, receives and copies with memory |
| `Model/Tcp2Exec`, `Model/Tcp2ExecLemmas`, `Model/Tcp2Match`, `Model/Tcp2Order`, `Model/Tcp2Values`, `Model/Tcp2Switch`, `Model/Tcp2Cells`, `Props/Tcp2Exec` | C48: switch over the TCP2 backend in 1d. Not modelled: reservations and reuse of mappings beyond the assumption `MemOK` (cells of different indices are different, skipped copies are between same cells), initialisation of mappings, mappings without memory; messages are lists of elements (framing: C38, C39) |
| `Model/Stored`, `Model/StoredLemmas`, `Model/StoredEnough`, `Props/Stored` | C49: range lists stored in 1d partitionings. Not modelled: migration of stored lists to another group, explicitly set lists (`LAIK_RI_UNKNOWN`), partitioners giving different ranges in each run, the check for coverage, names |
| `Model/SingleExec`, `Model/SingleLemmas`, `Props/SingleExec` | C50: switch of a 1d container with the backend for one process. Not modelled: other dimensions (reductions abort there), initialisation of mappings, statistics, preparation of mappings (see C33, C46) |
| `Spec/NetExec`, `Spec/MemorySeq`, `Model/NetExecLemmas`, `Model/MpiPrepare`, `Model/MpiNet`, `Model/MpiComb`, `Model/MpiWalk`, `Model/MpiRelabel`, `Model/MpiGroup`, `Model/MpiSplit`, `Model/MpiSplitWalk`, `Model/MpiSplitRel`, `Model/MpiProcess`, `Model/MpiMatch`, `Model/MpiNetOK`, `Model/MpiAll`, `Model/MpiChain`, `Model/TransGroups`, `Model/MpiFit`, `Model/MpiCells`, `Spec/Combine`, `Model/MpiSetup` | 1d transitions over the MPI backend: preparation (`laik_mpi_prepare` without asynchronous communication) and execution; lemmas on executions, on combining with kept order on renumbered rounds, and on group reductions split into messages and local reductions; the effect of all steps on one process and the matching of messages of all processes |
| `Model/MpiJoin`, `Model/MpiLocal`, `Model/MpiSwitch`, `Model/MpiExists`, `Props/MpiSwitch` | C51: contents of messages and collectives, local copies, final memory, existence. Not modelled: other dimensions, asynchronous communication, limits of `int` counts of MPI, packing of non-contiguous ranges, types and reductions not supported by `getMPIDataType`/`getMPIOp` (see C45 for And/Or) |
| `Spec/AsyncExec`, `Model/MpiAsync`, `Model/MpiAsyncShape`, `Model/MpiAsyncSim`, `Model/MpiAsyncRun`, `Model/MpiAsyncEnd`, `Model/MpiAsyncReg`, `Model/MpiAsyncV3`, `Model/MpiAsyncSwitch`, `Props/MpiAsync` | C52: asynchronous communication of the MPI backend: requests, the sequence of actions, simulation by blocking communication, memory used by the actions of a switch. Not modelled as for C51, and the limit of the array of requests |
| `Spec/MiniMpi`, `Model/MiniMpi`, `Model/MiniMpiInv`, `Model/MiniMpiRun`, `Model/MiniMpiLive`, `Model/MiniMpiClean`, `Model/MiniMpiProgress`, `Props/MiniMpi` | C53: message passing of the TCP backend based on GLib: headers and serial numbers, inbox and outbox with limits, TRY/GET/ADD, attempts, background sends; refinement to ideal channels, progress. Not modelled: sockets, the pool of client threads and its queue of tasks (any task may run at any time), timeouts (an attempt may fail at any time before the message is there), the limit on attempts of synchronous sends, numbers of 64 bit in headers |
| `Spec/Choreo`, `Spec/MiniColl`, `Model/Choreo`, `Model/ChoreoRun`, `Model/ChoreoLive`, `Model/MiniColl`, `Model/CollEvs`, `Model/CollRun`, `Model/CollSplit`, `Model/CollSum`, `Model/CollMain`, `Model/CollBarrier`, `Props/MiniColl` | C54: collective operations over minimpi: broadcast, reduce, allreduce, barrier, split with and without background thread, send and receive; lists of events with projections. Not modelled: status of a receive, element counts which are negative, reductions without types known; floating point addition is any function |
| `Model/TcpSwitch`, `Model/TcpStatic`, `Model/TcpEvs`, `Model/TcpBuild`, `Model/TcpNoRet`, `Props/TcpSwitch` | C55: `laik_tcp_exec` over minimpi for a switch of a 1d container. Not modelled: overflow of `int` in element counts, overlap of source and target of the `memcpy` in a reduction, `GroupReduce` actions within `laik_tcp_exec` (replaced by the preparation), exec without preparation |
| `Spec/KvsRounds`, `Model/Tcp2Sync`, `Model/Tcp2SyncText`, `Model/Tcp2SyncStore`, `Model/Tcp2SyncInv`, `Model/Tcp2SyncLocal`, `Model/Tcp2SyncCli`, `Model/Tcp2SyncSys`, `Model/Tcp2SyncProg`, `Props/Tcp2Sync` | C56: `tcp2_sync` with the `kvs` commands of the TCP2 backend, and `laik_kvs_sync`. Not modelled: processes removed in a resize, broken connections, full socket buffers (a write never blocks), commands other than `kvs`, overflow of `int` |
| `Model/TcpSync`, `Model/ProgSim`, `Model/TcpSyncEvs`, `Model/TcpSyncRound`, `Model/TcpSyncStuck`, `Props/TcpSync` | C57: `laik_tcp_sync` over minimpi, and `laik_kvs_sync`. Not modelled: overflow of `int` in counts (the theorems ask for fewer than 2^31 bytes), messages shorter than expected (an error in the model) |
| `Spec/Log`, `Model/Log`, `Model/LogLemmas`, `Model/LogParts`, `Model/LogOrder`, `Props/Log` | C58: `laik_log_init_internal` (LAIK_LOG), `laik_log_begin`, `log_append`, `log_flush`, `laik_log_flush`, `laik_log`, `laik_log_inc`. Not modelled: `vsnprintf` and the formatting of the time, LAIK_LOG_FILE, overflow of `int`, `laik_log` called while another message is built |
| `Model/DigitSort`, `Props/DigitSort` | C59: `cmp_rankdigits`, `getActionPeer`, `laik_aseq_sort_rankdigits`. `qsort` is any sort which compares elements next to each other in its result |
| `Model/Placement`, `Model/History`, `Props/History` | C60: `allocateMappings`, base addresses used by `laik_aseq_flattenPacking`, mapping lists as changed by switches. Not modelled: reservations, memory provided by the application, group changes, containers with other layouts or dimensions, allocators without re-use |
| `Spec/ActionStore`, `Model/ActionStore`, `Props/ActionStore` | C61: `src/action.c` 31-198, 1053-1090, `nextAction`. Actions with parameters are written in one step; sizes are not bounded by `size_t`. Justifies lists of actions in the models of transformations (C20-C24, C44, C48, C51, C52, C59) |
| `Model/Names`, `Props/Names` | C62: texts of `src/action.c` 39-40, `src/data.c` 168-169, 898-899, `src/space.c` 339-340, 1581-1582, `src/type.c` 646-647, `src/partitioning.c` 249-251, 279-291, `src/layout_lex.c` 114-137, `src/layout.c` 222-228 |
| `Model/Agents`, `Props/Agents` | C63: `src/external.c` 102-298, `src/program.c` 29-41 |
| `Model/Server`, `Model/ServerInv`, `Model/ServerLive`, `Props/Server` | C64: `src/backends/tcp/server.c` 30-195, `socketqueue.c` 30-149 |
| `Model/Conn`, `Model/ConnLemmas`, `Props/Conn` | C65: `src/backends/tcp/socket.c` 259-392, `messenger.c` 60-165, `client.c` 36-159. Justifies that C53 takes requests as atomic |
| `Model/Profiling`, `Spec/Profiling`, `Model/ProfilingLemmas`, `Props/Profiling` | C66: `src/profiling.c` 75-258, `src/data.c` 842-848, `src/core.c` 178-179 |
| `Model/Locations`, `Model/LocationsLemmas`, `Props/Locations` | C67: `src/core.c` 633-703, callbacks in `src/kvs.c` 416-427 |
| `Model/ResSwitch`, `Props/ResSwitch` | C68: reservations in histories, `src/data.c` 336-397, 548-601, 637-650, 997-1290 |
| `Spec/ResLife`, `Model/ResLife`, `Model/ResLifeLemmas`, `Model/ResLifeSteps`, `Model/ResLifeRun`, `Props/ResLife` | C69: life of lists and reservations, `src/data.c` 336-397, 440-460, 548-601, 779-872, 875-973, 997-1334, 1374-1384, 1447-1459 |
| `Spec/TcpConn`, `Model/TcpConn`, `Model/TcpConnLemmas`, `Model/TcpConnRun`, `Props/TcpConn` | C70: connections of TCP2, `src/backend-tcp2.c` 453-466, 560-693, 883-896, 919-957, 1473-1518, 1596-1681 |
| `Spec/TcpConfig`, `Model/TcpConfig`, `Model/TcpConfigRun`, `Model/TcpConfigLemmas`, `Props/TcpConfig` | C71: configuration of the TCP backend, `src/backends/tcp/config.c` 30-339, `src/backends/tcp/socket.c` 104-173 |
| `Spec/TcpStartup`, `Model/TcpStartup`, `Model/TcpStartupLemmas`, `Props/TcpStartup` | C72: startup of the TCP2 backend, `src/backend-tcp2.c` 826-917, 1117-1228, 1392-1467, 1691-1830, 1957-2031 |
| `Spec/TcpLoop`, `Model/TcpLoop`, `Model/TcpLoopLemmas`, `Model/TcpLoopCalm`, `Model/TcpLoopSteps`, `Props/TcpLoop` | C73: event loop of TCP2, `src/backend-tcp2.c` 453-515, 560-644, 826-1021, 1064-1073, 1473-1681 |
| `Spec/TcpStatus`, `Model/TcpStatus`, `Props/TcpStatus` | C74: status command of TCP2, `src/backend-tcp2.c` 355-448, 1075-1115 |

Every definition names what it leaves out in its comment.

## Disagreements between code and properties

All of these are theorems about the model (witness or general statement).

* C03 `C03_fresh_space_undefined`: a space created from the store never gets
  `range.space`; `C03_overflow_3d`: the 100 byte buffer is too small for 3d
  spaces with large bounds.
* C05 `C05_false_negative`, `C05_empty_space_false`, `C05_abort_on_covered`: the
  cover test reports not covered after expanding by non-overlapping ranges,
  for an empty space, and aborts with more than 100 pieces.
* C06 `C06_merge_empty_aborts`: freezing an empty list with merging aborts.
* C07 `C07_tag_minus_one`: ranges with tag -1 share the numbering start value.
* C08: stale map offsets after migration, changed map structure for
  single-index lists, second migration with removed filter process undefined.
* C09: the index filter drops needed ranges if own ranges overlap or are not
  sorted by position (tags); null function pointer without own ranges.
* C12 `C12_block_aborts`, `C12_no_cycles`: abort if there are too few indices.
* C13: bisection aborts (2 indices, 5 processes) or makes empty ranges.
* C14: the grid partitioner loses an index due to rounding (61/7).
* C15: the halo is missing next to the border; tag 0 aborts.
* C16: removing all processes is undefined; tags are lost.
* C17: empty or overlapping ranges, unowned indices with reduction, and index
  differences of 2^31 abort.
* C18: `removeTask` may remove a wrong task (see `removeTask`).
* C19: `C19_missing_message`, `C19_extra_message`, `C19_order_differs`.
* C21: gaps in round numbers remain if no action is moved.
* C22: combining only empty messages aborts; actions of one round must be
  independent.
* C23 `C23_wrap_overlap`: 32-bit wrap of buffer sizes.
* C24: more than 32 inputs abort; TCP reduction without inputs leaves the
  output unchanged; two-round results depend on the process for
  non-associative operations.
* C25 `C25_prefix_ignored`, `C25_extension_undefined`, `C25_remove_twice`.
* C26 `C26_remove_aborts`, `C26_double_change_aborts`, `C26_no_change_aborts`,
  `C26_small_aborts`, `C26_conflict_one_aborts`.
* C27 `C27_conflict_missed`: values which differ after a 0 byte.
* C43 `C43_send_race`: for an in-place reduction with two rounds, the
  non-blocking send of the own input is only waited for at the end, but the
  buffer is changed by the local reduction before; the partner may get the
  result as input. `C43_recv_buffer_used_early`: with three rounds, the
  receive into the buffer is started before the input is sent from it.
* C44 `C44_bytes_overflow`: byte counts use a 32-bit product.
* C31, C32: `pack_lex`, `unpack_lex` and `copy_lex` take the strides from
  entry 0 of the layout, but the start address from the section of the
  mapping. For a 2d/3d mapping in another section with another shape they
  access wrong cells (`C31_lex_wrong_section`, `C32_lex_wrong_section`).
* C33: `laik_get_map_addr` adds the layout offset (relative to the start of
  the allocation) to `base` (the address of the first required index). For a
  mapping embedded in a larger allocation the offset of the first index is
  added twice (`C33_get_map_addr_wrong`).
* C34: `laik_global2maplocal_1d` and `laik_global2local_1d` look at the
  covering range of a map only, so an index in a gap between two ranges of one
  map is reported as present although the process does not own it. If covering
  ranges of two maps overlap, local to global to local may end at another map.
  Without active mappings `mapNo` is left unset instead of -1.
* C35: the start values of Min and Max are swapped in all type functions of
  `src/type.c` (Min starts with the smallest, Max with the largest value), so
  a Min/Max reduction which starts with an initialized map returns the start
  value. The integer reduce functions called without input run
  `laik_char_init` and hence write only `count` bytes.
* C36: signed 32/64 bit sums and products may overflow (undefined behaviour in
  C) for one order of the inputs and not for another.
* C45: the MPI backend maps And/Or to `MPI_LAND`/`MPI_LOR` (logical) while
  `src/type.c` uses bitwise operators.
* **C37** `laik_addSwitchStat` (src/data.c 93-118) does not add
  `currAllocedBytes` and sums `maxAllocedBytes`; the summary shows a sum of
  peaks, not a peak (`C37_merge_max_wrong`, `C37_merge_current_wrong`).
* **C46** Switching to "no partitioning" while mappings are active passes a
  NULL list to `allocateMappings` (`C46_to_nothing_crash`); a process in
  neither group reads `fromList->res` with `fromList` NULL
  (`C46_outside_crash`). With memory provided by the application,
  `checkMapReuse` can give the provided memory to one mapping while mapping 0
  is set to the same memory (`C46_user_shared`).
* **C42** `laik_reservation_free` frees none of the reserved memory:
  `initEmbeddedMapping` moved the allocator of each combined mapping into an
  embedded one, and these are dropped by a plain `free` of the list
  (`C42_never_freed`).
* **C38**: a Ctrl-D byte always, and a `quit` line with more bytes behind it
  in the buffer, makes `process_rbuf` use the receive buffer after `rm_rfd`
  freed it (`C38_ctrl_d`, `C38_quit_more`). Binary data beyond what was asked
  for is ignored or fails an assert, depending on how the stream is cut
  (`C38_excess_depends`). When a connection closes within an element, the
  newline appended at end of file is stored as data (`C38_eof_data`).
* **C39**: elements of more than 8189 bytes cannot be sent in binary mode, an
  assert fails in `send_data_bin_flush` (`C39_big_element`). In text mode
  elements of 30 and more bytes overflow `str[100]` in `send_data`
  (`C39_text_overflow`), and three large or negative coordinates overflow
  `str[50]` in `istr` (`C39_istr_overflow`), which with log level 1 also
  happens in binary mode.
* **C40**: a newcomer allocates its world group with the size of the new
  world, but fills `fromParent` for all processes of the old world: if the
  world shrinks in a resize with a join, the writes run into `toParent`, and
  the newcomer has another translation than all others
  (`C40_newcomer_shrink`). Removal of a process requested twice, or of the
  master (which `got_cutoff` does not request), fails an assert
  (`C40_remove_fails`). Broken peers are 'simply
  skipped' when entering the resize, but fail an assert later
  (`C40_error_peer`). Groups are never removed from the instance, so the 50th
  change of the world fails an assert (`C40_group_limit`).
* **C41**: `cutoff` arriving between the processing of requests and the end of
  the resize is lost, as `laik_allow_world_resize` empties the queue again
  (`C41_lost_cutoff`; kept if nothing was requested before,
  `C41_kept_cutoff`). A joiner ending while the others enter the resize
  (`C41_joiner_gone`), a second `register` at a connection
  (`C41_registered_twice`), removal requested twice (`C41_removed_twice`) and
  more than 100 requests (`C41_limit`) fail asserts. A `cutoff` received
  before initialization is never reset: the second check for requests uses the
  freed command (`C41_early_cutoff`), and it is lost if the sender closes the
  connection first (`C41_early_lost`).
* **C47**: `isAll` is false although each process owns everything if it does
  so with several ranges (`C47_all_incomplete`). `isEqual` depends on the
  order in which ranges with the same first coordinate were added
  (`C47_equal_order`) and ignores tags, so "equal" partitionings may have
  different mappings (`C47_equal_maps`). Reductions in 2d/3d abort unless they
  go from all to all or to one process (`C47_reduce_aborts`). There, a process
  owning source and target also gets a local copy of its own input, which is
  done after the reduction and overwrites its result unless memory is shared
  (`C47_reduce_overwritten`, `C47_reduce_lost`); without reservations memory
  is shared by reuse, with a reservation for the target only it is not.
* **C48**: with a reduction over indices which no process owns in the target
  (for example from all processes owning all to a partitioning with a smaller
  domain), the TCP2 backend looks up the first process of the empty output
  group: `laik_trans_taskInGroup` fails its assert
  (`C48_reduction_without_target_aborts`; exact condition
  `C48_switch_exists_iff`). Without an owner in the source and with a
  reduction operation, the reducing process sends whatever its target mapping
  held before (`C48_switch_delivers_partial` with an empty input list).
* **C49**: `laik_partitioning_interranges` finds an entry by the address of
  the other partitioning, and `laik_free_partitioning` does not remove entries
  referring to the freed object. A new partitioning at the same address gets
  the list stored for the old one (`C49_reused_address`: the transition
  calculation aborts).
* **C49**: with a partitioner with flag `LAIK_PF_Merge`,
  `laik_partitioning_store_myranges` in a process without own ranges runs the
  merge step on an empty list, which accesses memory out of bounds
  (`C49_merge_without_own`, see C06). In a process outside of the group the
  call returns without storing a list, and a later lookup of own ranges
  returns 0.
* **C49** (not modelled): `laik_partitioning_new` prints a name of up to 10
  characters, `-` and the id into a buffer of 13 bytes; cloning a partitioning
  with a 10 character name and an id of at least 10 overflows it.
  `laik_free_partitioning` frees neither the entries nor the name.
* **C50**: for indices without source owner `laik_single_exec` copies from the
  start of the source to the start of the target mapping instead of from/to
  the range of the operation. If the source mapping is reused for a target
  starting at another index, kept values are overwritten and lost
  (`C50_new_reused_loses_values`: from `[0;12[`, `[18;20[` to `[10;20[`). If
  the piece of new indices is longer than the source mapping, memory behind
  its end is read (`C50_new_reads_outside`). The exact condition for separate
  memory is part of `C50_new_separate_partial`.
* **C50**: with new indices and no or several mappings in source or target,
  the backend fails an assert (`C50_new_needs_one_mapping`).
* **C51**: a reduction not done by a collective is computed by each output
  process on its own, starting with its own input. For reductions which are
  not associative (floating point sums), replicas get different values
  (`C51_replicas_can_differ`). With more than 8 inputs, one process computes
  the result and sends it.
* **C51**: more than 8 inputs of a reduction not done by a collective: assert
  fails if there are more than 32 inputs or no output
  (`C51_many_inputs_abort`, `C51_no_output_aborts`; exact condition
  `C51_switch_exists_iff`).
* **C51** (reading only): for containers with more than one dimension,
  `MapGroupReduce` actions are not flattened, and `laik_mpi_exec` has no case
  for them, nor does the all-reduce detection handle them, so every reduction
  of a 2d or 3d container panics.
* **C52**: a reduction done by messages where a process is both input and
  output, and its input is also sent to others, adds to the buffer of its own
  pending send if source and target use the same memory (`C52_in_place_race`)
  or if the reduction has more than one piece, as these are combined in one
  buffer for input and result (`C52_pieces_race`). If the message is not yet
  sent, another process gets a wrong value. With blocking communication the
  result is right (C51).
* **C53**: the header of a message has the generation of a communicator, not
  its identity, and ranks in the communicator. Two groups made from the same
  group (`laik_new_shrinked_group` called twice for the world) have the same
  generation: a process in both receives in one group what another process
  sent in the other (`C53_overlapping_groups`). Right if groups made from one
  group have no process in common, as when groups are only made by shrinking
  the last one (`C53_tree`).
* **C53**: a receive gives up after `receive_attempts` lookups (by default
  100, with 0.1 s each) also if the sender just has not sent yet, and LAIK
  stops with an error: a process which computes for more than ten seconds
  longer than others makes the run fail (`C53_gives_up`).
* **C53**: the answer to a GET is written and then the message discarded,
  without waiting for anything from the receiver (messenger.c 147-149). If the
  connection breaks in between, the message is lost (`C53_lost_answer`); TRY
  and ADD have an acknowledgement, GET has not.
* **C54**: only `MPI_SUM` is done (`laik_tcp_minimpi_combine`, minimpi.c
  191-197); a reduction with another operation ends with an error at the root
  (`C54_operations`). The backend passes product, minimum, maximum, and, or of
  LAIK on to it.
* **C54**: entries of a split are sorted only by hint, starting from a
  different order on each process: with equal hints each process has itself
  first, so both of two processes get rank 0 (`C54_ties_witness`). MPI keeps
  the order of the parent. LAIK always gives different hints for processes in
  the new group (`C54_group`).
* **C54**: `laik_tcp_split_compare` (minimpi.c 138-143) converts a difference
  to int: hints more than 2^31 apart are ordered wrongly
  (`C54_hints_witness`). LAIK never has such hints.
* **C54**: a process without a colour gets a communicator with only itself,
  where MPI gives `MPI_COMM_NULL`.
* **C55**: false if a collective is used for another reduction than the sum,
  that is, with `LAIK_TCP_REDUCE` on (the default), all processes owning an
  index before, and all or one after the switch: the root never is done, in no
  execution (`C55_other_reductions_never_end`). This is from
  `laik_tcp_minimpi_combine`, see C54.
* **C56**: the text protocol does not carry all values. An empty string makes
  process 0 wait for ever (`C56_empty_string_hangs`); a removal is not sent,
  stores differ afterwards (`C56_removal_lost`); a key both set and removed
  prints a null pointer (`C56_set_and_removed_fails`); keys are cut after 30
  characters (`C56_long_key_cut`); commands of 100 or more characters overflow
  `msg[100]` (`C56_long_value_fails`); store names of 30 or more characters
  fail an assert (`C56_long_name_fails`); a value which is no C string is read
  beyond its end (`C56_no_string_fails`); leading white space is lost, and an
  assert fails in the sender (`C56_blank_fails`). Different strings set for
  the same key by two processes fail an assert (`C56_conflict_fails`), as in
  the MPI backend (C26).
* **C56** (not modelled): process 0 asks all LIDs up to `maxid`, which is not
  decreased when processes are removed in a resize.
* **C57**: as in C26, `assert(count[1] > count[0])` (backend-tcp.c 905) fails
  in process 0 if no process has a change; all others then wait for its
  answer: no process ever is done (`C57_no_change_never_ends`). The other
  cases for which C26 is false are the same here.
* **C58**: `log_append` (logging.c 224-236) computes the new size of the
  buffer from the length of the new piece only, without the text already
  there: a piece with at least twice the size of the buffer after another
  piece fails the assertion (`C58_append_fails`).
* **C58**: `log_flush` only breaks lines at blanks, and checks the length of a
  line after writing it: a word with 250 characters is written beyond `buf2`
  (`C58_long_word_fails`); the same for lines starting with many blanks.
* **C58**: `LAIK_LOG=2:3-1` is accepted, and the first message aborts
  (`C58_filter_fails`). Sorting does not keep the order after 9999 messages in
  a phase (`C58_sorted_fails`), since `%04d` is a minimal width.
* **C59**: `cmp_rankdigits` (action.c 1727-1728) calls `getActionPeer` for all
  actions, which fails an assertion for actions other than sends and receives,
  though the comment of the function says they are moved to the front: the
  sort aborts for all sequences with such an action together with another one
  in a round (`C59_local_aborts`). `cmp2phase` does the check before.
* **C60**: a switch with a reduction to the same partitioning re-uses all
  memory, so results are written where inputs are. With the default
  asynchronous communication of the MPI backend, inputs are then changed while
  they are still being sent: starting from the values 1 and 2, a sum over 2 of
  3 processes can end with 4 and 3 (`C60_async_race`, see also C52).
* **C61**: rounds are kept in a byte, so at most 255 rounds are possible
  (assert in action.c 132); the second check (`round < 256`, 152) is weaker.
  `laik_aseq_activateNewActions` without new actions calls `memcpy` with a
  null pointer if no action was ever added (not modelled).
* **C62**: memory for names is that of templates such as `"aseq-0     "`, so
  numbers may have 6 digits. Each switch makes a transition and an action
  sequence: switch 1000001 writes after the end of the memory of a name
  (`C62_aseq_overflow`).
* **C62**: names of cloned partitionings are made of up to 10 characters of
  the original, a dash and the number, in memory for 12 characters: cloning a
  clone, or a partitioning with a name of 10 characters set by the
  application, overflows already with numbers of 2 digits
  (`C62_clone_overflow`, `C62_long_name`).
* **C62**: `describe_lex` writes into 200 bytes and checks the length
  afterwards; 25 mappings of a 1d container are too many (`C62_describe_1d`).
  For containers with provided memory this happens in each switch, as the
  argument of `laik_log` (data.c 389) is computed even if nothing is printed.
* **C63**: the check `num_agents <= MAX_AGENTS` accepts an 11th agent, and
  handles are stored at the number of agents after incrementing it: with the
  10th agent the handle is written after the end of the array, over the first
  agent (`C63_tenth_agent`).
* **C63**: as handles are stored one entry too far, the library of the agent
  loaded last is never closed (`C63_cleanup_partial`, `C63_leak`).
* **C63**: every agent for fault tolerance writes its failures to the begin of
  the caller's array, only those of the last stay; `max_failed` is not used
  (`C63_failed_lost`). `laik_ext_load_agent_from_function` of `ext.h` is not
  defined, the code calls it `laik_ext_loadagent`.
* **C66**: `time_total` is never written after it was set to 0,
  `laik_get_total_time` always gives 0 (`C66_total_zero`, `C66_total_fails`).
* **C66**: `laik_profile_user_stop` sets the user time to the last interval
  instead of adding it (`C66_user_fails`), and `laik_enable_profiling_file`
  does not reset it (`C66_user_not_reset`).
* **C66**: `laik_free_profiling` leaves `laik_profinst` set: after
  `laik_finalize` of the measured instance requests for times or measurement
  of another instance access freed memory (`C66_freed`; `C66_faults` is the
  exact condition).
* **C66**: `laik_profile_printf` without measured instance uses a null
  pointer, and `laik_enable_profiling_file` writes to a null file if it cannot
  be opened (`C66_null`). If the instance is already measured, the file is not
  opened and nothing is ever written (`C66_no_file`). A second file of an
  instance replaces the first, which is never closed (`C66_files_fails`). The
  file opened has the name given, not the one with the guid of the process;
  all processes use the same file (not modelled).
* **C67**: the array of location strings has the size of the instance at the
  first `laik_sync_location`; after growth (`src/backend-tcp2.c` 2611, 2804)
  the asserts use the new number of locations: memory after the array is
  written and read (`C67_growth_outside`).
* **C67**: calling `laik_sync_location` again without new location aborts with
  the MPI backend (`C67_again_aborts`); a process added later does not get the
  locations of others (`C67_added_unknown`); keys of location IDs from 10^9
  are cut (`C67_key`, `C67_key_shared`). Entries of removed processes are not
  set to null as stated in `core-internal.h` 78 (nobody removes entries from
  the store).
* **C68**: within a reservation `copyMaps` never copies (`src/data.c` 558),
  although memory is shared only for ranges with the same tag. A reservation
  for a partitioning of the Master, All or Block partitioner (tag 0) and one
  of the bisection or grid partitioner (tag 1) loses all elements which stay
  in a process (`C68_tags_lose`); `C68_local_iff` shows that equal tags are
  necessary and sufficient.
* **C69**: a second `laik_reservation_alloc` replaces the lists of the first
  without freeing them (`C69_realloc_leaks`), and the next switch to the new
  lists copies nothing as both lists name the same reservation (`src/data.c`
  558): contents are lost (`C69_realloc_loses`). `laik_reservation_free`
  leaves `activeReservation` and `activeMappings` of the container as they
  are: every later switch or access uses freed memory (`C69_switch_dangling`,
  `C69_access_dangling`, `C69_free_first`), also if the container is in own
  memory already. As `laik_data_use_reservation` reads the reservation, it can
  not be reset, and when all reservations are freed no switch is possible any
  more (`C69_no_way_back`). A reservation with partitionings can not be freed
  before allocation (`C69_free_unallocated`). After
  `laik_set_initial_partitioning` outside of a reservation contents can not be
  accessed (`C69_initial_access`).
* **C70**: if two processes open connections to each other at the same time
  (both send "allowsend" in their first exchange), each stores the connection
  of the other one in `got_myid` without looking at the existing one
  (`src/backend-tcp2.c` 946). Then messages sent before and after this go over
  different connections and may be handled in the wrong order
  (`C70_reordered`). When one of the two ends, the other always fails with
  `assert(d->peer[lid].fd == fd)` (line 1631), in whatever order it sees the
  two ends of input (`C70_exit_aborts`, `C70_two_abort`, `C70_never_closed`).
* **C71**: for an address of 107 bytes `snprintf` writes only 106 bytes of it
  and a zero byte, as it always ends the text (`src/backends/tcp/socket.c`
  156); the check `bytes > sizeof (sun_path)` (line 166) lets this pass, its
  comment says that no zero byte is needed. So two such addresses which differ
  in the last byte name the same socket (`C71_name_cut`).
* **C71**: the message says that reading the first configuration failed "for
  the 10th time" (`src/backends/tcp/config.c` 294), but eleven attempts are
  made (`C71_abort_iff`).
* **C72**: the `register` command holds only 30 characters of the host name
  (`%.30s`, `src/backend-tcp2.c` 1807); the master sends this cut name back
  and the process compares it with its full name in an assertion (line 1155).
  So every process on a machine with a name of more than 30 characters aborts
  at startup (`C72_long_host`).
* **C73** A client of the TCP2 backend can end the process: "quit" without
  line feed before closing calls `rm_rfd` twice (assertion in
  `src/backend-tcp2.c` 471; with a LID: assertion in 1631; `C73_quit_at_end`,
  `C73_quit_at_end_known`),
  anything after "quit" in the same read uses the freed receive buffer
  (`C73_quit_more`), "register" twice after startup fails the assertion in 846
  (`C73_register_twice`), "myid" with a number not known the one in 945
  (`C73_unknown_id`), two connections which announce the same LID the one in
  1631 when the first ends (`C73_two_connections`), and the 257th descriptor
  the one in 455 (`C73_too_many`).
* **C73** A command queued for later ("register", "cutoff") is lost without
  notice, and its memory with it, if the client closes the connection before
  it is handled: `rm_rfd` (`src/backend-tcp2.c` 468-480) sets the state to
  invalid and keeps the pointer, and `add_rfd` (461) overwrites it.
* **C74** `got_status` (`src/backend-tcp2.c` 1111) prints queued commands of
  any length (up to the 8 KB of the receive buffer) to `msg[200]`: a client
  which sends "register" with more than 157 further characters after startup,
  and then "status", overwrites the stack (`C74_long_command`,
  `C74_long_command_witness`).
* **C74** In a process which does not know all processes up to the highest
  number, as in startup after the answer to its registration, `got_status`
  prints missing texts (1086-1087) and would then fail the assertion in
  `get_statestring` (357) (`C74_in_startup`).

## Mutation tests

`seeded/LOG.jsonl`.  For each edit of a definition, all dependent modules are
rebuilt, and a theorem counts as failed if its proof or one of the lemmas it
uses no longer checks.
