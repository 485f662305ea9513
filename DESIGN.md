# Formal model of ext_mpi_collectives: design

The model lives in `lean/Verif`. It is written by reading the C sources in
`/repo`; the C code is neither compiled nor run. Every definition cites the
file and the lines it models and names its simplifications.

## Trusted base

* Lean 4.33.0's kernel, and the three standard axioms `propext`,
  `Classical.choice`, `Quot.sound`. The build of `Verif/Audit.lean` fails if a name
  in `MANIFEST.json` is no theorem or depends on any other axiom. No
  axiom is added; there is no `sorry`, `admit`, `native_decide` or `bv_decide`.
  `decide` (also with `+kernel`) is used only in examples, for negations with a
  concrete witness and for facts about finite enumerations.
* The reading of the C code: that each definition computes what the cited
  lines compute.
* Shared memory is sequentially consistent: each `volatile int` read and write
  is one atomic step. Weak-memory effects (the code has no fences) are not
  modelled.
* MPI point-to-point messages between a pair of nodes are delivered unchanged
  and matched in order; `malloc` succeeds; `qsort` returns a sorted permutation
  (nothing is assumed about equal elements unless a theorem says so).
* C `int` is modelled by `Int`/`Nat` except where the property is about 32-bit
  arithmetic (barrier counters, byte-level codecs, byte code), where `BitVec 32`
  is used.
* The values reduced form a commutative monoid (or only an addition where that
  is enough). Floating point addition is not associative; for it the theorems
  describe which contributions are combined, not the rounding.

## Layout

`Verif/Model/*` holds definitions, `Verif/Spec/*` the independent
specifications, `Verif/Lemmas/*` proofs of auxiliary facts and
`Verif/Props/*` the property theorems with their non-vacuity examples.
`Verif/Audit.lean` checks the axioms.

| module | code modelled | properties |
|---|---|---|
| `Barrier` | `ext_mpi_native_exec.c`: `socket_barrier`, `node_barrier`, `*_test`, the barrier cases of `ext_mpi_exec_native` | C01-C04 |
| `HashTable` | `hash_table.c`, `hash_table_blocking.c` | C06, C07 |
| `Handles` | `ext_mpi_native.c`: `get_handle`, the table part of `init_epilogue`, `EXT_MPI_Start/Test/Wait/Progress/Done_native` | C05, C30, C39 |
| `Interface` | `ext_mpi_interface.c`: request wrappers, regular collectives, communicator numbers | C08, C09, C33, C34, C38, C40, C41 |
| `Numeric` | `prime_factors.c`, `padding_factor.c`, message split and helpers of `ext_mpi.c`, `ext_mpi_native.c` | C24-C26, C35, C36, C42, C43 |
| `Lines` | meaning of copy and reduction lines | used by C19-C22 |
| `ParallelMemcpy` | `parallel_memcpy.c`, the split of `reduce_copyin.c` | C19, C20 |
| `Merge` | `raw_code_merge.c` | C21 |
| `BufferOffset` | `buffer_offset.c`, `no_offset.c` | C22 |
| `Schedule` | `struct data_algorithm` and the meaning `raw_code.c`, `reduce_copyin.c`, `reduce_copyout.c` give to it | C10-C14 |
| `Cyclic` | `allgather_core` of `allreduce_single.c` | C10, C14 |
| `CyclicReduce` | `allreduce_core`, `get_size_level1b`, `get_lines_used`, `delete_lines` of `allreduce_single.c` | C50, C51 |
| `Recursive` | `allreduce_recursive.c` | C11-C14 |
| `RawCode` | `raw_code.c`, the copy-in of `reduce_copyin.c`, `reduce_copyout.c` with one process per node: emitted programs on memory, asynchronous MPI messages | C52-C56 |
| `Optimise` | `buffer_offset.c`, `optimise_buffers.c`, `optimise_buffers2.c`, `raw_code_merge.c`, `no_socket_barriers.c`, `use_sendbuf_recvbuf.c`, `use_recvbuf.c`, `swap_copyin.c` on the programs of `RawCode` | C61-C63 |
| `OnePerNode` | order of the passes and of the relabelling in `ext_mpi_native.c` with one process per node, `MPI_IN_PLACE` | C62-C65 |
| `TasksNode` | `raw_code_tasks_node.c`, `raw_code.c` and the gather parts of `reduce_copyin.c`, `reduce_copyout.c` with several processes per node; execution with shared memory, barriers and messages (`ext_mpi_native_exec.c`) | C66, C67 |
| `Cluster` | the programs of `OnNode` (copy-in) and `TasksNode` joined with `reduce_copyout.c` on several nodes with several processes each; execution with the flags of `socket_barrier`, copies of single elements and messages (`ext_mpi_native_exec.c`) | C68-C70 |
| `ClusterRepeat` | the programs of `Cluster` executed repeatedly on the same shared memory, with changes of the buffers by the application (`ext_mpi_native.c:233-281`, not alternating) | C102 |
| `ClusterAlternate` | repeated executions with two programs in turn, each with shared memory, flags and counter of its own and without its first barrier (`ext_mpi_native.c:233-246`, `497-538`, `no_first_barrier.c`) | C103 |
| `ClusterClean` | `clean_barriers.c` and `no_first_barrier.c` on the lines of the programs of `Cluster` (`ext_mpi_native.c:836-844`, `1112-1120`, `1594-1602`) | C104 |
| `Segments`, `SegmentsSystem` | `shmem.c` without GPU, the number of the segment in `messages_shared_memory.c`, the machines behind `ext_mpi_get_num_tasks_per_socket` | C105-C109 |
| `Sockets` | `messages_shared_memory.c` and `optimise_multi_socket.c` with the passes after them, for one process per socket; executed by the machine of `OnNode` on a single node | C110-C112 |
| `Measure` | `EXT_MPI_Allreduce_measurement` (the outcome of the comparisons arbitrary), `ext_mpi_set_ports_single_node` for several sockets, their use in allreduce, reduce and reduce_scatter | C113 |
| `Sockets.inTurn` | several executions in a row on one node with several sockets | C114 |
| `OnNode` | `reduce_copyin.c`, `reduce_copyout.c` for one node with several processes, `socket_barrier*` of `ext_mpi_native_exec.c`, alternating memories of `ext_mpi_native.c`, factors of `cost_copyin_measurement.c` | C57-C60 |
| `RankPerm` | `rank_permutation.c` | C23, C45 |
| `Codec`, `CodecLines` | `read_write.c`, binary formats | C15-C17 |
| `Text` | `ports_groups.c` | C18, C44 |
| `Waitany`, `WaitanyLook` | `waitany.c`, `exec_waitany`, `reduce_waitany` | C27, C46 |
| `ByteCode` | `byte_code.c`, instruction fetch of `ext_mpi_exec_native` | C29 |
| `BarrierPasses` | `clean_barriers.c`, `no_first_barrier.c`, `no_socket_barriers.c` | C28 |
| `Blocking` | `ext_mpi_native_blocking.c` and the blocking part of `ext_mpi_native_exec.c` | C31, C32, C47-C49 |
| `Rooted` | `backward_interpreter.c`, the dropped entries in `raw_code.c` | C37 |
| `Forward` | `forward_interpreter.c`, the copy-in of a root (`reduce_copyin.c:487-514`) | C71, C72 |
| `PortChoice` | `recursive_factors.c` (enumeration, cancelling, search for the least time), `num_ports_factors.c` (`ext_mpi_num_ports_factors`, `get_group_size`), `get_ngroups` of `allreduce.c`, choice of the generator | C73-C75 |
| `BlockingPorts` | `cost_simple_recursive.c` (one socket, the time of a step an arbitrary function), choice of the ports in `ext_mpi_blocking.c`, `set_ports_single_node`, choice of the generator for blocking collectives | C95-C97 |
| `Groups` | `allreduce.c` (several groups of steps) | C76-C78 |
| `RootNode` | the root that `backward_interpreter.c` and `forward_interpreter.c` take with several processes per node | C79 |
| `SingleNode` | `reduce_scatter_single_node.c`, `reduce_copyin.c` and `reduce_copyout.c` of all collectives but allreduce on a single node, executed by the machine of `OnNode` | C80-C84, C94 |
| `Settings` | `read_env`, `delete_env`, `ext_mpi_get_num_tasks_per_socket` of `ext_mpi.c`, `ext_mpi_get_param`, `ext_mpi_num_ports_factors_env` of `num_ports_factors.c` | C85, C86, C90-C93 |
| `Requests` | `EXT_MPI_Start_native`, `EXT_MPI_Test_native`, `EXT_MPI_Wait_native` and the calls of the interface that lead to them, for any number of requests, on top of the machine of `RawCode` | C98, C99 |
| `Tags` | choice of the tag in `init_epilogue`, `setup_rank_translation` without a second communicator, matching of messages by MPI | C100, C101 |
| `SelfTest` | `debug_persistent.c` without GPU, as accesses to bytes | C87-C89 |

Not modelled: GPU and NCCL code, `src/bench`, `src/noopt`, `src/apps`, the
estimated time of a list of factors (`cost_single`; an arbitrary function in `PortChoice`),
`raw_code_tasks_node_master.c` (GPU), several processes on each of several sockets, the text (ASCII) form of
programs, allocation and error paths.

## Per property

* C01, C02, C03: transition system whose state is the shared slot array plus a
  program point and counter per process; one step is one shared read or write.
  Safety by an inductive invariant relating a process's round to the progress
  of the `2^(k+1)` following processes; liveness by exhibiting an enabled
  process (the one with the least counter) and a decreasing measure; wrap by
  a simulation between the 32-bit system and the unbounded one, using that the
  skew between processes is bounded.
* C04: the code's test functions return 1 for "not ready" and the interpreter
  treats 1 as ready. The stated property is false of the code: the negation is
  proved for every state and, as `_partial`, what does hold.
* C05, C30, C39: handle table as a state machine; invariant by induction over
  the operation history.
* C06: linear probing with tombstones refines a partial map.
* C07: false of the code (tombstones are never turned back into empty slots):
  negation by a history, `_partial` for histories that leave an empty slot.
* C08, C09, C40, C41: wrappers over an abstract underlying MPI; false of the
  code in the cases found by reading (`flag=0` assigns the pointer; `outcount`
  is always 1; inactive requests count as complete; unknown communicators are
  dereferenced): negation plus `_partial`.
* C10-C14: the generator is a function from the parameters and node number to a
  list of blocks; the meaning of a set of schedules is a synchronous message
  semantics; correctness by induction over the steps with a closed form of what
  each node holds. The specification (`Spec/Collective`) only speaks of inputs
  and outputs. The condition on the ports of the cyclic allgather is exact: in a
  step that violates it the last node sends more to some node than this node
  receives.
* C50, C51: as C10-C14. Reduction steps: the line that collects the contribution
  at ring distance `e` is a repeated remainder of `e`; the sums over the classes
  of this function are the invariant. Gather steps: the value of a line is the sum
  over all earlier lines of the same block number, extended by one chain link per
  step. Deleted lines: the set computed by `get_lines_used` is closed under the
  sources of a line and the same on all nodes; positions are renumbered by
  counting the used lines below. The condition on the gather ports is exact: a
  step that overshoots has a used line that sends to a line outside of the array.
* C52-C54: the emitted program of every node runs on memory (send buffer, receive
  buffer, numbered scratch buffers); a message leaves the sender at any time after
  its `isend` and arrives at any time after the matching `irecv`. An instruction
  that touches a buffer of a pending message does not execute, and in no reachable
  state is such an instruction the next one of any process (`Safe`; `TSafe`, `CSafe`,
  `ASafe` for several processes on a node). For this the complete execution lets messages
  move only while their process is in `waitall`, which makes the absence of such accesses
  a property of the program text. With several processes on a node every `waitall` is
  directly followed by a barrier. Steps with different labels
  commute (diamond), so one complete execution determines all: all are finite, none
  gets stuck, all end in the same memory. That execution is built block by block and
  refines the line-level semantics of C10-C13: line `n` of value `v` is the interval of
  memory at the prefix sum of the sizes.
* C55, C56: as C52, but the position of a line in the scratch memory depends on the
  phase: every reduction step appends its received lines after the lines still held,
  and after the removal of unused lines positions count the used lines only. Between
  phases only the lines still held keep a meaning; the others are arbitrary memory.
* C61-C63: the passes are functions on programs, composed in the order of
  `ext_mpi_native.c`. Their effect on the programs of the recursive algorithm is
  computed in closed form (whole rows of lines are sent and received, each at its final
  place); the resulting program is run on the machine of C52 and refines the same
  line-level semantics, with rows in the user's buffers instead of scratch memory.
  With the relabelling in front C62 and C63 are false of the code for counts that
  differ: negations by concrete executions; proved for equal counts.
* C64: negation by a concrete execution; the displacements of consecutive blocks are C63.
* C65: negation by a concrete execution of the optimised program. The program before
  the passes reads the send buffer only before it writes the receive buffer: simulation
  between one buffer and two.
* C66: for a schedule of cliques (recursive algorithm) the local numbers of sender and
  receiver agree for every permutation; for the cyclic algorithm without relabelling they
  agree by the symmetry of the positions. With relabelling the cyclic algorithm violates it.
* C67: the programs of the processes of a node are the shares of one program of the node
  (messages by their distribution, copies by process 0). The execution of the nodes that
  C52 has is lifted to one of the processes; steps that do not race commute, and no two
  shares conflict between the same barriers, so every execution ends like that one.
  Programs are those before the passes of `optimise_buffers.c` and later.
* C68-C70: the copy-in of C57 (single elements and flags) leads every node to the sum of
  its processes, the blocks refine the nodes of C52-C56 with these sums as inputs, the
  copy-out writes to disjoint buffers. Barriers down to their flags are simulated by
  atomic ones; steps that do not race commute, so one complete execution determines all.
  One socket per node, programs before the passes of `optimise_buffers.c` and later, first
  execution after the initialisation. For C69 the nodes keep their order (equal sizes).
* C71, C72: the value of a line in the schedule after `forward_interpreter.c` is compared to
  the reduction of inputs which are 0 on all nodes but the root: lines with a mark agree,
  lines without one hold 0 there. Broadcast and scatter then follow from the correctness of
  allreduce (C13, C51) and reduce_scatter (C12, C50). For the cyclic scatter the marks have a
  closed form: counted from the root, the messages are cut into intervals, and a node holds
  the interval that starts with its own number. `Whole` says that no chunk contains
  lines of two kinds; lists of ports with the exact product satisfy it. After a complete
  reduction part every node holds data in its only line, and the gather part of a broadcast
  keeps all messages.
* C73-C75: the states of the odometer are lists of digits; one step is the successor in
  lexicographic order. Every list it accepts is tight: the factors before the last, and all
  with a last one that is one less, stay below the number of nodes. Tight lists satisfy the
  conditions of C10, C12, C13, C50 and C51. The number of tight lists is bounded by three
  times the square of the number of nodes (induction on the product so far), which shows
  that the table of candidates suffices. The successor meets every tight list, so none is left
  out. The estimated time is an arbitrary function into a linear order.
* C76-C78: the schedule of a group runs on the nodes of a class (`run_sim`: a block whose lines
  are copied `fac` times with other node numbers does on every class what the block of the group
  does, with values that are functions of the copy). After the reductions line `k` of a node holds
  the sum over the nodes of its block of nodes for message `numAt`; the gathers are the
  same steps backwards. The blocks between two reductions, and between two gathers, cancel
  (`Link`); after a middle group they cancel or are replaced by copies, possibly differently on
  different nodes (`Junction`). C77 is the instance with one reduction and one gather of all nodes.
  C78 is false for several groups; the counts of `get_ngroups` are computed for all lists.
* C79: the passes of C37, C71 and C72 with the rank of the root in place of its node, the execution
  looked at on the node of the root. False of the code: a rank from the number of nodes on is no
  node, every line is dropped, and in an execution without messages the state of a node depends
  only on its own input (`run_silent`), for every schedule. Ranks that are the number of another
  node: witnesses on two nodes. Proved for rank 0 and for one process per node, where both
  numbers agree (`same_node`), from C37, C71, C72.
* C80-C84: the machine of C57 (`OnNode`). A program of a single node has two phases, writing to
  the shared memory and reading of it, with a barrier between (`Lemmas/TwoPhase`): conflicting
  accesses are ordered by the barriers also between executions, so all interleavings end in the
  state of the execution in lockstep. C84 uses the invariant of C57: leaving out accesses whose
  result nobody reads keeps the order and the other values (`Lemmas/OnlyRoot`). C81 and C83 are
  false of the code for small messages, C83 also for other roots than 0: both are proved for all
  parameters of this kind.
* C57-C60: the program of a process is a list of reads and writes of single elements
  and flags in shared memory; one step is one access of one process. The instances
  are cut into pieces owned by one process at a time; a partial barrier hands a piece
  over. An invariant assigns to every position of every program which pieces are
  owned and what they hold; the counters of the flags order the hand-overs. Repeated
  executions keep the invariant with the counters advanced. C58 and C60 are false of
  the code for some settings: negations by concrete executions.
* C15-C18, C44: encode/decode round trips by structural induction.
* C29: one definition of the emission parametrised by "dry run"; the bytes
  counted are the bytes written, and the fetch of the interpreter returns the
  instructions in the order they were emitted.
* C19-C22: interval arithmetic and memory semantics (`Nat -> value`). C20 over
  all interleavings of the processes between two barriers.
* C23, C45: the heuristic returns a permutation; `backward` undoes `forward`;
  relabelled schedules compute the same collective.
* C24-C26, C34-C36, C42, C43: arithmetic and list lemmas.
* C27, C46: the fold performed by the interpreter for every order of arrival
  against the fixed order; the pass against the original program.
* C28: passes as functions on per-process programs; equality of the barrier
  skeletons and of the separation of pieces of work; lock-step semantics.
* C31, C32, C47-C49: selection loop, relocation arithmetic and the simulation
  of the scaled program by `count` copies of the prepared one.
* C33: wrappers over an abstract underlying MPI.
* C37: backward liveness pruning; simulation between the pruned and the full
  schedule on the lines that are needed, for every content of unused memory.
  For the cyclic algorithms the needed lines are intervals of messages; the
  intervals before each step are computed for every node count and root.
  For the recursive algorithms a message is one group's lines: either the partner
  needs all of them or none (`Even`, `Level`). The nodes that need data are, before
  a step with groups of `g`, those at the position of the root in their group (`Held`). Lines that existed in
  earlier blocks and come back are received if they are needed (`Clear`, `Sound`).
* C38: id allocation as a state machine.
* C94: the programs of C82 and C83 against specifications with displacements;
  data that tells the positions.
* C95: the choices of `ext_mpi_blocking.c` with the null pointer and full arrays as undefined results; proved for 2 to 3564 nodes and for minimal computation on any number, negations on a single node and from 3565 nodes on;
* C96: the recursive schedules of C11 to C13 on a number of nodes other than the product of the factors. Two general arguments: a change of an input stays on the nodes its lines are sent to (`Lemmas/Taint`), and an absorbing value in memory that is never written reaches a result (`Lemmas/Poison`);
* C97: induction over the recursion of `cost_simple_recursive_rec` against a specification of all lists of factors;
* C98: the executions of all requests together have the diamond property (steps of different processes or requests commute), so that one execution that performs the operations one at a time decides all of them; correctness of every program for every memory from C52-C56 and C61-C63;
* C99: invariant for the negation: each of the two processes needs a message that the other one sends in a request it does not progress. The part that holds (`any_order_partial`): processes that test all their requests, by the diamond property as in C98;
* C100: `tag_max` of a process is above all tags it has got, so that sender, receiver and tag determine the request and the ranks; with this invariant the common connection, restricted to a tag, is the queue of the request. This justifies the separate channels of the requests in `Requests`;
* C101: the i-th tag is at most i; negation: tags on one communicator are 0, 1, 2, …;
* C102: instructions of a node that lead from memories to memories can be appended: their executions one after the other are an execution, and the accesses of different processes in different parts are ordered by the barrier at the start of every program. The programs use shared memory and the buffers of their process only, so that changes of own data need no order. The rest is the argument of C68-C70 for the long program;
* C103: as C102, but an execution has no barrier at its start. Accesses of an execution and the next one are in different shared memories or in own buffers; those of an execution and later ones are ordered by a barrier inside of the execution in between. The two counters and sets of flags are related to one counter and one set of flags by a simulation in both directions: all processes of a node have the same order of barriers, so that the numbers of passed barriers of one program and of both programs are compared alike;
* C104: a barrier that the pass removes follows another barrier of the node, with nothing in between that has an effect on any process of the node. In the row of all instructions of the node that C102 relates the executions to, two barriers of the node in succession can be replaced by one: the order that the barriers impose on the other instructions stays the same. Induction over the barriers that the pass removes, then the theorems behind C102 and C103;
* C105: a segment is given by the process and the iteration that created it; induction over the loop, and congruences modulo the number of sockets;
* C106: negation for all round-robin placements; for consecutive ranks the first rank of every machine is a sum of sizes of machines, so that the number of processes per node divides it;
* C107: negation for every behaviour of the system; the single process by cases;
* C108: the counter of a process is the number of initialisations it has taken part in; negation by two initialisations. That the objects are never unlinked and that programs of the same user on a machine use the same names is not stated as a property;
* C109: invariant over all interleavings: a segment is attached by exactly those processes that have not called `shmdt` yet;
* C110: the actions are free of races, so that all interleavings have the same result; one of them is compared round by round with an execution with messages;
* C111: negation by two programs (proved correct with messages) and an interleaving that ends with a wrong result; for generated programs as a statement about the lines between barriers of the node, since several nodes with several sockets are not executed in the model. Without reductions the pass changes nothing;
* C112: negation by an execution of the generated programs;
* C113: cases of the outcome; the schedules of two and four sockets are instances of C76. Negation for reduce from the last block of the schedule after dropping what the root does not need;
* C114: the programs in a row are again rounds of private lines, barriers and copies, so that the absence of races of C110 applies; the memories of the executions in lockstep are composed;
* C85, C86, C90-C93: `read_env` as a function on the settings of all processes;
  an overflow is a distinct outcome. Pointers as null, live or freed.
* C87-C89: the self-test as a list of accesses to bytes of three buffers; the
  results of MPI and of the library are arbitrary functions of the position.

## Findings (the code violates the property)

Each has a theorem with a concrete witness (or a negation for all states).
As the self-test is on by default (C86), a wrong result listed here ends the
program in the initialisation if the self-test covers it (C89).

| property | defect | theorem |
|---|---|---|
| C04 | `*_barrier_test` return 1 for "not ready", the interpreter takes it for "ready": `EXT_MPI_Test` blocks where it should return and polls for ever where it should advance | `Barrier.test_spec_violated`, `Barrier.polling_never_advances` |
| C07 | tombstones are never reused as empty; after 256 create/free cycles the lookup of a foreign request does not end | `HashTable.search_terminates_violated` |
| C08 | `MPI_Testall` with `MPI_STATUSES_IGNORE` always reports completion | `Interface.testall_ignore_violated` |
| C09 | `MPI_Testsome` always reports one completed request | `Interface.testsome_violated` |
| C10, C14 | cyclic allgather with ports that overshoot the number of nodes: messages without receiver, missing blocks | `Cyclic.allgather_iff`, `Cyclic.cyclic_matched_iff` (exact condition), `Cyclic.allgather_violated`, `Cyclic.matched_violated` |
| C20 | a message line between copies of one run makes `parallel_memcpy` treat elements twice | `ParallelMemcpy.parallel_violated` |
| C21 | lines are merged although buffer kinds differ, sizes differ (downwards) or the merged regions overlap | `Merge.merge_*_violated` |
| C22 | the layout ignores operands of messages; `esreduc_` lines keep their symbolic offsets | `BufferOffset.layout_msg_violated`, `BufferOffset.noOffset_sreduc_violated` |
| C23 | a node without data and an unstable `qsort`: the heuristic returns no permutation | `RankPerm.heuristic_violated` |
| C27 | `waitany.c` attaches the i-th reduction to request i whatever it reads | `Waitany.order_violated`, `Waitany.accumulate_violated`, `Waitany.pass_barrier_violated` |
| C32, C47 | the unit of blocking programs mixes bytes and elements | `Blocking.tiling_violated`, `Blocking.unit_violated` |
| C37 | a message of which only some lines are dropped is packed and unpacked at different positions: gather on seven nodes returns garbage at the root | `Rooted.gather_violated` |
| C71 | the copy-in of a root rotates the messages by the number of its node, also for the recursive algorithm, whose lines are not rotated: a broadcast from node 1 of two nodes exchanges the halves of the buffer | `Forward.bcast_violated` |
| C74 | on a single node `(*groups[1]) = 0` (for `(*groups)[1]`) follows a pointer behind a variable of the caller | `PortChoice.single_node_violated` |
| C74 | three (or five) nodes with one process each: lists with two (three) reduction and two (three) gather steps do not fit into the arrays; with minimal computation always | `PortChoice.three_nodes_violated` |
| C74 | from 3565 nodes on `num_nodes * num_nodes * 169` overflows | `PortChoice.table_violated` |
| C78 | an allgather in several groups has only middle groups, of which only the first is filled in; a reduce_scatter in several groups counts its groups also as gathers, so `ngroups[1]` is negative and `data_l[ngroups[0]]` is behind the end | `Groups.allgather_violated`, `Groups.reduceScatter_violated` |
| C72 | as C37: scatter on seven nodes from node 0 delivers garbage to node 6 | `Forward.scatter_violated` |
| C79 | `forward_interpreter.c` and `backward_interpreter.c` compare the rank of the root to the number of the node: with several processes per node the data goes to, or is taken from, another node than that of the root, or no messages are left | `RootNode.gather_violated`, `RootNode.reduce_violated`, `RootNode.bcast_violated`, `RootNode.scatter_violated`, `RootNode.gather_small_violated`, `RootNode.bcast_small_violated` |
| C94 | scatterv and allgatherv do not use the displacements: right exactly if the parts lie one after the other | `SingleNode.scatterv_displs_violated`, `SingleNode.scatterv_iff`, `SingleNode.allgatherv_iff` |
| C95 | on a single node without settings the preparation of the blocking allgather reads `ext_mpi_fixed_factors_ports`, a null pointer | `BlockingPorts.init_violated` |
| C96 | `arecursive` is passed where `not_recursive` is expected, and `!(-1)` is 0: blocking collectives always use the recursive generator, which is wrong if the product of the factors is not the number of nodes: contributions get lost, and the reduce_scatter adds memory that was never written. On a prime number of nodes above 13 no table of times helps | `BlockingPorts.allreduce_violated`, `allgather_violated`, `reduceScatter_violated`, `prime_violated`, `reduceScatter_prime_violated` |
| C99 | `MPI_Wait` executes only the instructions of its own request (no progress of the others): processes that wait for two started requests in different orders never return, `ext_mpi_native.c:269-281` | `Requests.different_order_violated` |
| C101 | tags are never used again, also not after `MPI_Request_free`: after `MPI_TAG_UB` initialisations on a communicator the tags passed to MPI are invalid, `ext_mpi_native.c:470-479` | `Tags.range_violated` |
| C106 | the node of a process is its rank divided by the number of processes per node: with ranks dealt out to the machines in turn, or a number of sockets that does not divide the number of processes of a machine, processes of different machines are to share memory | `Segments.one_machine_violated`, `Segments.sockets_violated` |
| C107 | the result of `shmat` is compared with `NULL` although it is -1 after a failure: lack of shared memory is not reported, and the first process writes to address -1 | `Segments.refused_violated`, `Segments.refused_writes` |
| C108 | with `MMAP` the name of an object contains a counter of the process: after an initialisation on a part of the processes others open the object of another collective | `Segments.names_violated`, `Segments.names_differ` |
| C111 | a copy from the segment of another socket is joined with the reduction after the second barrier of the node, when the other process may already have changed its segment | `Sockets.fuse_violated`, `Sockets.orderly_violated` |
| C112 | `use_sendbuf_recvbuf.c` ignores the number of the segment: with several sockets and one process on each, copies from the segment of another socket become copies from the process's own buffer | `Sockets.direct_violated` |
| C113 | `ext_mpi_reduce_init_general` does not adapt the ports after the measurement has selected several sockets: the root gets the part of its own socket only | `Measure.reduce_violated` |
| - | `EXT_MPI_Bcast` leaves `reduction_op` uninitialised (read from the text, not formalised) | - |
| C81 | broadcast of at most 56 bytes on one node: the copy-out reads the place of the small messages behind the flags, the copy-in of the root writes to the ordinary shared memory | `SingleNode.bcast_violated` |
| C83 | the same for allgather and gather of at most 56 bytes in total | `SingleNode.allgather_violated`, `SingleNode.gather_violated` |
| C83 | gather on one node to another process than 0: `backward_interpreter.c` takes node 0 for another node than the root (it compares the rank of the root with the number of the node) and removes the entry of the copy-in; the parts are written behind the place that is read | `SingleNode.gather_violated` |
| C85, C86 | `read_env` broadcasts `ext_mpi_verbose` where it should broadcast `ext_mpi_debug`: a value of EXT_MPI_DEBUG that is no number switches the self-test off on process 0 only, which then makes other collective calls than the other processes | `Settings.same_violated`, `Settings.debug_calls_violated` |
| C86 | EXT_MPI_DEBUG=0 (every number) leaves the self-test on: `sscanf(...) == 0` is taken for the value | `Settings.debug_zero_violated` |
| C87 | the self-test, on by default, overwrites the receive buffer, for a reduction in place the input of the user | `SelfTest.allreduce_overwrites`, `SelfTest.allreduce_input_violated`, `SelfTest.allgatherv_overwrites` |
| C88 | the self-test of scatterv calls MPI with MPI_LONG for every type and writes behind the end of its buffer for ints and floats; the size of its send buffer is that of the part of the last process | `SelfTest.scatterv_violated`, `SelfTest.scatterv_order_violated` |
| C88 | the self-test of allreduce takes all types but those of 8 bytes for ints: overflow for smaller ones | `SelfTest.allreduce_small_violated` |
| C89 | the self-tests of allgatherv and bcast compare only whole longs; parts of one int are not tested | `SelfTest.bcast_violated`, `SelfTest.allgatherv_unsound_violated` |
| C89 | the self-test of allgatherv rounds displacements down to longs, compares gaps that nobody writes and ends the program although the result is right | `SelfTest.allgatherv_incomplete_violated` |
| C90 | lists of EXT_MPI_NUM_PORTS longer than the arrays of the processes other than 0, or than the communicator has processes, are written behind the end | `Settings.lists_violated`, `Settings.copyFixed_violated` |
| C91 | `delete_env` frees without setting to NULL: a second pair of init and finalize frees twice | `Settings.cycles_violated` |
| C92 | an info value that is no number gives an uninitialised variable | `Settings.getParam_violated` |
| C93 | more sockets than processes per node: 0, by which is divided | `Settings.tasksPerSocket_violated` |
| C39 | `EXT_MPI_Progress` without handles dereferences NULL | `Handles.progress_undefined_without_handles` |
| C40 | `MPI_Waitany` returns index 0 again and again | `Interface.waitany_once_violated` |
| C41 | freeing or splitting an unregistered communicator indexes the table with -1 | `Interface.foreign_comm_undefined` |
| C42 | `ext_mpi_greatest_common_divisor` computes the least common multiple | `Numeric.gcd_violated` |
| C43 | the balanced factor of 1 is 0 | `Numeric.factorSqrt_one_violated` |
| C45 | forward permutes the sizes with the inverse permutation | `RankPerm.sizes_violated` |
| C46 | the look-ahead of `waitany.c` reads at twice the distance and finds no conflict | `WaitanyLook.look_violated`, `Waitany.sent_violated` |
| C51 | cyclic allreduce with ports that overshoot the number of nodes: `delete_lines` reads `lines_used` outside of its bounds | `CyclicReduce.core_isSome_iff` (exact condition), `CyclicReduce.overshoot_violated`, `CyclicReduce.allreduce_overshoot` |
| C58 | factors set by the user whose first one does not divide the number of processes: the processes wait forever | `OnNode.onNode_deadlock_violated` |
| C58 | factors with a product below the number of processes: summands are missing | `OnNode.onNode_product_small_violated` |
| C58 | factors with a product above the number of processes, large message: wrong sums | `OnNode.onNode_product_large_violated` |
| C58 | almost-half method with a small message: wrong sums | `OnNode.onNode_half_small_violated` |
| C60 | an allreduce of 0 elements on one node divides by zero when it is initialised | `OnNode.onNode_empty_violated` |
| C62 | reduce_scatter with one process per node: the result of the backward relabelling is overwritten, processes compute with labels instead of ranks; with counts (2, 1) process 0 exchanges data with itself only | `OnePerNode.reduceScatter_violated` |
| C63 | allgatherv, recursive, one process per node: blocks of different sizes arrive in the order of the labels, not of the ranks | `OnePerNode.allgatherv_order_violated` |
| C63 | the same with a count of 0: the copies of the copy-in are taken from the wrong lines, the program is not generated | `OnePerNode.allgatherv_zero_violated` |
| C64 | `displs` of allgatherv is not used | `OnePerNode.allgatherv_displs_violated` |
| C65 | in-place allreduce, recursive, one process per node: messages are sent out of the buffer that is received into at the same time | `OnePerNode.inPlace_violated` |
| C66 | cyclic allgather, relabelled nodes, several processes per node: sender and receiver of a message choose different local numbers | `TasksNode.distributed_violated` |
| C67 | consequence: the allgatherv of 4 nodes with 2 processes and node sizes 1, 2, 3, 4 cannot end | `TasksNode.allgather_cyclic_violated` |
| C48, C49 | the sender stops looking up receive buffers at the first with relocated address 0; its message is longer than the receive | `Blocking.messages_violated` |
| C47, C49 | a piece shorter than the unit of the relocation is copied with size 0; the receive buffers keep their old values for every count | `Blocking.uneven_violated` |

Seen while reading, without a theorem: `ext_mpi_normalize_blocking` sends from
a local variable that is overwritten before the send completes;
`count % size / cores == 0` in `add_blocking_native` has the wrong precedence;
`reduction_op` is uninitialised for unsupported operations; the 10000 byte print
buffer of `ports_groups.c` may overflow; `OPCODE_MPIWAITANY` without active
waiting exits.

## Wrong programs

`seeded/LOG.jsonl` records edits of the model that correspond to realistic bugs,
and the theorems that failed on the edited model. An edit that no theorem
noticed leads to a stronger theorem, named in the field `tightened`.
