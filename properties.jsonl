{"id": "C01", "title": "On-node barrier separates phases", "statement": "While a persistent collective runs on a node, no process leaves an on-node synchronisation point before every process of that group has entered the same synchronisation point, in this and in every later execution of the collective.", "quantifier": "every group size n >= 1, every number of successive barriers, and every interleaving of the individual shared-memory reads and writes of the n processes (sequentially consistent memory)", "why_tests_cant": "A test exercises a handful of schedules of a handful of group sizes; the failing schedule of a wrong barrier is typically one in billions.", "anchors": ["src/mpi/ext_mpi_native_exec.c: socket_barrier, node_barrier", "src/mpi/ext_mpi_native.c: barrier_counter_socket, memset of barrier memory"]}
{"id": "C02", "title": "On-node barrier never deadlocks", "statement": "As long as every process of the group keeps entering the same sequence of synchronisation points, there is always at least one process that can make progress, and a schedule that keeps every process running completes every barrier.", "quantifier": "every group size, every reachable state of the barrier protocol, every number of barriers", "why_tests_cant": "Absence of deadlock is a statement about all reachable states; a test that does not hang says nothing about the other schedules.", "anchors": ["src/mpi/ext_mpi_native_exec.c: socket_barrier, node_barrier"]}
{"id": "C03", "title": "Barrier counters may wrap around", "statement": "A persistent collective can be restarted arbitrarily often: the 32-bit barrier counters may overflow and the on-node synchronisation keeps the guarantees of the unbounded counter.", "quantifier": "every group size below 2^31, every interleaving, every number of barriers including those past 2^32 counter increments", "why_tests_cant": "Reaching the wrap needs 2^31 executed barrier rounds per run; no unit test does that, and never under all schedules.", "anchors": ["src/mpi/ext_mpi_native_exec.c: (unsigned int)(slot - count) > INT_MAX"]}
{"id": "C04", "title": "EXT_MPI_Test does not block and advances over ready barriers", "statement": "EXT_MPI_Test on a started collective returns without waiting when a synchronisation point is not yet satisfied, and proceeds past a synchronisation point that is satisfied.", "quantifier": "every content of the shared barrier memory, every counter value, every group size, every process", "why_tests_cant": "Whether Test blocks depends on what the other processes have written at the instant of the call; a test sees one such instant.", "anchors": ["src/mpi/ext_mpi_native_exec.c: ext_mpi_exec_native (OPCODE_SOCKETBARRIER, OPCODE_NODEBARRIER), socket_barrier_test, node_barrier_test"]}
{"id": "C05", "title": "Handles identify live collectives", "statement": "EXT_MPI_*_init returns a handle that no live collective uses, and neither init, start, wait nor done on one handle changes the program attached to another live handle.", "quantifier": "every history of init / start / test / wait / done operations of any length, including those that grow the internal table", "why_tests_cant": "Table growth and reuse after release depend on the whole history of operations.", "anchors": ["src/mpi/ext_mpi_native.c: get_handle, EXT_MPI_Start_native, EXT_MPI_Done_native"]}
{"id": "C06", "title": "Requests map to their collective", "statement": "Looking up an MPI_Request yields the handle it was last registered with and not yet released, and 'not ours' for every other request.", "quantifier": "every history of registrations and releases of requests in which a live request is not registered twice and the table keeps one never-used slot, for every hash placement", "why_tests_cant": "Collisions, wrap-around and tombstones interact over the full operation history.", "anchors": ["src/mpi/hash_table.c", "src/mpi/hash_table_blocking.c"]}
{"id": "C07", "title": "Request lookup always terminates", "statement": "Every MPI_Start / MPI_Wait / MPI_Request_free call on any request returns, no matter how many collectives have been created and freed before.", "quantifier": "every history of registrations and releases with fewer than 256 requests alive at any time", "why_tests_cant": "The non-terminating state is reached only after hundreds of create/free cycles with a particular distribution of request values.", "anchors": ["src/mpi/hash_table.c: ext_mpi_hash_search, ext_mpi_hash_insert, ext_mpi_hash_delete"]}
{"id": "C08", "title": "MPI_Testall reports completion only when everything completed", "statement": "MPI_Testall sets flag to true exactly when every request of the array is complete.", "quantifier": "every array of requests that contains one of the library's requests, every vector of completion states, with statuses requested or ignored", "why_tests_cant": "The result depends on all combinations of completion states and on the status argument.", "anchors": ["src/mpi/ext_mpi_interface.c: MPI_Testall"]}
{"id": "C09", "title": "MPI_Testsome / MPI_Testany report what completed", "statement": "MPI_Testany sets flag iff some request is complete and the index then names a complete request; MPI_Testsome reports outcount = 0 when nothing is complete.", "quantifier": "every array and every vector of completion states", "why_tests_cant": "Same: all combinations of completion states.", "anchors": ["src/mpi/ext_mpi_interface.c: MPI_Testany, MPI_Testsome, MPI_Waitany, MPI_Waitsome"]}
{"id": "C10", "title": "Allgather (cyclic algorithm) delivers every block", "statement": "After the generated cyclic allgather schedule has run on all nodes, every node holds the contribution of every node at the position of that node.", "quantifier": "every number of nodes, every list of port counts whose cumulative factor reaches the number of nodes, every node, arbitrary block contents", "why_tests_cant": "The schedule is generated from the parameters; tests try a few node counts, errors hide at non-powers and partial last rounds.", "anchors": ["src/core/allreduce_single.c: allgather_core"]}
{"id": "C11", "title": "Allgather (recursive algorithm) delivers every block", "statement": "After the generated recursive allgather schedule has run on all nodes, every node holds the contribution of every node at the position of that node.", "quantifier": "every list of port counts, number of nodes equal to the product of (ports+1), every node, arbitrary block contents", "why_tests_cant": "As above: all factorizations of all node counts.", "anchors": ["src/core/allreduce_recursive.c: allgather_core"]}
{"id": "C12", "title": "Reduce-scatter (recursive algorithm) reduces every contribution exactly once", "statement": "After the generated recursive reduce_scatter schedule has run, node t outputs for block t the sum over all nodes of their contributions to block t, each counted exactly once.", "quantifier": "every list of port counts, every node, arbitrary contents in any commutative monoid", "why_tests_cant": "A contribution dropped or counted twice shows only for particular factorizations.", "anchors": ["src/core/allreduce_recursive.c: reduce_scatter_core"]}
{"id": "C13", "title": "Allreduce (recursive algorithm) reduces every contribution exactly once everywhere", "statement": "After the generated recursive allreduce schedule has run, every node outputs for every block the sum over all nodes of their contributions to that block, each counted exactly once.", "quantifier": "every list of port counts with the reduce phase mirrored by the gather phase, every node, arbitrary contents in any commutative monoid", "why_tests_cant": "As above.", "anchors": ["src/core/allreduce_recursive.c: allreduce_core"]}
{"id": "C14", "title": "Every message sent is received", "statement": "In every communication step of a generated schedule, node a sends a message to node b iff node b posts a receive from node a, and the number of transferred blocks agrees on both sides.", "quantifier": "every generator parameter set, every step, every pair of nodes", "why_tests_cant": "A mismatch hangs only on the particular pair of nodes and step; tests cover few node counts.", "anchors": ["src/core/allreduce_single.c: allgather_core", "src/core/allreduce_recursive.c: allgather_core, reduce_scatter_core"]}
{"id": "C15", "title": "Generated schedules survive serialisation", "statement": "Writing an algorithm to the binary exchange buffer and reading it back yields the same algorithm and consumes exactly the bytes written.", "quantifier": "every algorithm: any number of blocks, lines, and partner entries, any 32-bit values, any trailing bytes", "why_tests_cant": "Nested variable-length data of unbounded size.", "anchors": ["src/core/read_write.c: ext_mpi_write_algorithm, ext_mpi_read_algorithm"]}
{"id": "C16", "title": "Assembler lines survive serialisation", "statement": "A binary assembler line reads back as exactly the fields written when the requested field pattern is the written one; a pattern that differs is rejected rather than misread.", "quantifier": "every field list, every pattern, every trailing content of the buffer", "why_tests_cant": "All line shapes and all mismatching read attempts.", "anchors": ["src/core/read_write.c: ext_mpi_write_assembler_line, ext_mpi_read_assembler_line"]}
{"id": "C17", "title": "Copy, reduce and message lines survive serialisation", "statement": "Every memcpy/reduce line and every isend/irecv line written by one pass is read back by the next pass with identical operands, for all combinations of buffer kinds.", "quantifier": "all line types, all buffer kind combinations, all integer operands", "why_tests_cant": "All combinations of operands and shapes.", "anchors": ["src/core/read_write.c: ext_mpi_read_memcpy_reduce, ext_mpi_write_memcpy_reduce, ext_mpi_read_irecv_isend, ext_mpi_write_irecv_isend"]}
{"id": "C18", "title": "Port and group settings survive their text form", "statement": "Printing a port/group setting and parsing the text yields the same setting.", "quantifier": "every non-empty list of groups of non-zero port numbers and group sizes", "why_tests_cant": "Unbounded lists of integers of either sign.", "anchors": ["src/core/ports_groups.c"]}
{"id": "C19", "title": "On-node work partition is exact", "statement": "When the processes of a socket share the reduction or copy of a vector, the per-process pieces are pairwise disjoint, cover every byte of the vector exactly once and never leave it.", "quantifier": "every vector size that is a multiple of the element size, every number of processes", "why_tests_cant": "Off-by-one pieces appear for particular remainders only.", "anchors": ["src/core/reduce_copyin.c: reduce_copies", "src/core/parallel_memcpy.c"]}
{"id": "C20", "title": "Parallelised memcpy equals the original memcpy", "statement": "Splitting a shared-memory copy over the processes of a node has the same effect on memory as the original single copy, in whatever order the processes execute.", "quantifier": "every run of copy lines, element size, number of processes, memory content and execution order", "why_tests_cant": "All sizes, remainders and orders.", "anchors": ["src/core/parallel_memcpy.c"]}
{"id": "C21", "title": "Merging copy lines preserves the result", "statement": "Replacing adjacent copy/reduce lines by one longer line leaves the memory after execution unchanged.", "quantifier": "every sequence of copy and reduce lines, every memory content", "why_tests_cant": "Aliasing and direction depend on all operands at once.", "anchors": ["src/core/raw_code_merge.c"]}
{"id": "C22", "title": "Internal buffers do not overlap", "statement": "Distinct internal shared buffers are laid out in pairwise disjoint address ranges, each large enough for every access the program makes to it, inside the allocated shared memory.", "quantifier": "every program (list of buffer accesses)", "why_tests_cant": "Depends on all lines of the program.", "anchors": ["src/core/buffer_offset.c", "src/core/no_offset.c"]}
{"id": "C23", "title": "Rank permutation is undone exactly", "statement": "The node relabelling applied to balance message sizes is a permutation, and the backward pass restores the original node number, message sizes and partner numbers.", "quantifier": "every permutation, every node, every vector of message sizes, every schedule", "why_tests_cant": "n! permutations.", "anchors": ["src/core/rank_permutation.c"]}
{"id": "C24", "title": "Reduce message split is exact and balanced", "statement": "The per-node portions chosen for a reduce/allreduce of a vector sum to the size of the vector, are multiples of the element size and differ by at most one element.", "quantifier": "every element count, element size, number of nodes", "why_tests_cant": "All remainders.", "anchors": ["src/mpi/ext_mpi_native.c: EXT_MPI_Reduce_init_native"]}
{"id": "C25", "title": "Factorisations multiply back", "statement": "The factor lists used to configure an algorithm multiply to the number they factor, the plain factorisation consists of primes in non-decreasing order, and the minimum-factor variant has no factor below the requested minimum unless the number itself is below it; if no prime factor is below the minimum, it equals the plain factorisation in reverse order.", "quantifier": "every positive number and minimum", "why_tests_cant": "Unbounded domain.", "anchors": ["src/core/prime_factors.c: ext_mpi_plain_prime_factors, ext_mpi_factors_minimum"]}
{"id": "C26", "title": "Padding factor divides every size", "statement": "The padding factor computed from a list of sizes is the greatest common divisor of these sizes.", "quantifier": "every list of positive sizes", "why_tests_cant": "Unbounded domain.", "anchors": ["src/core/prime_factors.c: ext_mpi_prime_factor_padding"]}
{"id": "C27", "title": "Arrival order does not change a reduction", "statement": "When received partial results are reduced in the order in which messages arrive, the final value is the one of the fixed order, and each arrived message is reduced exactly once.", "quantifier": "every arrival order, every assignment of reductions to messages, any commutative associative operation", "why_tests_cant": "k! arrival orders chosen by the network.", "anchors": ["src/core/waitany.c", "src/mpi/ext_mpi_native_exec.c: exec_waitany"]}
{"id": "C28", "title": "Removing barriers keeps all processes in step", "statement": "The optimisation passes that delete synchronisation points delete the same ones on every process of a node, so that the k-th remaining synchronisation point of one process is the k-th remaining one of every other.", "quantifier": "every set of per-process programs with the same number of synchronisation points", "why_tests_cant": "A mismatch depends on the joint content of all programs.", "anchors": ["src/mpi/clean_barriers.c", "src/core/no_first_barrier.c", "src/core/no_socket_barriers.c"]}
{"id": "C29", "title": "Byte code size computed in advance is the size produced", "statement": "The dry run that determines the size of the program memory returns exactly the number of bytes the real run writes, and the interpreter reads back exactly the emitted instructions and stops at their end.", "quantifier": "every program", "why_tests_cant": "All programs; an error is a silent heap overflow.", "anchors": ["src/core/byte_code.c", "src/mpi/ext_mpi_native_exec.c"]}
{"id": "C30", "title": "Alternating buffers", "statement": "With alternating buffers two consecutive executions of a collective never use the same internal memory, and the k-th execution uses the memory of the (k+2)-th one.", "quantifier": "every number of starts and every interleaving with other handles' operations", "why_tests_cant": "Histories of arbitrary length.", "anchors": ["src/mpi/ext_mpi_native.c: EXT_MPI_Start_native"]}
{"id": "C31", "title": "Blocking collectives pick a prepared program that is large enough", "statement": "A blocking allreduce uses the smallest prepared program whose capacity is at least the requested count when there is one.", "quantifier": "every list of prepared capacities in increasing order, every count", "why_tests_cant": "All combinations of capacities and counts, the boundary ones in particular.", "anchors": ["src/mpi/ext_mpi_native_blocking.c: EXT_MPI_Allreduce_native"]}
{"id": "C32", "title": "Blocking address relocation", "statement": "Relocating a prepared blocking program to the user's buffers and count accesses, for every piece, only bytes inside the user's vector, and the pieces of a tiling of the prepared vector relocate to a tiling of the user's vector.", "quantifier": "every prepared program, count and buffer", "why_tests_cant": "All counts smaller and larger than the prepared one.", "anchors": ["src/mpi/ext_mpi_native_exec.c: normalize_address, recalculate_address_io"]}
{"id": "C33", "title": "Foreign requests are left alone", "statement": "Start, wait, test and free on a request not created by the library have exactly the effect of the underlying MPI call; on a library request the underlying start/wait/test is never called. Waiting for a mixed array waits for every request in order, and returns the error of the first underlying wait that fails without touching the requests behind it.", "quantifier": "every table content, every request, every mixed request array", "why_tests_cant": "All mixtures of requests.", "anchors": ["src/mpi/ext_mpi_interface.c: MPI_Start, MPI_Wait, MPI_Test, MPI_Waitall, MPI_Request_free"]}
{"id": "C34", "title": "Regular collectives are the irregular ones with equal counts", "statement": "MPI_Allgather_init, MPI_Gather_init and MPI_Scatter_init place block i at i times the block size: blocks are disjoint, in rank order and contiguous.", "quantifier": "every communicator size and block size", "why_tests_cant": "Unbounded sizes.", "anchors": ["src/mpi/ext_mpi_interface.c: MPI_Allgather_init, MPI_Gather_init, MPI_Scatter_init, MPI_Reduce_scatter_block_init"]}
{"id": "C35", "title": "Tasks per socket divide every node", "statement": "The automatically chosen number of tasks per node divides the number of processes on every node and is the largest number doing so.", "quantifier": "every list of node sizes", "why_tests_cant": "All lists.", "anchors": ["src/mpi/ext_mpi.c: ext_mpi_get_num_tasks_per_socket"]}
{"id": "C36", "title": "Reversing an algorithm setting", "statement": "Reverting a port list reverses the order of the steps and swaps gather steps with reduce steps; doing it twice restores the setting.", "quantifier": "every zero-terminated list of ports and groups", "why_tests_cant": "Lists of any length.", "anchors": ["src/mpi/ext_mpi.c: ext_mpi_revert_num_ports"]}
{"id": "C37", "title": "Rooted collectives keep what the root needs", "statement": "Dropping the communication that does not contribute to the root's result leaves the root's result of a reduce or gather unchanged, and drops a send iff it drops the matching receive.", "quantifier": "every schedule, root and contents", "why_tests_cant": "All schedules and roots.", "anchors": ["src/mpi/backward_interpreter.c", "src/mpi/forward_interpreter.c"]}
{"id": "C38", "title": "Communicator ids for blocking collectives", "statement": "Duplicating, splitting and freeing communicators assigns distinct ids to simultaneously live communicators.", "quantifier": "every history of communicator creations and releases with at most 100 live communicators", "why_tests_cant": "Histories of arbitrary length.", "anchors": ["src/mpi/ext_mpi_interface.c: add_comm_to_blocking, remove_comm_from_blocking"]}
{"id": "C39", "title": "EXT_MPI_Progress may be called at any time", "statement": "EXT_MPI_Progress never accesses invalid memory, never changes which programs belong to a live handle, and ends exactly the running programs that can finish. Calls of EXT_MPI_Progress in between do not affect the other guarantees for handles.", "quantifier": "every reachable state of the library, including those without live collectives", "why_tests_cant": "Depends on the history of creations and releases.", "anchors": ["src/mpi/ext_mpi_native.c: EXT_MPI_Progress_native, EXT_MPI_Done_native"]}
{"id": "C40", "title": "Repeated MPI_Waitany reports each completion once", "statement": "Calling MPI_Waitany as often as there are started collectives reports each of them exactly once.", "quantifier": "every array of the library's requests and every order of completion", "why_tests_cant": "All arrays and completion orders.", "anchors": ["src/mpi/ext_mpi_interface.c: MPI_Waitany, MPI_Test", "src/mpi/ext_mpi_native.c: EXT_MPI_Test_native"]}
{"id": "C41", "title": "Any communicator may be freed, any colour may be used in a split", "statement": "With blocking collectives enabled, MPI_Comm_free on a communicator the library does not know and MPI_Comm_split with MPI_UNDEFINED are harmless.", "quantifier": "every history of communicator operations", "why_tests_cant": "Histories of arbitrary length.", "anchors": ["src/mpi/ext_mpi_interface.c: remove_comm_from_blocking, MPI_Comm_split"]}
{"id": "C42", "title": "The greatest common divisor helper", "statement": "ext_mpi_greatest_common_divisor returns the greatest common divisor of its arguments.", "quantifier": "every pair of positive numbers", "why_tests_cant": "Unbounded domain.", "anchors": ["src/core/prime_factors.c: ext_mpi_greatest_common_divisor"]}
{"id": "C43", "title": "Balanced factor", "statement": "ext_mpi_factor_sqrt returns a divisor of its argument that is at least the square root.", "quantifier": "every positive number", "why_tests_cant": "Unbounded domain.", "anchors": ["src/core/prime_factors.c: ext_mpi_factor_sqrt"]}
{"id": "C44", "title": "Copy-in settings survive the text form", "statement": "Scanning the printed form of a copy-in method with its factors gives the same method and the same factors.", "quantifier": "every method number and every list of non-zero factors (zero ends the list in the code)", "why_tests_cant": "Unbounded lists and numbers.", "anchors": ["src/core/ports_groups.c: ext_mpi_print_copyin, ext_mpi_scan_copyin"]}
{"id": "C45", "title": "Relabelled sizes belong to the relabelled nodes", "statement": "After the relabelling of nodes the message size stored for a label is the size of the node that carries the label.", "quantifier": "every vector of message sizes", "why_tests_cant": "All size vectors; permutations that are their own inverse hide the error.", "anchors": ["src/core/rank_permutation.c: ext_mpi_generate_rank_permutation_forward"]}
{"id": "C46", "title": "Data being sent are not modified", "statement": "A buffer handed to a non-blocking send keeps its contents until the send has completed, so the partner receives the value the buffer had when the step began.", "quantifier": "every order in which the messages of a step complete, every program produced for one process per node", "why_tests_cant": "Depends on the moment at which the network reads the buffer; small messages are copied eagerly and hide the error.", "anchors": ["src/core/waitany.c: ext_mpi_generate_waitany", "src/mpi/ext_mpi_native_exec.c: exec_waitany"]}
{"id": "C47", "title": "The unit of a blocking program divides its pieces", "statement": "The unit into which a prepared blocking program is divided so that it can be rescaled to other counts divides all offsets and sizes the program uses.", "quantifier": "every prepared program", "why_tests_cant": "All programs; the programs of small examples have pieces of one element.", "anchors": ["src/mpi/ext_mpi_native_exec.c: ext_mpi_exec_padding", "src/mpi/ext_mpi_native_blocking.c: add_blocking_native"]}
{"id": "C48", "title": "Messages of blocking collectives fit their receives", "statement": "When a prepared program is executed for a given count, no message is longer than the receive posted for it.", "quantifier": "every prepared program whose messages fit, every count and element size", "why_tests_cant": "All programs and counts; the effect depends on the address of the first receive buffer and appears only for counts at the end of the vector.", "anchors": ["src/mpi/ext_mpi_native_exec.c: ext_mpi_normalize_blocking, ext_mpi_exec_blocking"]}
{"id": "C49", "title": "Blocking allreduce is correct for every count", "statement": "A prepared program that computes the allreduce of the vector it was prepared for computes the allreduce for every other count and element size after relocation.", "quantifier": "every prepared program, every count, element size and commutative operation", "why_tests_cant": "All counts, types and programs.", "anchors": ["src/mpi/ext_mpi_native_exec.c: ext_mpi_exec_blocking", "src/mpi/ext_mpi_native_blocking.c: EXT_MPI_Allreduce_native"]}
{"id": "C50", "title": "Reduce-scatter (cyclic algorithm) reduces every contribution exactly once", "statement": "After the generated cyclic reduce_scatter schedule has run on all nodes, node t outputs for block t the sum over all nodes of their contributions to block t, each counted exactly once.", "quantifier": "every number of nodes (also primes), every list of port counts whose cumulative factor reaches the number of nodes, every node, arbitrary contents in any commutative monoid, arbitrary scratch memory", "why_tests_cant": "The chunks of the steps have different lengths whenever the number of nodes is not a product of the factors; a contribution dropped or counted twice shows only for particular combinations.", "anchors": ["src/core/allreduce_single.c: allreduce_core, get_size_level1b"]}
{"id": "C51", "title": "Allreduce (cyclic algorithm) reduces every contribution exactly once everywhere", "statement": "After the generated cyclic allreduce schedule has run on all nodes, every node outputs for every block the sum over all nodes of their contributions to that block, each counted exactly once; lines removed by the clean-up of the schedule are never missed.", "quantifier": "every number of nodes, every list of reduction ports (complete, incomplete or empty) followed by gather ports whose cumulative factor reaches the number of nodes, every node, arbitrary contents in any commutative monoid, arbitrary scratch memory", "why_tests_cant": "Partial sums are combined along chains that depend on the remaining number of chunks, and unused lines are deleted by a fixed point over the whole schedule; all combinations of node numbers and port lists matter.", "anchors": ["src/core/allreduce_single.c: allreduce_core, get_lines_used, delete_lines, get_size_level1b"]}
{"id": "C52", "title": "Allreduce program: every process finishes with the element-wise sum, whatever the message timing", "statement": "When every process (one per node) runs the program generated for an allreduce - copy-in from the send buffer, packing, non-blocking receives and sends, wait, unpacking, reductions, copy-out - no process blocks forever, no instruction touches a buffer of a pending message, and at the end element e of every receive buffer is the sum of element e of all send buffers, each taken exactly once; the send buffers are unchanged.", "quantifier": "every number of nodes of the form prod (ports+1), every valid port list (reduction, middle and gather steps), every split of the message into per-node pieces (also empty pieces), every initial memory content, every interleaving of the processes and every moment at which MPI moves a message, with and without eager buffering", "why_tests_cant": "Whether a message is unpacked to the right offset depends on the sizes of all pieces before it, and the number of interleavings is unbounded; a test runs one timing with one size.", "anchors": ["src/core/allreduce_recursive.c: allreduce_core", "src/core/raw_code.c: ext_mpi_generate_raw_code", "src/core/reduce_copyin.c: reduce_copyin", "src/core/reduce_copyout.c: ext_mpi_generate_reduce_copyout"]}
{"id": "C53", "title": "Allgatherv program: every process finishes with all blocks in rank order, whatever the message timing", "statement": "When every process (one per node) runs the program generated for an allgatherv, no process blocks forever, no instruction touches a buffer of a pending message, and at the end every receive buffer is the concatenation of all send buffers in rank order; the send buffers are unchanged.", "quantifier": "cyclic algorithm: every number of nodes and port list without overshoot; recursive algorithm: every port list; every combination of counts (also zero), every initial memory content, every interleaving and every moment at which MPI moves a message, with and without eager buffering; more than one node (a single node: C80 to C84)", "why_tests_cant": "Offsets are prefix sums of arbitrary counts in a rotated order, zero counts suppress messages on both sides, and the number of interleavings is unbounded.", "anchors": ["src/core/allreduce_single.c: allgather_core", "src/core/allreduce_recursive.c: allgather_core", "src/core/raw_code.c: ext_mpi_generate_raw_code", "src/core/reduce_copyin.c: ext_mpi_generate_reduce_copyin", "src/core/reduce_copyout.c: ext_mpi_generate_reduce_copyout"]}
{"id": "C54", "title": "Reduce_scatter program: every process finishes with the sum of its block, whatever the message timing", "statement": "When every process (one per node) runs the program generated for a reduce_scatter, no process blocks forever, no instruction touches a buffer of a pending message, and at the end the receive buffer of process t holds the element-wise sum of block t of all send buffers, each taken exactly once; the send buffers are unchanged.", "quantifier": "every number of nodes of the form prod (ports+1) (recursive algorithm), every port list, every combination of block sizes (also zero), every initial memory content, every interleaving and every moment at which MPI moves a message, with and without eager buffering", "why_tests_cant": "The scratch lines of different steps share memory and have sizes given by the blocks; the number of interleavings is unbounded.", "anchors": ["src/core/allreduce_recursive.c: reduce_scatter_core", "src/core/raw_code.c: ext_mpi_generate_raw_code", "src/core/reduce_copyin.c: reduce_copyin", "src/core/reduce_copyout.c: ext_mpi_generate_reduce_copyout"]}
{"id": "C55", "title": "Reduce_scatter program of the cyclic algorithm: every process finishes with the sum of its block, whatever the message timing", "statement": "When every process (one per node) runs the program generated for a reduce_scatter with the cyclic algorithm, no process blocks forever, no instruction touches a buffer of a pending message, and at the end the receive buffer of process t holds the element-wise sum of block t of all send buffers, each taken exactly once; the send buffers are unchanged.", "quantifier": "every number of nodes, every port list whose factors (port+1) reach the number of nodes, every combination of block sizes (also zero), every initial memory content, every interleaving and every moment at which MPI moves a message, with and without eager buffering", "why_tests_cant": "Every step places the received lines elsewhere in the scratch memory, overwriting lines that are no longer used; that no line still needed is hit depends on all block sizes in a rotated order, and the number of interleavings is unbounded.", "anchors": ["src/core/allreduce_single.c: allreduce_core", "src/core/raw_code.c: ext_mpi_generate_raw_code", "src/core/reduce_copyin.c: reduce_copyin", "src/core/reduce_copyout.c: ext_mpi_generate_reduce_copyout"]}
{"id": "C56", "title": "Allreduce program of the cyclic algorithm: every process finishes with the element-wise sum, whatever the message timing", "statement": "When every process (one per node) runs the program generated for an allreduce with the cyclic algorithm (reduction steps, gather steps, unused lines removed), no process blocks forever, no instruction touches a buffer of a pending message, and at the end element e of every receive buffer is the sum of element e of all send buffers, each taken exactly once; the send buffers are unchanged.", "quantifier": "every number of nodes, every list of reduction ports, every list of gather ports whose factors reach the number of nodes, every split of the message into pieces (also empty ones), every initial memory content, every interleaving and every moment at which MPI moves a message, with and without eager buffering", "why_tests_cant": "Removing unused lines changes the position of all later lines in the scratch memory; whether sender and receiver still agree depends on all piece sizes, the number of nodes and the ports, and the number of interleavings is unbounded.", "anchors": ["src/core/allreduce_single.c: allreduce_core, get_lines_used, delete_lines", "src/core/raw_code.c: ext_mpi_generate_raw_code", "src/core/reduce_copyin.c: reduce_copyin", "src/core/reduce_copyout.c: ext_mpi_generate_reduce_copyout"]}
{"id": "C57", "title": "Allreduce on one node: every process finishes with the element-wise sum, in every execution of the handle", "statement": "When the processes of a single node run the program of an allreduce with the copy-in settings that the library chooses by itself, again and again on the same handle, with or without alternating shared memories, no process waits forever, every run ends, and in each execution element e of the receive buffer of every process is the sum of element e of the send buffers of all processes, each taken exactly once; nothing else of the user's buffers changes.", "quantifier": "every number of processes, every positive number of elements, element sizes 1, 2, 4, 8, every candidate of the measurement (plain with any split of the prime factors, almost-half, small messages), every number of executions, both settings of alternation, every initial memory content (flags and padding zero) and every interleaving of the single reads and writes of the processes", "why_tests_cant": "The processes synchronise with hand-made partial barriers between changing groups; a missing or misplaced barrier is visible only in rare interleavings, and the layout of the partial sums depends on the number of processes, the factors and the size.", "anchors": ["src/core/reduce_copyin.c: reduce_copyin, reduce_copies, reduce_copies_almost_half, local_barrier", "src/core/reduce_copyout.c: ext_mpi_generate_reduce_copyout", "src/mpi/cost_copyin_measurement.c: allreduce_measurement", "src/mpi/ext_mpi_native_exec.c: socket_barrier, socket_barrier_atomic_set, socket_barrier_atomic_wait"]}
{"id": "C58", "title": "Copy-in settings of the user never make an allreduce wrong", "statement": "Whatever method and factors are given with EXT_MPI_COPYIN or the info key ext_mpi_copyin, an allreduce on a single node either works as in C57 or is refused.", "quantifier": "every method, every list of factors, every number of processes and elements, every interleaving", "why_tests_cant": "The setting is one for all communicators and sizes of a program; whether it fits depends on the number of processes and the size of each call.", "anchors": ["src/mpi/ext_mpi.c: EXT_MPI_COPYIN", "src/mpi/num_ports_factors.c: ext_mpi_copyin_info", "src/core/reduce_copyin.c: reduce_copyin, reduce_copies, reduce_copies_almost_half"]}
{"id": "C59", "title": "Data of small messages and barrier flags share memory without touching each other", "statement": "For small messages, which are stored between the flags of the barriers, no byte of the data is a byte of a flag, different elements and instances do not overlap, and instance i stays inside cache line i.", "quantifier": "every message of at most 56 bytes, element sizes 1, 2, 4, 8, every instance, element and flag", "why_tests_cant": "An overlap would corrupt a counter only for particular sizes and show up as a rare hang.", "anchors": ["src/core/reduce_copyin.c: reduce_copyin, reduce_copies", "src/core/reduce_copyout.c: ext_mpi_generate_reduce_copyout", "include/core/read_write.h: OFFSET_FAST", "src/mpi/ext_mpi_native_exec.c: socket_barrier_atomic_set"]}
{"id": "C60", "title": "An allreduce of any number of elements on one node can be initialised", "statement": "For every number of elements, also 0, the program of an allreduce on a single node with the settings of the library is generated without undefined behaviour.", "quantifier": "every number of processes, every number of elements, every element size, every candidate of the measurement", "why_tests_cant": "Boundary values of the size interact with the choice of the unit of the copy-in.", "anchors": ["src/core/reduce_copyin.c: ext_mpi_generate_reduce_copyin, reduce_copyin"]}
{"id": "C61", "title": "Allreduce between nodes with one process each, as executed", "statement": "With one process per node and the recursive algorithm, the program that is left after all optimisation passes (no copies into send buffers, receives directly into the user's buffer, joined copies, work in the user's buffers) finishes without deadlock, obeys the rules of MPI for pending buffers, leaves in every receive buffer the element-wise sum of all send buffers and touches nothing else of the user's memory.", "quantifier": "every list of ports of the recursive algorithm that is balanced, every number of elements and split into messages, every timing of the messages, with and without buffering in MPI", "why_tests_cant": "The passes remove copies and let messages read and write the user's buffers while other work goes on; whether that is safe depends on timing and on the layout for every number of nodes.", "anchors": ["src/mpi/ext_mpi_native.c: EXT_MPI_Allreduce_init_general", "src/core/optimise_buffers.c: ext_mpi_generate_optimise_buffers", "src/core/optimise_buffers2.c: ext_mpi_generate_optimise_buffers2", "src/core/use_sendbuf_recvbuf.c: ext_mpi_generate_use_sendbuf_recvbuf", "src/core/raw_code_merge.c"]}
{"id": "C62", "title": "Reduce_scatter between nodes with one process each, as executed", "statement": "EXT_MPI_Reduce_scatter_init followed by start and wait leaves in the receive buffer of process t the sum of the t-th part of all send buffers, whatever the counts are, with one process per node and the recursive algorithm.", "quantifier": "every list of ports, every list of counts, every timing of the messages", "why_tests_cant": "Counts of the processes may differ in any way; processes are relabelled depending on them.", "anchors": ["src/mpi/ext_mpi_native.c: EXT_MPI_Reduce_scatter_init_native", "src/core/rank_permutation.c: ext_mpi_generate_rank_permutation_forward, ext_mpi_generate_rank_permutation_backward", "src/core/use_sendbuf_recvbuf.c: ext_mpi_generate_use_sendbuf_recvbuf"]}
{"id": "C63", "title": "Allgatherv between nodes with one process each, as executed", "statement": "EXT_MPI_Allgather(v)_init followed by start and wait leaves in every receive buffer the blocks of all processes in the order of the processes, whatever the counts are, with one process per node and the recursive algorithm.", "quantifier": "every list of ports, every list of counts (also 0), every timing of the messages; more than one node (a single node: C80 to C84)", "why_tests_cant": "Counts of the processes may differ in any way; processes are relabelled depending on them and the blocks are received in the user's buffer directly.", "anchors": ["src/mpi/ext_mpi_native.c: EXT_MPI_Allgatherv_init_native", "src/core/swap_copyin.c: ext_mpi_generate_swap_copyin", "src/core/use_recvbuf.c", "src/core/rank_permutation.c"]}
{"id": "C64", "title": "Displacements of Allgatherv are honoured", "statement": "After an allgatherv the block of process s is at element displs[s] of every receive buffer.", "quantifier": "every list of counts and displacements for which the blocks do not overlap", "why_tests_cant": "Most programs pass the displacements of consecutive blocks, for which an implementation that ignores them is right.", "anchors": ["src/mpi/ext_mpi_native.c: EXT_MPI_Allgatherv_init_native", "src/mpi/ext_mpi.c: EXT_MPI_Allgatherv_init"]}
{"id": "C65", "title": "Allreduce works in place", "statement": "With MPI_IN_PLACE as send buffer, every receive buffer holds the element-wise sum of what the receive buffers held before, and the program obeys the rules of MPI for pending buffers.", "quantifier": "every list of ports, every number of elements, every timing of the messages", "why_tests_cant": "Whether a buffer that is sent is written too early depends on the timing of the messages.", "anchors": ["src/mpi/ext_mpi.c: EXT_MPI_Allreduce_init", "src/mpi/ext_mpi_native.c: EXT_MPI_Allreduce_init_general", "src/core/use_sendbuf_recvbuf.c: ext_mpi_generate_use_sendbuf_recvbuf", "src/core/reduce_copyout.c"]}
{"id": "C66", "title": "Messages between nodes are distributed consistently", "statement": "With several processes per node, each message between two nodes is sent by exactly one process of the sending node and received by exactly one process of the receiving node, and these two processes name each other; no message is left out.", "quantifier": "every number of nodes, list of ports, number of processes per node and relabelling of the nodes", "why_tests_cant": "The processes decide on their own, from their node's part of the schedule and the relabelling; whether two nodes decide alike depends on all partners of both and, through the relabelling, on the counts of the user.", "anchors": ["src/core/raw_code_tasks_node.c: ext_mpi_generate_raw_code_tasks_node", "src/core/rank_permutation.c", "src/core/raw_code.c"]}
{"id": "C67", "title": "Allgather between nodes with several processes each, as executed", "statement": "The generated allgather(v) programs of nodes whose processes share memory leave in every receive buffer the blocks of all processes in their order; there is no data race between the processes of a node, no deadlock, and no buffer is touched while a message is pending.", "quantifier": "every number of nodes, list of ports, number of processes per node, counts of the processes (also 0 and differing), relabelling of the nodes, interleaving of the processes and timing of the messages; more than one node (a single node: C80 to C84)", "why_tests_cant": "The processes of a node write into the same memory and are ordered by barriers only; the number of interleavings with the messages of other nodes is unbounded.", "anchors": ["src/mpi/ext_mpi_native.c: EXT_MPI_Gatherv_init_native", "src/core/raw_code_tasks_node.c", "src/core/raw_code.c: ext_mpi_generate_raw_code", "src/core/reduce_copyin.c", "src/core/reduce_copyout.c", "src/mpi/ext_mpi_native_exec.c: exec_native"]}
{"id": "C68", "title": "Allreduce of several processes on each of several nodes, as executed", "statement": "After the generated allreduce programs have run, every receive buffer of every process holds the sum of the contributions of all processes and nothing outside of the receive buffers and the scratch memory has changed. The executions end; there is no deadlock, not even if MPI never buffers a message, no data race between the processes of a node, and no buffer is touched while a message is pending.", "quantifier": "every number of nodes, list of ports, number of processes per node, number of elements and their division into pieces, choice of factors of the copy-in, interleaving of the processes down to single elements and flags of the barriers, timing of the messages", "why_tests_cant": "The processes of a node are ordered only by flags in shared memory that they set and poll, while messages of other nodes arrive in the same memory; a test sees few of the unboundedly many interleavings, node counts and factorisations.", "anchors": ["src/mpi/ext_mpi_native.c: EXT_MPI_Reduce_init_native", "src/core/reduce_copyin.c", "src/core/raw_code_tasks_node.c", "src/core/raw_code.c: ext_mpi_generate_raw_code", "src/core/reduce_copyout.c", "src/mpi/cost_copyin_measurement.c", "src/mpi/ext_mpi_native_exec.c: exec_native, socket_barrier"]}
{"id": "C69", "title": "Reduce_scatter of several processes on each of several nodes, as executed", "statement": "After the generated reduce_scatter programs have run, the receive buffer of every process holds the sum over all processes of its own part of the send buffers and nothing else outside of the scratch memory has changed. The executions end without deadlock, data race or access to a buffer with a pending message.", "quantifier": "every number of nodes, list of ports, number of processes per node, counts of the processes (also 0 and differing within a node), choice of factors of the copy-in, interleaving of the processes down to single elements and flags of the barriers, timing of the messages", "why_tests_cant": "As C68; in addition the part of a process depends on the counts of all others and on its place in its node.", "anchors": ["src/mpi/ext_mpi_native.c: EXT_MPI_Reduce_scatter_init_native", "src/core/reduce_copyin.c", "src/core/raw_code_tasks_node.c", "src/core/raw_code.c: ext_mpi_generate_raw_code", "src/core/reduce_copyout.c: 174-197", "src/mpi/ext_mpi_native_exec.c: exec_native, socket_barrier"]}
{"id": "C70", "title": "Allgather between nodes is correct with the barriers as implemented", "statement": "C67 also holds when the barriers of a node are not atomic but consist of the stores to and the polling of flags in shared memory, and when copies access one element at a time.", "quantifier": "as C67, with interleavings between the single stores and loads of barriers and copies; more than one node (a single node: C80 to C84)", "why_tests_cant": "The interleavings between polling processes, copying processes and arriving messages are unbounded in number.", "anchors": ["src/mpi/ext_mpi_native_exec.c: exec_native, socket_barrier", "src/core/raw_code_tasks_node.c", "src/core/raw_code.c: ext_mpi_generate_raw_code", "src/core/reduce_copyin.c", "src/core/reduce_copyout.c"]}
{"id": "C71", "title": "Broadcast delivers the buffer of the root", "statement": "After a broadcast every process has the buffer of the root, although the schedule is that of an allreduce in which the communication of lines without data of the root is dropped and reductions with one operand become copies. The result does not depend on memory that is not initialised.", "quantifier": "every schedule of an allreduce, root, contents of the buffer and of unused memory", "why_tests_cant": "All schedules, roots and contents; what is dropped depends on the schedule and on the root, and reading unused memory can give right results by chance.", "anchors": ["src/mpi/ext_mpi_native.c: EXT_MPI_Bcast_init_native", "src/mpi/forward_interpreter.c", "src/core/reduce_copyin.c: 487-514", "src/core/raw_code.c", "src/core/allreduce_single.c", "src/core/allreduce_recursive.c"]}
{"id": "C72", "title": "Scatter delivers to every process its part of the buffer of the root", "statement": "After a scatter process t has block t of the buffer of the root, although the schedule is that of a reduce_scatter in which the communication of lines without data of the root is dropped and reductions with one operand become copies. The result does not depend on memory that is not initialised.", "quantifier": "every schedule of a reduce_scatter, root, contents of the buffer and of unused memory", "why_tests_cant": "As C71.", "anchors": ["src/mpi/ext_mpi_native.c: EXT_MPI_Scatterv_init_native", "src/mpi/forward_interpreter.c", "src/core/reduce_copyin.c: 487-514", "src/core/raw_code.c", "src/core/allreduce_single.c"]}
{"id": "C73", "title": "The settings the library chooses itself give right results", "statement": "Without any setting by the user the library enumerates lists of factors for the number of nodes, drops some and takes the one with the least estimated time. With the port counts and groups made of it, Allgather, Reduce_scatter and Allreduce deliver the results MPI requires on all nodes, with the recursive generator when it is selected and with the cyclic one otherwise.", "quantifier": "every number of processes and of processes per node, every table of measured times, all data", "why_tests_cant": "Number of nodes and measured times are unbounded; which list is chosen depends on both, and wrong lists exist (C10).", "anchors": ["src/core/recursive_factors.c: next_number, correct_number, ext_mpi_heuristic_recursive_non_factors, ext_mpi_heuristic_cancel_factors, ext_mpi_min_cost_total", "src/mpi/num_ports_factors.c: ext_mpi_num_ports_factors, get_group_size", "src/core/allreduce.c: get_ngroups", "src/mpi/ext_mpi.c: 274, 466-472, 666"]}
{"id": "C74", "title": "The choice of the settings stays within its memory", "statement": "Whenever the times in the table are finite, the choice of port counts ends with a list; neither the table of candidates nor the arrays for port counts and groups, which have one entry more than there are processes, are exceeded and no arithmetic overflows.", "quantifier": "every number of processes, of processes per node and of sockets, every table of finite times", "why_tests_cant": "The number of candidates grows faster than linearly with the number of nodes; memory errors need not be visible.", "anchors": ["src/core/recursive_factors.c: ext_mpi_heuristic_recursive_non_factors", "src/mpi/num_ports_factors.c: ext_mpi_num_ports_factors"]}
{"id": "C75", "title": "The choice of the settings is the fastest one", "statement": "No list of factors between 2 and 13 that covers the nodes without excess, in non-increasing order and with any number of reduction steps, has a smaller estimated time than the one chosen.", "quantifier": "every number of nodes for which the choice succeeds, every table of times, every such list", "why_tests_cant": "The candidates are enumerated by an odometer that skips many positions; that it skips none that matters concerns all numbers of nodes.", "anchors": ["src/core/recursive_factors.c: next_number, ext_mpi_heuristic_recursive_non_factors, ext_mpi_heuristic_cancel_factors, ext_mpi_min_cost_total"]}
{"id": "C76", "title": "An allreduce in several groups of steps gives the sum everywhere", "statement": "The user can split an Allreduce into groups of steps that act on subsets of the nodes: reductions, optionally a middle group that reduces and gathers, and gathers. If the ports of every group reach its nodes without overshooting, the gathers make up the nodes of the reductions and all together make up all nodes, then the schedule is generated, it runs to its end, and every node gets the sum of all contributions to every block, every contribution exactly once. The sizes of the reductions and of the gathers need not be the same.", "quantifier": "every number of nodes, every number of groups, all sizes of groups and port counts that satisfy the conditions, all data in a commutative monoid", "why_tests_cant": "Numbers and sizes of groups are unbounded; the renumbering of nodes and messages and the removal or insertion of copies between the groups depend on all of them.", "anchors": ["src/core/allreduce.c: ext_mpi_generate_allreduce, get_num_ports_group, socket_local, socket_global, revise_partners, expand_frac, frac_multiply, revise_frac, chancel_copyin_copyout, add_lines", "src/core/allreduce_single.c"]}
{"id": "C77", "title": "The option for minimal computation gives right results", "statement": "With the option ext_mpi_minimum_computation an Allreduce consists of halvings followed by doublings. Every node gets the sum of all contributions to every block, for every number of nodes, also if it is not a power of two.", "quantifier": "every number of processes and of processes per node with at least two nodes for which the settings fit into their arrays, all data in a commutative monoid", "why_tests_cant": "The number of nodes is unbounded; for powers of two the recursive generator is chosen, otherwise two groups of cyclic steps are joined.", "anchors": ["src/mpi/num_ports_factors.c: 153-170", "src/mpi/ext_mpi.c: 660-666", "src/core/allreduce.c: ext_mpi_generate_allreduce"]}
{"id": "C78", "title": "Allgather and Reduce_scatter work in several groups", "statement": "Settings with several groups of steps, which Allreduce accepts, also give right results for Allgather (positive ports) and Reduce_scatter (negative ports).", "quantifier": "every number of groups, all sizes and port counts, every number of nodes", "why_tests_cant": "Numbers and sizes of groups are unbounded; the failure is an access outside of an array and need not be visible.", "anchors": ["src/core/allreduce.c: get_ngroups, ext_mpi_generate_allreduce"]}
{"id": "C79", "title": "Rooted collectives with several processes per node", "statement": "With several processes per node a gather or reduce brings the data of all nodes to the node of the root, and a broadcast or scatter brings the data of the node of the root to all nodes, whatever process is the root.", "quantifier": "every number of nodes from 2 on, number of processes per node, root, schedule, data and contents of unused memory", "why_tests_cant": "The number of nodes, of processes per node and the root are unbounded; whether memory nobody wrote is delivered depends on what it contains.", "anchors": ["src/mpi/backward_interpreter.c: 54-61", "src/mpi/forward_interpreter.c: 51-70", "src/core/reduce_copyin.c: 488-495", "src/core/reduce_copyout.c: 131-139"]}
{"id": "C80", "title": "Reduce_scatter on a single node", "statement": "On a single node Reduce_scatter delivers to every process its part of the sum of the send buffers of all processes, in every execution of the persistent request, without deadlock and whatever the order in which the processes run; nothing else of the buffers of the user changes.", "quantifier": "every number of processes, counts of the parts (also 0 and differing), contents of buffers and of the shared memory, number of executions, with and without alternating shared memories, every interleaving", "why_tests_cant": "Interleavings of the processes between repeated executions; counts and number of processes are unbounded.", "anchors": ["src/core/reduce_scatter_single_node.c", "src/mpi/ext_mpi_native.c: EXT_MPI_Reduce_scatter_init_native", "src/core/no_first_barrier.c"]}
{"id": "C81", "title": "Broadcast on a single node", "statement": "On a single node a broadcast delivers the buffer of the root to all other processes, in every execution, without deadlock and whatever the order in which the processes run.", "quantifier": "every number of processes, root, number of elements, element size, contents, number of executions, with and without alternating shared memories, every interleaving", "why_tests_cant": "As C80; a result can also be right by chance if stale data is read.", "anchors": ["src/core/reduce_copyin.c: 487-514", "src/core/reduce_copyout.c: 57-59, 129-173", "src/mpi/ext_mpi_native.c: EXT_MPI_Bcast_init_native"]}
{"id": "C82", "title": "Scatter on a single node", "statement": "On a single node a scatter delivers to every process its part of the buffer of the root, in every execution, without deadlock and whatever the order in which the processes run.", "quantifier": "as C80, every root", "why_tests_cant": "As C80.", "anchors": ["src/core/reduce_copyin.c: 487-514", "src/core/reduce_copyout.c: 174-200", "src/mpi/ext_mpi_native.c: EXT_MPI_Scatterv_init_native"]}
{"id": "C83", "title": "Allgather and gather on a single node", "statement": "On a single node an allgather delivers to every process, and a gather to the root, the parts of all processes one after the other, in every execution, without deadlock and whatever the order in which the processes run.", "quantifier": "as C80, every root, element size and number of steps of the algorithm setting", "why_tests_cant": "As C81.", "anchors": ["src/core/reduce_copyin.c: 561-592", "src/core/reduce_copyout.c: 57-59, 129-173", "src/mpi/backward_interpreter.c", "src/mpi/ext_mpi_native.c: EXT_MPI_Allgatherv_init_native, EXT_MPI_Gatherv_init_native"]}
{"id": "C84", "title": "Reduce on a single node", "statement": "On a single node a reduce delivers to the root the sum of the send buffers of all processes and leaves the receive buffers of the others unchanged, in every execution, without deadlock and whatever the order in which the processes run.", "quantifier": "every number of processes, root, positive number of elements, element size, data in a commutative monoid, every choice of the factors that the library makes by itself, number of executions, with and without alternating shared memories, every interleaving", "why_tests_cant": "As C80.", "anchors": ["src/core/reduce_copyin.c", "src/core/reduce_copyout.c: 129-139", "src/mpi/ext_mpi_native.c: EXT_MPI_Reduce_init_native"]}
{"id": "C85", "title": "All processes have the same settings", "statement": "After EXT_MPI_Init all processes use the settings that the environment variables of process 0 ask for.", "quantifier": "every number of processes, every environment", "why_tests_cant": "Tests set a few variables and look at results, not at the settings of every process.", "anchors": ["src/mpi/ext_mpi.c: 26-40, 44-174 (read_env)"]}
{"id": "C86", "title": "EXT_MPI_DEBUG switches the self-test on and off", "statement": "EXT_MPI_DEBUG=0 switches the self-test of the initialisations off, and whatever the value is all processes make the same collective MPI calls in the same order.", "quantifier": "every value of the variable, every number of processes, every collective", "why_tests_cant": "Tests run with the default value.", "anchors": ["src/mpi/ext_mpi.c: 74-85, 239-244"]}
{"id": "C87", "title": "Initialisation leaves the buffers of the user unchanged", "statement": "Initialising a persistent collective changes no buffer of the user; data put there before the initialisation is that of the first start.", "quantifier": "every collective, type, count, contents of memory", "why_tests_cant": "Tests fill the buffers after the initialisation.", "anchors": ["src/mpi/debug_persistent.c", "src/mpi/ext_mpi.c: 239-244, 624-629"]}
{"id": "C88", "title": "The self-test stays inside of its buffers", "statement": "The self-test run by an initialisation reads and writes only inside of its own buffers and of the buffer of the user.", "quantifier": "every collective, type size, counts, displacements, rank, contents of memory", "why_tests_cant": "Accesses shortly behind the end of a heap block go unnoticed in tests.", "anchors": ["src/mpi/debug_persistent.c"]}
{"id": "C89", "title": "The self-test accepts exactly the right results", "statement": "The self-test ends the program if and only if the result of the library differs from that of MPI.", "quantifier": "every collective, type size, counts, displacements, result of the library, contents of memory", "why_tests_cant": "A test of the self-test would need wrong results of the library, and every content of uninitialised memory.", "anchors": ["src/mpi/debug_persistent.c"]}
{"id": "C90", "title": "Lists of ports and copy-in factors are stored in bounds", "statement": "The lists of EXT_MPI_NUM_PORTS and EXT_MPI_COPYIN are stored inside of the arrays allocated for them, on all processes and in every initialisation.", "quantifier": "every list, number of processes, size of the communicator", "why_tests_cant": "Writes shortly behind the end of a heap block go unnoticed in tests.", "anchors": ["src/mpi/ext_mpi.c: 113-173, 251, 643", "src/mpi/num_ports_factors.c: 82-95"]}
{"id": "C91", "title": "EXT_MPI_Init and EXT_MPI_Finalize can be repeated", "statement": "Any sequence of pairs of EXT_MPI_Init and EXT_MPI_Finalize frees no memory twice.", "quantifier": "every number of pairs, EXT_MPI_NUM_PORTS set or not in each", "why_tests_cant": "Tests initialise once.", "anchors": ["src/mpi/ext_mpi.c: 117-144, 181-185, 1012-1030"]}
{"id": "C92", "title": "Order of the sources of a parameter", "statement": "A parameter has the value of the environment if that is set, else that of the info object, else the default.", "quantifier": "every value of the three sources", "why_tests_cant": "The value of an uninitialised variable differs from run to run.", "anchors": ["src/mpi/num_ports_factors.c: 9-23"]}
{"id": "C93", "title": "Number of processes per socket", "statement": "By default the number of processes per socket is positive, and multiplied with the number of sockets per node it divides the number of processes of every node.", "quantifier": "every number of nodes, processes per node and sockets per node", "why_tests_cant": "Tests run on a few equal nodes with one socket.", "anchors": ["src/mpi/ext_mpi.c: 187-217"]}
{"id": "C94", "title": "Displacements of scatterv and allgatherv on a single node", "statement": "Scatterv sends, and allgatherv stores, the part of each process at the displacement that the user gives.", "quantifier": "every number of processes, root, counts, displacements, data, every interleaving", "why_tests_cant": "All counts and displacements; tests use parts one after the other.", "anchors": ["src/mpi/ext_mpi_native.c: 900-1160, 1162-1375"]}
{"id": "C95", "title": "Preparing the blocking collectives is defined", "statement": "EXT_MPI_Init_blocking_comm finds ports for the blocking allreduce, reduce_scatter_block and allgather without reading or writing outside of its arrays.", "quantifier": "every number of processes and processes per node, every table of times, every setting of the user", "why_tests_cant": "All sizes and tables; a null pointer is only followed on a single node, which tests of the choice of ports do not reach.", "anchors": ["src/mpi/ext_mpi_blocking.c: 59-176, 217-282, 313-395, 409-414"]}
{"id": "C96", "title": "The prepared blocking collectives compute their collective", "statement": "The schedules of the blocking allreduce, allgather and reduce_scatter_block that are generated for the chosen ports deliver the sums and the gathered blocks to all nodes.", "quantifier": "every number of nodes, every table of times, all data, all contents of uninitialised memory", "why_tests_cant": "All tables and sizes; the result depends on memory that is often zero.", "anchors": ["src/mpi/ext_mpi_blocking.c: 72-90, 177, 283, 325-343, 396", "src/mpi/ext_mpi_native_blocking.c: 208, 226, 242", "src/core/allreduce_recursive.c: 8-476"]}
{"id": "C97", "title": "Ports of the blocking reduce_scatter are the fastest", "statement": "The ports of the blocking reduce_scatter_block belong to factors that connect all nodes, respect the largest number of ports, and have the least estimated time of all such factors.", "quantifier": "every number of nodes and ports, every table of nonnegative times", "why_tests_cant": "The recursion enumerates exponentially many lists of factors, for all tables.", "anchors": ["src/core/cost_simple_recursive.c: 7-90", "src/mpi/ext_mpi_blocking.c: 223-254"]}
{"id": "C98", "title": "Requests that overlap or are repeated behave as if performed one at a time", "statement": "If all processes start and wait for any number of persistent requests in the same order, any number of times each, with new data before every start, every process receives from every wait what it would receive if the operations were performed one after the other, and no execution gets stuck.", "quantifier": "every number of nodes (one process each), every sequence of starts and waits and of tests between them, all data, all interleavings, with and without buffering by MPI", "why_tests_cant": "Processes may be any number of calls ahead of others; messages of an execution meet processes that are still in an earlier one. Tests see a few interleavings.", "anchors": ["src/mpi/ext_mpi_native.c: 233-281, 470-479", "src/mpi/ext_mpi_interface.c: 128-179, 213-221", "src/mpi/ext_mpi_native_exec.c: 255-300"]}
{"id": "C99", "title": "Started requests may be waited for in any order", "statement": "Two processes that have started the same persistent requests may wait for them in different orders: every wait returns.", "quantifier": "every number of nodes, all orders of starts and waits, all interleavings", "why_tests_cant": "The order of completion is up to the application; with messages that MPI buffers a test may pass.", "anchors": ["src/mpi/ext_mpi_native.c: 249-281", "src/mpi/ext_mpi_interface.c: 158-179"]}
{"id": "C100", "title": "Messages of different requests are not mixed up", "statement": "Whatever requests are initialised on whatever communicators, and in whatever order their messages are sent and received, a receive operation of a request gets the messages of this request in the order in which its partner has sent them, as if every request had its own connections.", "quantifier": "all sequences of initialisations on all communicators, overlapping or not; all sequences of send and receive operations of all requests", "why_tests_cant": "The tags are chosen by counters of the processes that depend on the whole history; a collision needs particular communicators and orders.", "anchors": ["src/mpi/ext_mpi_native.c: 70, 129-165, 470-479", "src/mpi/ext_mpi_native_exec.c: 258-281"]}
{"id": "C101", "title": "Requests can be initialised and freed any number of times", "statement": "A program that frees its persistent requests may initialise new ones any number of times: the tags that are passed to MPI stay in the range MPI guarantees.", "quantifier": "all sequences of initialisations, every value of MPI_TAG_UB", "why_tests_cant": "The range is left after at least 32768 initialisations.", "anchors": ["src/mpi/ext_mpi_native.c: 70, 470-479"]}
{"id": "C102", "title": "Persistent collectives with several processes per node can be executed again and again", "statement": "Any number of executions of a persistent collective, with changes of the buffers by the processes between them, gives the results of the executions performed one at a time; no execution gets stuck, has a race or touches a buffer while a message is pending. A process changes its buffers and starts the next execution as soon as its own part is at the end, while other processes of its node still read the shared memory.", "quantifier": "every number of nodes and of processes per node, every number of executions, all changes of own data between them, all data, all interleavings of single accesses to shared memory, with and without buffering by MPI", "why_tests_cant": "Shared memory and flags of one execution are used by the next one; a race needs a process that is much slower than the others of its node.", "anchors": ["src/mpi/ext_mpi_native.c: 233-281", "src/mpi/ext_mpi_native_exec.c: 48-78", "src/core/reduce_copyin.c: 485, 535", "src/core/raw_code_tasks_node.c: 100-253"]}
{"id": "C103", "title": "Alternating shared memories make the first barrier of a collective unnecessary", "statement": "By default a persistent collective has two programs with shared memories, flags and barrier counters of their own, which are used in turn, and the barrier at the start of the programs is removed. Any number of executions, with changes of the buffers by the processes between them, gives the results of the executions performed one at a time; no execution gets stuck, has a race or touches a buffer while a message is pending.", "quantifier": "every number of nodes and of processes per node, every number of executions, all changes of own data between them, all data, all interleavings of single accesses to shared memory, with and without buffering by MPI", "why_tests_cant": "Without the first barrier only the barriers of the execution in between keep an execution apart from the next but one, which uses the same shared memory; a race needs a process that is slow by more than one execution at a particular place.", "anchors": ["src/mpi/ext_mpi_native.c: 233-281, 497-538, 838, 1113, 1345, 1595", "src/core/no_first_barrier.c: 7-32", "src/mpi/ext_mpi_native_exec.c: 48-78", "src/mpi/ext_mpi.c: 273, 347, 573, 662, 843"]}
{"id": "C104", "title": "Removal of redundant barriers keeps persistent collectives correct", "statement": "The processes of a node agree on barriers that can be removed from their programs before these are translated. The agreement ends on every node, and any number of executions of the programs that remain, with changes of the buffers by the processes between them, gives the results of the executions performed one at a time; no execution gets stuck, has a race or touches a buffer while a message is pending. This includes programs with alternating shared memories, from which the first barrier is removed before or after the agreement.", "quantifier": "every number of nodes and of processes per node, every number of executions, all changes of own data between them, all data, all interleavings of single accesses to shared memory, with and without buffering by MPI, lines without effect anywhere in the programs", "why_tests_cant": "A barrier that was needed shows as a race between particular processes of a node, and processes that disagree about a barrier wait for each other for particular sizes of blocks only.", "anchors": ["src/mpi/clean_barriers.c: 17-82", "src/core/no_first_barrier.c: 7-32", "src/mpi/ext_mpi_native.c: 836-844, 1112-1120, 1594-1602"]}
{"id": "C105", "title": "The processes of a node agree on their segments of shared memory", "statement": "After the initialisation of a collective two processes of a node that refer to the segment of a socket refer to the same memory, segments of different sockets and of different nodes are different memory, a process can write to the segment of its own socket only, and a message between two sockets of a node is copied from the segment that the sender writes to. All processes assume the same size, which is sufficient for each of them.", "quantifier": "every number of nodes, sockets per node and processes per socket, in rows and columns, every assignment of identifiers by the system, all sizes", "why_tests_cant": "The numbers of the segments are rotated by the socket of a process; a wrong rotation needs three sockets to show, and a wrong size particular sizes on different processes.", "anchors": ["src/mpi/shmem.c: 87-211", "src/mpi/messages_shared_memory.c: 145-163"]}
{"id": "C106", "title": "Only processes on the same machine share memory", "statement": "The processes that are to share segments of shared memory run on the same machine, however MPI has placed the ranks.", "quantifier": "every number of processes, every placement on machines, every number of sockets", "why_tests_cant": "Tests run with the placement of one system, usually a single machine.", "anchors": ["src/mpi/ext_mpi.c: 187-218, 247-248", "src/mpi/shmem.c: 118-119"]}
{"id": "C107", "title": "Lack of shared memory is reported", "statement": "If the system does not provide a segment of shared memory, the initialisation returns an error and writes nowhere.", "quantifier": "every behaviour of shmget, shmat and malloc that their manual allows, every number of processes and sockets", "why_tests_cant": "Tests do not exhaust the shared memory of the system.", "anchors": ["src/mpi/shmem.c: 135-168, 212-213"]}
{"id": "C108", "title": "Names of objects of shared memory are unique and agreed (MMAP)", "statement": "In every initialisation the processes of a node open the same object of shared memory, and it is not that of another collective.", "quantifier": "every sequence of initialisations on communicators of processes of a machine, objects left over from earlier programs", "why_tests_cant": "It depends on which other collectives each of the processes has initialised before.", "anchors": ["src/mpi/shmem.c: 46-59, 99, 170-203"]}
{"id": "C109", "title": "Shared memory is released, and not too early", "statement": "When the processes of a node free a collective in any order, a segment exists until the last process has detached it, and afterwards no segment is left.", "quantifier": "every number of processes and segments, all interleavings of the calls", "why_tests_cant": "It depends on the order of the calls of the processes, which nothing synchronises.", "anchors": ["src/mpi/shmem.c: 18-43, 62-85, 207-210", "src/mpi/ext_mpi_native.c: 283-371"]}
{"id": "C110", "title": "Messages between the sockets of a node can be replaced by copies", "statement": "If programs with messages compute a result, then the programs in which the messages between sockets of a node are replaced by barriers of the node and copies from the segment of the sender compute the same result, end, and never get stuck.", "quantifier": "every number of sockets of a single node with one process each, all matched programs, all memories, all interleavings of the processes", "why_tests_cant": "A missing barrier or a copy from a wrong segment shows only under particular interleavings, or with three or more sockets.", "anchors": ["src/mpi/messages_shared_memory.c: 60-234", "src/mpi/ext_mpi_native_exec.c: 26-35"]}
{"id": "C111", "title": "Reducing directly from the segment of another socket does not change the result", "statement": "The pass that joins a copy from the segment of another socket with the reduction that follows it keeps correct programs correct: between the barriers of the node no process reads memory of another process that this process may change.", "quantifier": "all correct programs and all generated programs, every number of nodes and sockets, all interleavings", "why_tests_cant": "It depends on whether a process goes on after the second barrier before another one has read its memory.", "anchors": ["src/core/optimise_multi_socket.c: 7-63"]}
{"id": "C112", "title": "The recursive allreduce is right on a node with several sockets", "statement": "A persistent allreduce on a single node for which the user has set two or four sockets gives every process the sum over all processes.", "quantifier": "two and four sockets with one process each, all counts and values, the ports the library chooses for these numbers of sockets", "why_tests_cant": "It needs a number of sockets that the user sets by a variable of the environment or an info object, and as many processes.", "anchors": ["src/core/use_sendbuf_recvbuf.c: 33-56", "src/mpi/num_ports_factors.c: 38-65", "src/mpi/ext_mpi.c: 663, 682-684"]}
{"id": "C113", "title": "The result does not depend on the number of sockets that a measurement selects", "statement": "On a single node the library measures whether the processes are faster if they are treated as two or four sockets. Whatever the outcome, the processes of the node stay the same, several sockets are selected on a single node only, and the schedule between the sockets delivers the sum of all contributions, to every socket for allreduce, its part to every socket for reduce_scatter, and to the root for reduce.", "quantifier": "every number of processes, every outcome of the comparisons of times, every root, all contents", "why_tests_cant": "The number of sockets depends on times measured at run time; tests see the outcome of their machine.", "anchors": ["src/mpi/cost_copyin_measurement.c: 153-217", "src/mpi/num_ports_factors.c: 38-65", "src/mpi/ext_mpi.c: 457-495, 663-684, 757-795"]}
{"id": "C114", "title": "Collectives on a node with several sockets can be executed in a row without further synchronisation", "statement": "On a single node with several sockets a process may already execute the next collective while another process still executes the one before, and all of them use the same segments of shared memory. If every collective of a sequence is correct with messages when it starts after all processes have completed the one before, the sequence is correct after the messages have become copies between the segments: it ends for every interleaving and delivers the results of executing the collectives one by one. In particular an allreduce that is executed any number of times in a row delivers the sums of the send buffers each time.", "quantifier": "every number of sockets, every list of programs, every number of executions, all interleavings, all contents", "why_tests_cant": "A process that runs ahead and overwrites a segment another process still reads does so only for rare timings, and the effect depends on the sequence of collectives.", "anchors": ["src/mpi/messages_shared_memory.c: 96-200", "src/mpi/ext_mpi_native_exec.c: 26-60, 343-358"]}
