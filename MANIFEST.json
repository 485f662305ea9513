{
 "claims": [
  {
   "property": "C01",
   "status": "proved",
   "theorems": [
    "ExtMpi.Barrier.barrier_separates",
    "ExtMpi.Barrier.barrier_lockstep"
   ],
   "note": "Both on-node barriers, any group size up to 2^30, any schedule; 32-bit counters; sequentially consistent memory."
  },
  {
   "property": "C02",
   "status": "proved",
   "theorems": [
    "ExtMpi.Barrier.barrier_no_deadlock",
    "ExtMpi.Barrier.barrier_live"
   ],
   "note": "Some process can always move; every fair schedule completes every barrier."
  },
  {
   "property": "C03",
   "status": "proved",
   "theorems": [
    "ExtMpi.Barrier.barrier_separates",
    "ExtMpi.Barrier.barrier_live"
   ],
   "note": "The theorems are about wrapping 32-bit counters and schedules of unbounded length."
  },
  {
   "property": "C04",
   "status": "partial",
   "theorems": [
    "ExtMpi.Barrier.exec_test_inverted",
    "ExtMpi.Barrier.test_spec_violated",
    "ExtMpi.Barrier.polling_never_advances",
    "ExtMpi.Barrier.exec_wait_partial"
   ],
   "note": "The code violates the property: the outcome of the test is used inverted. Negation proved for every state; only the behaviour under Wait holds."
  },
  {
   "property": "C05",
   "status": "proved",
   "theorems": [
    "ExtMpi.Handles.create_fresh",
    "ExtMpi.Handles.live_ops_defined",
    "ExtMpi.Handles.live_program",
    "ExtMpi.Handles.test_flag"
   ],
   "note": "Every history of create/start/test/wait/done/progress on live handles."
  },
  {
   "property": "C06",
   "status": "proved",
   "theorems": [
    "ExtMpi.HashTable.table_refines_map",
    "ExtMpi.HashTable.table_search_any_state"
   ],
   "note": "Refinement to a finite map for histories with fewer than 256 registrations, and from every state with a never-used slot."
  },
  {
   "property": "C07",
   "status": "partial",
   "theorems": [
    "ExtMpi.HashTable.search_may_diverge",
    "ExtMpi.HashTable.search_terminates_violated",
    "ExtMpi.HashTable.search_terminates_partial",
    "ExtMpi.HashTable.live_lookup_terminates_partial"
   ],
   "note": "The code violates the property: 256 create/free cycles fill the table with tombstones and the lookup of an unregistered request loops forever. Termination proved for fewer than 256 registrations and for registered requests."
  },
  {
   "property": "C08",
   "status": "partial",
   "theorems": [
    "ExtMpi.Interface.testall_partial",
    "ExtMpi.Interface.testall_ignore_always",
    "ExtMpi.Interface.testall_ignore_violated"
   ],
   "note": "Violated with MPI_STATUSES_IGNORE: the flag is always true. Proved with statuses."
  },
  {
   "property": "C09",
   "status": "partial",
   "theorems": [
    "ExtMpi.Interface.testany_spec",
    "ExtMpi.Interface.waitany_spec",
    "ExtMpi.Interface.testsome_violated",
    "ExtMpi.Interface.testsome_partial"
   ],
   "note": "Testany and Waitany proved; Testsome violates it (outcount is always 1)."
  },
  {
   "property": "C10",
   "status": "partial",
   "theorems": [
    "ExtMpi.Cyclic.allgather_partial",
    "ExtMpi.Cyclic.allgather_exact",
    "ExtMpi.Cyclic.allgather_iff",
    "ExtMpi.Cyclic.allgather_violated"
   ],
   "note": "Characterised exactly: for every number of nodes and all port counts that reach it the allgather is correct if and only if in every step that still lacks blocks no partner is too far away, or there are at most two ports, or only the last partner is too far and it lies one block beyond the node itself (allgather_iff). In particular all factorisations; otherwise no execution completes (e.g. 5 nodes, ports 1 and 3)."
  },
  {
   "property": "C11",
   "status": "proved",
   "theorems": [
    "ExtMpi.Recursive.allgather_correct"
   ],
   "note": "Every list of port counts; execution semantics of raw_code with one process per node."
  },
  {
   "property": "C12",
   "status": "proved",
   "theorems": [
    "ExtMpi.Recursive.reduceScatter_correct"
   ],
   "note": "Every list of port counts; over any commutative monoid."
  },
  {
   "property": "C13",
   "status": "proved",
   "theorems": [
    "ExtMpi.Recursive.allreduce_correct"
   ],
   "note": "Every combination of negative, middle and positive ports whose outer factors agree."
  },
  {
   "property": "C14",
   "status": "partial",
   "theorems": [
    "ExtMpi.Recursive.recursive_matched",
    "ExtMpi.CyclicReduce.reduceScatter_matched",
    "ExtMpi.CyclicReduce.allreduce_matched_partial",
    "ExtMpi.Cyclic.cyclic_matched_partial",
    "ExtMpi.Cyclic.cyclic_matched_iff",
    "ExtMpi.Cyclic.matched_violated"
   ],
   "note": "Recursive algorithms and cyclic reduce_scatter completely; cyclic allgather if and only if the port counts suit (cyclic_matched_iff); cyclic allreduce unless the port counts overshoot, where the schedule does not exist (C51)."
  },
  {
   "property": "C15",
   "status": "proved",
   "theorems": [
    "ExtMpi.Codec.algorithm_roundtrip",
    "ExtMpi.Codec.algorithm_injective"
   ],
   "note": "Every algorithm with counts below 2^31; bytes as written by the binary format."
  },
  {
   "property": "C16",
   "status": "proved",
   "theorems": [
    "ExtMpi.Codec.asm_roundtrip",
    "ExtMpi.Codec.asm_prefix",
    "ExtMpi.Codec.asm_reject",
    "ExtMpi.Codec.stream_roundtrip"
   ],
   "note": "Every format of integers and enumerators and every list of lines of at most 99 bytes."
  },
  {
   "property": "C17",
   "status": "proved",
   "theorems": [
    "ExtMpi.Codec.message_roundtrip",
    "ExtMpi.Codec.copy_roundtrip"
   ],
   "note": "Messages, copies and reductions with all kinds of operands."
  },
  {
   "property": "C18",
   "status": "proved",
   "theorems": [
    "ExtMpi.Text.ports_groups_roundtrip"
   ],
   "note": "Every setting of at least one group; the text of the empty setting is undefined (print_empty). The fixed buffer of 10000 characters is not modelled."
  },
  {
   "property": "C19",
   "status": "proved",
   "theorems": [
    "ExtMpi.ParallelMemcpy.parallel_pieces_exact",
    "ExtMpi.ParallelMemcpy.copyin_chunks_exact",
    "ExtMpi.ParallelMemcpy.copyin_rounds"
   ],
   "note": "Pieces of parallel_memcpy and chunks and rounds of reduce_copyin, every size, element size and number of processes."
  },
  {
   "property": "C20",
   "status": "partial",
   "theorems": [
    "ExtMpi.ParallelMemcpy.parallel_partial",
    "ExtMpi.ParallelMemcpy.parallel_violated"
   ],
   "note": "Every barrier-separated program, memory and interleaving, provided message lines do not lie between the copies of one run; with such a line the code reduces elements twice (negation proved)."
  },
  {
   "property": "C21",
   "status": "partial",
   "theorems": [
    "ExtMpi.Merge.merge_partial",
    "ExtMpi.Merge.merge_bufferKind_violated",
    "ExtMpi.Merge.merge_backward_violated",
    "ExtMpi.Merge.merge_overlap_violated"
   ],
   "note": "Holds when adjacent comparable lines use the same kinds of buffers and, merged downwards, have equal sizes; three negations proved."
  },
  {
   "property": "C22",
   "status": "partial",
   "theorems": [
    "ExtMpi.BufferOffset.layout_partial",
    "ExtMpi.BufferOffset.noOffset_copy",
    "ExtMpi.BufferOffset.layout_msg_violated",
    "ExtMpi.BufferOffset.noOffset_sreduc_violated"
   ],
   "note": "Proved for all operands of copies and reductions; operands of messages are not considered by the layout and esreduc_ lines are not rewritten (negations proved)."
  },
  {
   "property": "C23",
   "status": "partial",
   "theorems": [
    "ExtMpi.RankPerm.heuristic_positive_partial",
    "ExtMpi.RankPerm.heuristic_stable_partial",
    "ExtMpi.RankPerm.heuristic_violated",
    "ExtMpi.RankPerm.forward_backward_positive_partial",
    "ExtMpi.RankPerm.forward_backward_stable_partial",
    "ExtMpi.RankPerm.relabel_exec",
    "ExtMpi.RankPerm.relabel_allreduce"
   ],
   "note": "Proved for positive sizes with any qsort and for non-negative sizes with a stable qsort; with an unstable qsort and a node without data the heuristic does not return a permutation (negation proved). Translated schedules compute the same collective, for all permutations and schedules whose messages of one step do not overlap."
  },
  {
   "property": "C24",
   "status": "proved",
   "theorems": [
    "ExtMpi.Numeric.messageSizes_spec"
   ],
   "note": "All counts, element sizes and numbers of nodes."
  },
  {
   "property": "C25",
   "status": "proved",
   "theorems": [
    "ExtMpi.Numeric.plain_spec",
    "ExtMpi.Numeric.factorsMinimum_spec"
   ],
   "note": "All positive numbers; the sieve is modelled as in the code."
  },
  {
   "property": "C26",
   "status": "proved",
   "theorems": [
    "ExtMpi.Numeric.padding_spec",
    "ExtMpi.Numeric.paddingFactor_spec"
   ],
   "note": "Local version and the version that combines the ranks."
  },
  {
   "property": "C27",
   "status": "partial",
   "theorems": [
    "ExtMpi.Waitany.waitany_direct_partial",
    "ExtMpi.Waitany.waitany_accumulate_partial",
    "ExtMpi.Waitany.pass_refines_partial",
    "ExtMpi.Waitany.order_violated",
    "ExtMpi.Waitany.accumulate_violated",
    "ExtMpi.Waitany.pass_barrier_violated",
    "ExtMpi.Waitany.pass_erase"
   ],
   "note": "For every arrival order and every commutative monoid memory and sent data are those of the fixed order, for one wait and for whole programs, provided the i-th reduction after a wait reads only the message of request i. The pass attaches by position, so this does not hold for every program it produces (negations proved). Missing: nothing enforces the condition in the code."
  },
  {
   "property": "C28",
   "status": "proved",
   "theorems": [
    "ExtMpi.BarrierPasses.clean_barriers",
    "ExtMpi.BarrierPasses.clean_deadlock",
    "ExtMpi.BarrierPasses.no_first",
    "ExtMpi.BarrierPasses.no_socket",
    "ExtMpi.BarrierPasses.in_step"
   ],
   "note": "Every set of programs with the same barriers. In addition two pieces of work are separated by a barrier afterwards iff they were before. With different numbers of barriers the pass itself never ends."
  },
  {
   "property": "C29",
   "status": "proved",
   "theorems": [
    "ExtMpi.ByteCode.size_in_advance",
    "ExtMpi.ByteCode.reads_back",
    "ExtMpi.ByteCode.program_total",
    "ExtMpi.ByteCode.ungrouped_stops"
   ],
   "note": "Every program whose buffer numbers and partners exist; the second run may use other pointers and ranks. Reading back needs the groups of a wait for any message to be complete, otherwise the interpreter stops with an error (ungrouped_stops). CPU code only."
  },
  {
   "property": "C30",
   "status": "proved",
   "theorems": [
    "ExtMpi.Handles.alternate",
    "ExtMpi.Handles.live_program"
   ],
   "note": "Handle table level: consecutive starts run the two programs in turn."
  },
  {
   "property": "C31",
   "status": "proved",
   "theorems": [
    "ExtMpi.Blocking.pick_spec"
   ],
   "note": "Every sorted list of capacities and every count; the largest one is used when none suffices."
  },
  {
   "property": "C32",
   "status": "partial",
   "theorems": [
    "ExtMpi.Blocking.inside",
    "ExtMpi.Blocking.tiling_partial",
    "ExtMpi.Blocking.tiling_violated"
   ],
   "note": "Accesses inside the user's vectors for every program, count and element size. Tilings are preserved when the pieces are multiples of the unit; the unit computed by the code does not ensure this (negation proved)."
  },
  {
   "property": "C33",
   "status": "proved",
   "theorems": [
    "ExtMpi.Interface.single_isolated",
    "ExtMpi.Interface.waitall_isolated",
    "ExtMpi.Interface.waitall_error"
   ],
   "note": "Single requests and mixed arrays; the underlying MPI is arbitrary."
  },
  {
   "property": "C34",
   "status": "proved",
   "theorems": [
    "ExtMpi.Interface.regular_spec"
   ],
   "note": "For totals that fit an int."
  },
  {
   "property": "C35",
   "status": "proved",
   "theorems": [
    "ExtMpi.Numeric.tasksPerSocket_spec"
   ],
   "note": "Every list of node sizes."
  },
  {
   "property": "C36",
   "status": "proved",
   "theorems": [
    "ExtMpi.Numeric.revert_spec",
    "ExtMpi.Numeric.revert_revert"
   ],
   "note": "Every setting of non-empty groups of positive group sizes."
  },
  {
   "property": "C37",
   "status": "partial",
   "theorems": [
    "ExtMpi.Rooted.backward_partial",
    "ExtMpi.Rooted.drops_match_partial",
    "ExtMpi.Rooted.reduce_partial",
    "ExtMpi.Rooted.gather_partial",
    "ExtMpi.Rooted.gather_cyclic_partial",
    "ExtMpi.Rooted.gather_exact",
    "ExtMpi.Rooted.reduce_cyclic_partial",
    "ExtMpi.Rooted.reduce_exact",
    "ExtMpi.Rooted.gather_recursive",
    "ExtMpi.Rooted.reduce_recursive",
    "ExtMpi.Rooted.gather_violated"
   ],
   "note": "Reduce and gather: for every schedule in which partners of a line differ, no line is sent and received in one step and each message is dropped or kept as a whole, the root's result is unchanged whatever unused memory contains. A message of which only some lines are dropped is packed wrongly (negation proved with the cyclic gather on seven nodes). For the cyclic gather and reduce the condition is reduced to one on node count and ports (WholeUp), which holds for every product, and the result is proved for every root and every such list. For the recursive algorithm gather and reduce are proved for every root and every list of ports (reduce: every balanced list). Missing: unmixed cyclic reduces with an incomplete first part. The forward pass is C71 and C72."
  },
  {
   "property": "C38",
   "status": "proved",
   "theorems": [
    "ExtMpi.Interface.comm_ids_distinct"
   ],
   "note": "Every history of creations and releases."
  },
  {
   "property": "C39",
   "status": "partial",
   "theorems": [
    "ExtMpi.Handles.progress_undefined_without_handles",
    "ExtMpi.Handles.progress_partial"
   ],
   "note": "Violated without live handles (NULL dereference): negation proved; holds while a handle is live."
  },
  {
   "property": "C40",
   "status": "partial",
   "theorems": [
    "ExtMpi.Interface.waitany_repeats",
    "ExtMpi.Interface.waitany_once_violated"
   ],
   "note": "Violated: negation proved; inactive requests count as complete, so index 0 is returned again and again."
  },
  {
   "property": "C41",
   "status": "partial",
   "theorems": [
    "ExtMpi.Interface.foreign_comm_undefined"
   ],
   "note": "Violated in every reachable state: negation proved."
  },
  {
   "property": "C42",
   "status": "partial",
   "theorems": [
    "ExtMpi.Numeric.gcd_is_lcm",
    "ExtMpi.Numeric.gcd_violated"
   ],
   "note": "Violated: the function computes the least common multiple for all positive arguments; negation proved."
  },
  {
   "property": "C43",
   "status": "partial",
   "theorems": [
    "ExtMpi.Numeric.factorSqrt_partial",
    "ExtMpi.Numeric.factorSqrt_one_violated"
   ],
   "note": "Holds from 2 on; for 1 the code returns 0."
  },
  {
   "property": "C44",
   "status": "proved",
   "theorems": [
    "ExtMpi.Text.copyin_roundtrip"
   ],
   "note": "Every method and list of factors."
  },
  {
   "property": "C45",
   "status": "partial",
   "theorems": [
    "ExtMpi.RankPerm.sizes_violated",
    "ExtMpi.RankPerm.sizes_involution_partial"
   ],
   "note": "Violated when the permutation is not its own inverse (negation proved); proved for involutions."
  },
  {
   "property": "C46",
   "status": "partial",
   "theorems": [
    "ExtMpi.WaitanyLook.sent_intact_partial",
    "ExtMpi.Waitany.sent_violated",
    "ExtMpi.WaitanyLook.look_violated",
    "ExtMpi.WaitanyLook.look_repaired"
   ],
   "note": "Proved when the reductions of a direct group stay outside of the send buffers, or the group accumulates. The look-ahead that selects between both reads at the wrong position and misses conflicts (negation proved for every operand)."
  },
  {
   "property": "C47",
   "status": "partial",
   "theorems": [
    "ExtMpi.Blocking.unit_partial",
    "ExtMpi.Blocking.unit_violated"
   ],
   "note": "Bytes and elements are mixed (negation proved). Proved for programs in which every common divisor of the sizes of reductions divides all sizes and offsets in elements."
  },
  {
   "property": "C48",
   "status": "partial",
   "theorems": [
    "ExtMpi.Blocking.messages_partial",
    "ExtMpi.Blocking.seenFlags_stuck",
    "ExtMpi.Blocking.messages_violated"
   ],
   "note": "The sender stops looking up receive buffers at the first one with relocated address 0 (negation proved with an allreduce on two processes); proved when there is none."
  },
  {
   "property": "C49",
   "status": "partial",
   "theorems": [
    "ExtMpi.Blocking.blocking_allreduce_partial",
    "ExtMpi.Blocking.messages_violated",
    "ExtMpi.Blocking.uneven_violated"
   ],
   "note": "Every program, count, element size and commutative monoid, provided the unit divides the pieces (C47), the sender knows the receive buffers (C48) and the prepared program combines no elements of different positions and writes no send buffer. For programs that fail C47 and for programs that fail C48 the negation is proved."
  },
  {
   "property": "C50",
   "status": "proved",
   "theorems": [
    "ExtMpi.CyclicReduce.reduceScatter_correct",
    "ExtMpi.CyclicReduce.reduceScatter_matched"
   ],
   "note": "Every number of nodes, every list of ports that reaches it, every commutative monoid, all scratch contents."
  },
  {
   "property": "C51",
   "status": "partial",
   "theorems": [
    "ExtMpi.CyclicReduce.allreduce_correct_partial",
    "ExtMpi.CyclicReduce.allreduce_exact",
    "ExtMpi.CyclicReduce.allreduce_few_ports",
    "ExtMpi.CyclicReduce.core_isSome_iff",
    "ExtMpi.CyclicReduce.allreduce_correct_iff",
    "ExtMpi.CyclicReduce.overshoot_violated",
    "ExtMpi.CyclicReduce.allreduce_overshoot"
   ],
   "note": "Characterised exactly: for every number of nodes and every list of reduction ports the schedule exists and is correct if and only if the gather ports satisfy Fits (in each step that still lacks messages at most two ports, or no partner farther away than the number of nodes). For all other lists the clean-up reads outside of its array."
  },
  {
   "property": "C52",
   "status": "proved",
   "theorems": [
    "ExtMpi.RawCode.allreduce_recursive",
    "ExtMpi.RawCode.early_read_incorrect"
   ],
   "note": "Recursive algorithm, one process per node, as emitted by copy-in, raw_code and copy-out; every timing of the messages, with and without buffering in MPI; no access to the buffer of a pending message (early_read_incorrect shows that the statement excludes it). The passes between this program and the byte code are covered by other claims or not modelled."
  },
  {
   "property": "C53",
   "status": "proved",
   "theorems": [
    "ExtMpi.RawCode.allgather_recursive",
    "ExtMpi.RawCode.allgather_cyclic"
   ],
   "note": "Recursive algorithm for every list of ports, cyclic algorithm for every list that suits the number of nodes (for all others the messages of the schedule do not match, C14); one process per node, every timing of the messages."
  },
  {
   "property": "C54",
   "status": "proved",
   "theorems": [
    "ExtMpi.RawCode.reduceScatter_recursive"
   ],
   "note": "Recursive algorithm, one process per node, every timing of the messages."
  },
  {
   "property": "C55",
   "status": "proved",
   "theorems": [
    "ExtMpi.RawCode.reduceScatter_cyclic"
   ],
   "note": "Every number of nodes, one process per node, every timing of the messages."
  },
  {
   "property": "C56",
   "status": "partial",
   "theorems": [
    "ExtMpi.RawCode.allreduce_cyclic_partial"
   ],
   "note": "Every number of nodes and every list of gather ports that fits (each port count is at most 2 or does not overshoot, in particular all exact factorisations); one process per node, every timing of the messages. For all other lists the generator reads outside of an array (C51, core_isSome_iff)."
  },
  {
   "property": "C57",
   "status": "proved",
   "theorems": [
    "ExtMpi.OnNode.onNode_allreduce",
    "ExtMpi.OnNode.measured_sound",
    "ExtMpi.OnNode.onNode_correct",
    "ExtMpi.OnNode.singleBlock_core"
   ],
   "note": "Single node, one socket, no GPU; counters of the barriers unbounded (their wrap-around is C01). Every interleaving of element accesses and flag accesses in a sequentially consistent memory."
  },
  {
   "property": "C58",
   "status": "partial",
   "theorems": [
    "ExtMpi.OnNode.onNode_userFactors_partial",
    "ExtMpi.OnNode.onNode_correct",
    "ExtMpi.OnNode.onNode_deadlock_violated",
    "ExtMpi.OnNode.onNode_product_small_violated",
    "ExtMpi.OnNode.onNode_product_large_violated",
    "ExtMpi.OnNode.onNode_half_small_violated"
   ],
   "note": "Proved for the plain method with factors whose product is the number of processes (onNode_correct: also larger products for small messages and the almost-half method for large ones). Other settings are accepted and hang or give wrong sums: four negations proved."
  },
  {
   "property": "C59",
   "status": "proved",
   "theorems": [
    "ExtMpi.OnNode.fast_bytes"
   ],
   "note": "Every size, element, instance and flag."
  },
  {
   "property": "C60",
   "status": "partial",
   "theorems": [
    "ExtMpi.OnNode.onNode_allreduce",
    "ExtMpi.OnNode.onNode_empty_violated"
   ],
   "note": "Every positive count; with count 0 the generator divides by zero on a single node (negation proved for all parameters)."
  },
  {
   "property": "C61",
   "status": "proved",
   "theorems": [
    "ExtMpi.Optimise.allreduce_direct"
   ],
   "note": "Recursive algorithm, one process per node, after the passes buffer_offset, optimise_buffers, optimise_buffers2, raw_code_merge, no_socket_barriers and use_sendbuf_recvbuf; every size of a cache line, every timing of the messages. Send and receive buffer differ (C65). The optional waitany pass is C27."
  },
  {
   "property": "C62",
   "status": "partial",
   "theorems": [
    "ExtMpi.Optimise.reduceScatter_direct",
    "ExtMpi.OnePerNode.reduceScatter_equal_partial",
    "ExtMpi.OnePerNode.reduceScatter_violated"
   ],
   "note": "Proved for equal counts (MPI_Reduce_scatter_block); for counts that differ the code works with relabelled ranks and gives wrong results (negation proved). Without the relabelling the programs are right for all counts (reduceScatter_direct)."
  },
  {
   "property": "C63",
   "status": "partial",
   "theorems": [
    "ExtMpi.Optimise.allgather_direct_partial",
    "ExtMpi.OnePerNode.allgather_equal_partial",
    "ExtMpi.OnePerNode.allgatherv_order_violated",
    "ExtMpi.OnePerNode.allgatherv_zero_violated"
   ],
   "note": "Proved for equal positive counts (MPI_Allgather); counts that differ or are 0 fail (negations proved). Without the relabelling the programs are right for all positive counts (allgather_direct_partial)."
  },
  {
   "property": "C64",
   "status": "partial",
   "theorems": [
    "ExtMpi.OnePerNode.allgatherv_displs_violated",
    "ExtMpi.OnePerNode.allgather_equal_partial"
   ],
   "note": "The displacements are not used (negation proved); proved for equal counts and the displacements of consecutive blocks."
  },
  {
   "property": "C65",
   "status": "partial",
   "theorems": [
    "ExtMpi.OnePerNode.inPlace_violated",
    "ExtMpi.OnePerNode.inPlace_recursive_partial",
    "ExtMpi.OnePerNode.inPlace_cyclic_partial"
   ],
   "note": "The optimised program of the recursive algorithm with one process per node violates the rules of MPI in place (negation proved). The programs before these passes are right in place, for the recursive and the cyclic algorithm."
  },
  {
   "property": "C66",
   "status": "partial",
   "theorems": [
    "ExtMpi.TasksNode.distributed_recursive",
    "ExtMpi.TasksNode.distributed_cyclic_partial",
    "ExtMpi.TasksNode.distributed_violated"
   ],
   "note": "Proved for the recursive algorithm with every relabelling and for the cyclic algorithm without relabelling (equal sizes of the nodes) and all port counts with which it is correct at all (C10). With relabelled nodes the cyclic algorithm violates it (negation proved)."
  },
  {
   "property": "C67",
   "status": "partial",
   "theorems": [
    "ExtMpi.TasksNode.allgather_recursive",
    "ExtMpi.TasksNode.allgather_cyclic_partial",
    "ExtMpi.TasksNode.allgather_cyclic_violated"
   ],
   "note": "Programs before the optimisation passes. Proved for the recursive algorithm with every relabelling and for the cyclic algorithm without relabelling and all port counts with which it is correct at all (C10); the cyclic algorithm on relabelled nodes hangs (negation proved)."
  },
  {
   "property": "C68",
   "status": "partial",
   "theorems": [
    "ExtMpi.Cluster.allreduce_recursive",
    "ExtMpi.Cluster.allreduce_cyclic_partial"
   ],
   "note": "Programs before the optimisation passes, at least one element. Recursive algorithm: proved for all balanced lists of ports. Cyclic algorithm: lists of ports that fit; for all others the generator reads outside of an array (C51)."
  },
  {
   "property": "C69",
   "status": "partial",
   "theorems": [
    "ExtMpi.Cluster.reduceScatter_recursive",
    "ExtMpi.Cluster.reduceScatter_cyclic"
   ],
   "note": "Programs before the optimisation passes, at least one element, nodes in their own order. The library leaves the nodes in their order only if they get equal numbers of elements; for others it relabels them, which C62 shows to be wrong."
  },
  {
   "property": "C70",
   "status": "partial",
   "theorems": [
    "ExtMpi.Cluster.allgather_recursive",
    "ExtMpi.Cluster.allgather_cyclic_partial",
    "ExtMpi.TasksNode.allgather_cyclic_violated"
   ],
   "note": "Programs before the optimisation passes. Recursive algorithm: every relabelling. Cyclic algorithm: without relabelling and all port counts with which it is correct at all (C10); with it the programs hang (negation of C67, on the machine with atomic barriers)."
  },
  {
   "property": "C71",
   "status": "partial",
   "theorems": [
    "ExtMpi.Forward.bcast_exact",
    "ExtMpi.Forward.bcast_cyclic_partial",
    "ExtMpi.Forward.bcast_partial",
    "ExtMpi.Forward.bcast_of",
    "ExtMpi.Forward.bcast_violated"
   ],
   "note": "One process per node. Proved for the cyclic algorithm with every root and every number of nodes that is the product of the ports plus one in both parts (bcast_exact), more generally for all lists of ports that fit and with which no chunk is mixed (bcast_cyclic_partial), and for every schedule of a correct allreduce whose first lines are in the order of the copy-in of the root, which meets the conditions of FWf and whose messages are dropped or kept as a whole. With the recursive algorithm every root but node 0 sends the messages in a wrong order (negation proved). Missing: cyclic schedules without a complete reduction part."
  },
  {
   "property": "C72",
   "status": "partial",
   "theorems": [
    "ExtMpi.Forward.scatter_exact",
    "ExtMpi.Forward.scatter_cyclic_partial",
    "ExtMpi.Forward.scatter_partial",
    "ExtMpi.Forward.scatter_of",
    "ExtMpi.Forward.scatter_violated"
   ],
   "note": "One process per node. Proved for the cyclic algorithm with every number of nodes, every root and every list of ports whose product is the number of nodes (scatter_exact), more generally for all lists of ports with which no chunk is mixed (scatter_cyclic_partial), and for every schedule of a correct reduce_scatter under the conditions of C71. Messages of which only some lines are dropped are delivered wrongly (negation proved with the cyclic algorithm on seven nodes), so that the statement for all lists of ports is false."
  },
  {
   "property": "C73",
   "status": "proved",
   "theorems": [
    "ExtMpi.PortChoice.allgather_default",
    "ExtMpi.PortChoice.reduceScatter_default",
    "ExtMpi.PortChoice.allreduce_default"
   ],
   "note": "Every number of nodes, every table of times (an arbitrary function into a linear order), recursive and cyclic generators, whenever the choice is defined (C74). Data flow of the schedule; one process per node, or the sums of the nodes."
  },
  {
   "property": "C74",
   "status": "partial",
   "theorems": [
    "ExtMpi.PortChoice.choice_defined_partial",
    "ExtMpi.PortChoice.three_nodes_violated",
    "ExtMpi.PortChoice.single_node_violated",
    "ExtMpi.PortChoice.table_violated"
   ],
   "note": "2 to 3564 nodes; with one process per node not 3 or 5. Negations proved for the rest: on a single node always, for 3 and 5 nodes with some tables of times and always with minimal computation, from 3565 nodes on."
  },
  {
   "property": "C75",
   "status": "proved",
   "theorems": [
    "ExtMpi.PortChoice.fastest"
   ],
   "note": "The estimated time is an arbitrary function into a linear order; lists without a time below 1e99 do not count."
  },
  {
   "property": "C76",
   "status": "proved",
   "theorems": [
    "ExtMpi.Groups.allreduce_correct"
   ],
   "note": "All numbers, sizes and ports of groups that satisfy Plan.Ok; any commutative monoid. Data flow of the schedule, one process per node or the sums of the nodes. Several middle groups are rejected (C78)."
  },
  {
   "property": "C77",
   "status": "proved",
   "theorems": [
    "ExtMpi.Groups.minimal_computation"
   ],
   "note": "Every number of nodes from two on for which the arrays suffice (C74), recursive and cyclic generators."
  },
  {
   "property": "C78",
   "status": "partial",
   "theorems": [
    "ExtMpi.Groups.allgather_partial",
    "ExtMpi.Groups.reduceScatter_partial",
    "ExtMpi.Groups.allgather_violated",
    "ExtMpi.Groups.reduceScatter_violated"
   ],
   "note": "Proved for a single group and all port counts with which it is correct at all (C10). With several groups the negation is proved for all sizes and ports: entries that were never written are read (Allgather) or an entry behind the end of a table is written (Reduce_scatter)."
  },
  {
   "property": "C79",
   "status": "partial",
   "theorems": [
    "ExtMpi.RootNode.rooted_partial",
    "ExtMpi.RootNode.rooted_recursive_partial",
    "ExtMpi.RootNode.same_node",
    "ExtMpi.RootNode.gather_violated",
    "ExtMpi.RootNode.reduce_violated",
    "ExtMpi.RootNode.gather_recursive_violated",
    "ExtMpi.RootNode.reduce_recursive_violated",
    "ExtMpi.RootNode.bcast_violated",
    "ExtMpi.RootNode.scatter_violated",
    "ExtMpi.RootNode.gather_small_violated",
    "ExtMpi.RootNode.bcast_small_violated"
   ],
   "note": "Proved for the cyclic algorithm (number of nodes equal to the product), and for gathers and reduces of the recursive algorithm with any list of ports, if the root is process 0 or a node has one process. For roots whose rank is at least the number of nodes the negation is proved for every well-formed schedule, in particular for gathers and reduces of the recursive algorithm with any list of ports, for which the pass succeeds; for smaller ranks there are witnesses on two nodes. Level of the schedules: which data the nodes have, not the work of the processes of a node."
  },
  {
   "property": "C80",
   "status": "proved",
   "theorems": [
    "ExtMpi.SingleNode.reduceScatter_correct"
   ],
   "note": "All numbers of processes, counts and executions; every interleaving of single accesses (sequentially consistent memory). Two or more processes; settings given by the user (the choice of the library is undefined on one node, C74)."
  },
  {
   "property": "C81",
   "status": "partial",
   "theorems": [
    "ExtMpi.SingleNode.bcast_partial",
    "ExtMpi.SingleNode.bcast_violated"
   ],
   "note": "Proved for more than 56 bytes. For at most 56 bytes the negation is proved for all numbers of processes, roots and sizes: nobody writes what is copied out."
  },
  {
   "property": "C82",
   "status": "proved",
   "theorems": [
    "ExtMpi.SingleNode.scatter_correct"
   ],
   "note": "As C80, all roots."
  },
  {
   "property": "C83",
   "status": "partial",
   "theorems": [
    "ExtMpi.SingleNode.allgather_partial",
    "ExtMpi.SingleNode.gather_partial",
    "ExtMpi.SingleNode.allgather_violated",
    "ExtMpi.SingleNode.gather_violated"
   ],
   "note": "Allgather, and gather to process 0, are proved for more than 56 bytes in total. The negation is proved for all smaller sizes and, for the gather, for all other roots and all sizes."
  },
  {
   "property": "C84",
   "status": "proved",
   "theorems": [
    "ExtMpi.SingleNode.reduce_correct",
    "ExtMpi.SingleNode.reduce_sound"
   ],
   "note": "All choices of the factors that the library makes (reduce_correct) and all settings that satisfy Par.Sound (reduce_sound)."
  },
  {
   "property": "C85",
   "status": "partial",
   "theorems": [
    "ExtMpi.Settings.readEnv_partial",
    "ExtMpi.Settings.same_partial",
    "ExtMpi.Settings.same_number",
    "ExtMpi.Settings.same_violated"
   ],
   "note": "Proved for all settings but that of the self-test, for every environment and number of processes; for that one if EXT_MPI_DEBUG is not set, empty or a number. Negation proved for all other values."
  },
  {
   "property": "C86",
   "status": "partial",
   "theorems": [
    "ExtMpi.Settings.calls_partial",
    "ExtMpi.Settings.debug_zero_violated",
    "ExtMpi.Settings.debug_calls_violated"
   ],
   "note": "Same calls on all processes unless the value is no number. Negations: no number switches the test off; every other text does so on process 0 only."
  },
  {
   "property": "C87",
   "status": "partial",
   "theorems": [
    "ExtMpi.SelfTest.bcast_unchanged",
    "ExtMpi.SelfTest.gatherv_other",
    "ExtMpi.SelfTest.allreduce_overwrites",
    "ExtMpi.SelfTest.allreduce_input_violated",
    "ExtMpi.SelfTest.allgatherv_overwrites",
    "ExtMpi.SelfTest.init_off",
    "ExtMpi.SelfTest.reduce_other",
    "ExtMpi.SelfTest.reduce_overwrites",
    "ExtMpi.SelfTest.reduceScatter_overwrites",
    "ExtMpi.SelfTest.scatterv_overwrites"
   ],
   "note": "Proved for bcast, for gatherv and reduce on processes other than the root, and with the test switched off. Negation for the rest: the receive buffer contains the result for the test data afterwards, for all counts and types of 4 or 8 bytes (scatterv: where the test itself is defined)."
  },
  {
   "property": "C88",
   "status": "partial",
   "theorems": [
    "ExtMpi.SelfTest.allreduce_safe",
    "ExtMpi.SelfTest.reduce_safe",
    "ExtMpi.SelfTest.reduceScatter_safe",
    "ExtMpi.SelfTest.bcast_safe",
    "ExtMpi.SelfTest.allgatherv_safe",
    "ExtMpi.SelfTest.scatterv_safe_partial",
    "ExtMpi.SelfTest.scatterv_violated",
    "ExtMpi.SelfTest.scatterv_order_violated",
    "ExtMpi.SelfTest.allreduce_small_violated"
   ],
   "note": "Proved for all collectives and types of 4 and 8 bytes but scatterv, which is proved for 8 bytes if the part of the last process is the furthest. Negations for the rest."
  },
  {
   "property": "C89",
   "status": "partial",
   "theorems": [
    "ExtMpi.SelfTest.init_iff",
    "ExtMpi.SelfTest.allreduce_ends_iff",
    "ExtMpi.SelfTest.reduce_ends_iff",
    "ExtMpi.SelfTest.reduceScatter_ends_iff",
    "ExtMpi.SelfTest.allreduce_exact",
    "ExtMpi.SelfTest.reduce_exact",
    "ExtMpi.SelfTest.reduceScatter_exact",
    "ExtMpi.SelfTest.bcast_exact_partial",
    "ExtMpi.SelfTest.allgatherv_exact_partial",
    "ExtMpi.SelfTest.allgatherv_long",
    "ExtMpi.SelfTest.scatterv_exact_partial",
    "ExtMpi.SelfTest.bcast_violated",
    "ExtMpi.SelfTest.allgatherv_unsound_violated",
    "ExtMpi.SelfTest.allgatherv_incomplete_violated"
   ],
   "note": "Proved for allreduce with types of 4 and 8 bytes, for sums of longs of reduce and reduce_scatter (others are not tested by the code), and for the rest if all parts are multiples of 8 bytes. Negations for the other sizes. The results of MPI and of the library are arbitrary."
  },
  {
   "property": "C90",
   "status": "partial",
   "theorems": [
    "ExtMpi.Settings.readEnv_none_iff",
    "ExtMpi.Settings.lists_partial",
    "ExtMpi.Settings.copyFixed_partial",
    "ExtMpi.Settings.lists_violated",
    "ExtMpi.Settings.copyFixed_violated"
   ],
   "note": "Exact condition for the overflow, sufficient bounds and witnesses. The texts themselves are the subject of C18."
  },
  {
   "property": "C91",
   "status": "partial",
   "theorems": [
    "ExtMpi.Settings.cycles_partial",
    "ExtMpi.Settings.cycles_once_partial",
    "ExtMpi.Settings.cycles_violated"
   ],
   "note": "Proved without EXT_MPI_NUM_PORTS, for any number of pairs, and for a last pair with it. Negation for every sequence in which a pair with it is followed by another."
  },
  {
   "property": "C92",
   "status": "partial",
   "theorems": [
    "ExtMpi.Settings.getParam_partial",
    "ExtMpi.Settings.getParam_violated"
   ],
   "note": "Proved if the info value is a number or missing, else negation."
  },
  {
   "property": "C93",
   "status": "partial",
   "theorems": [
    "ExtMpi.Settings.tasksPerSocket_iff",
    "ExtMpi.Settings.tasksPerSocket_one_partial",
    "ExtMpi.Settings.tasksPerSocket_violated"
   ],
   "note": "Holds exactly if the number of sockets divides the number of processes of every node, in particular with one socket (the default). Negation with more sockets than processes on a node: 0, by which is divided."
  },
  {
   "property": "C94",
   "status": "partial",
   "theorems": [
    "ExtMpi.SingleNode.scatterv_iff",
    "ExtMpi.SingleNode.scatterv_displs_violated",
    "ExtMpi.SingleNode.allgatherv_iff"
   ],
   "note": "Single node; allgatherv of more than 56 bytes (C83). Right exactly if the displacements of the nonempty parts are those of parts one after the other; otherwise the negation."
  },
  {
   "property": "C95",
   "status": "partial",
   "theorems": [
    "ExtMpi.BlockingPorts.init_defined_partial",
    "ExtMpi.BlockingPorts.init_minimum",
    "ExtMpi.BlockingPorts.init_violated",
    "ExtMpi.BlockingPorts.init_table_violated"
   ],
   "note": "Proved for 2 to 3564 nodes with finite times and for minimal computation; negations for every table on a single node and from 3565 nodes on."
  },
  {
   "property": "C96",
   "status": "partial",
   "theorems": [
    "ExtMpi.BlockingPorts.allreduce_partial",
    "ExtMpi.BlockingPorts.allreduce_violated",
    "ExtMpi.BlockingPorts.allgather_partial",
    "ExtMpi.BlockingPorts.allgather_violated",
    "ExtMpi.BlockingPorts.reduceScatter_partial",
    "ExtMpi.BlockingPorts.reduceScatter_violated",
    "ExtMpi.BlockingPorts.reduceScatter_lost_violated",
    "ExtMpi.BlockingPorts.allreduce_minimum_iff",
    "ExtMpi.BlockingPorts.reduceScatter_minimum_iff",
    "ExtMpi.BlockingPorts.prime_violated",
    "ExtMpi.BlockingPorts.reduceScatter_prime_violated"
   ],
   "note": "One process per node in the schedules. Right exactly if the product of the chosen factors is the number of nodes; with minimal computation exactly on powers of two; wrong for every table on primes above 13."
  },
  {
   "property": "C97",
   "status": "proved",
   "theorems": [
    "ExtMpi.BlockingPorts.reduceScatter_ports",
    "ExtMpi.BlockingPorts.reduceScatter_least"
   ],
   "note": "One socket per node."
  },
  {
   "property": "C98",
   "status": "proved",
   "theorems": [
    "ExtMpi.Requests.same_order",
    "ExtMpi.Requests.repeated",
    "ExtMpi.Requests.same_order_gets"
   ],
   "note": "One process per node; the programs of C52-C56 and C61-C63 (type Library), and in general all programs that are correct for every memory. Different requests have different tags (C100)."
  },
  {
   "property": "C99",
   "status": "partial",
   "theorems": [
    "ExtMpi.Requests.any_order_partial",
    "ExtMpi.Requests.different_order_violated"
   ],
   "note": "Proved for processes that test all their requests until they are done. Negation for MPI_Wait: for every recursive allgather on two or more nodes, with MPI that buffers as much as it likes."
  },
  {
   "property": "C100",
   "status": "proved",
   "theorems": [
    "ExtMpi.Tags.envelope_inj",
    "ExtMpi.Tags.apart"
   ],
   "note": "Without a second communicator (comm_column), as in all public functions."
  },
  {
   "property": "C101",
   "status": "partial",
   "theorems": [
    "ExtMpi.Tags.range_partial",
    "ExtMpi.Tags.range_violated"
   ],
   "note": "The first MPI_TAG_UB + 1 initialisations get tags in the range; negation: a program that initialises and frees one request again and again leaves every range."
  },
  {
   "property": "C102",
   "status": "proved",
   "theorems": [
    "ExtMpi.Cluster.executions"
   ],
   "note": "Several processes per node, the collectives of C68-C70 with their hypotheses (type CLibrary); without alternating shared memories. The changes of the application between executions are copies of single elements."
  },
  {
   "property": "C103",
   "status": "proved",
   "theorems": [
    "ExtMpi.Cluster.alternating_executions",
    "ExtMpi.Cluster.first_barrier_needed"
   ],
   "note": "Several processes per node, the collectives of C68-C70 with their hypotheses (type CLibrary), with two alternating programs without their first barrier, the default mode. The changes of the application between executions are copies of single elements."
  },
  {
   "property": "C104",
   "status": "proved",
   "theorems": [
    "ExtMpi.Cluster.clean_executions",
    "ExtMpi.Cluster.clean_alternating"
   ],
   "note": "Several processes per node, the collectives of C68-C70 with their hypotheses (type CText), all processes of a node in one row. The changes of the application between executions are copies of single elements."
  },
  {
   "property": "C105",
   "status": "proved",
   "theorems": [
    "ExtMpi.Segments.same_segment",
    "ExtMpi.Segments.other_node",
    "ExtMpi.Segments.writable_iff",
    "ExtMpi.Segments.message_segment",
    "ExtMpi.Segments.size_agrees"
   ],
   "note": "All numbers of processes, columns and sockets; the system provides the memory and all processes of a node are on one machine (C106, C107)."
  },
  {
   "property": "C106",
   "status": "partial",
   "theorems": [
    "ExtMpi.Segments.one_machine_violated",
    "ExtMpi.Segments.sockets_violated",
    "ExtMpi.Segments.one_machine_partial"
   ],
   "note": "Violated for ranks dealt out to the machines in turn, for all numbers of machines and processes above one, and for consecutive ranks if the number of sockets does not divide the number of processes of a machine. Holds for consecutive ranks otherwise."
  },
  {
   "property": "C107",
   "status": "partial",
   "theorems": [
    "ExtMpi.Segments.refused_violated",
    "ExtMpi.Segments.refused_writes",
    "ExtMpi.Segments.refused_partial"
   ],
   "note": "Violated on every node with several processes: shmat reports failure by -1, and the result is compared with 0. Holds for a process alone on its node."
  },
  {
   "property": "C108",
   "status": "partial",
   "theorems": [
    "ExtMpi.Segments.names_violated",
    "ExtMpi.Segments.names_differ",
    "ExtMpi.Segments.names_partial"
   ],
   "note": "Variant with MMAP. Violated if processes take part in different numbers of initialisations; holds if any two communicators are equal or have no process in common."
  },
  {
   "property": "C109",
   "status": "proved",
   "theorems": [
    "ExtMpi.Segments.release"
   ],
   "note": "Variant with System V segments, all orders of the calls of the processes; the barriers of the release have no effect and are not modelled."
  },
  {
   "property": "C110",
   "status": "proved",
   "theorems": [
    "ExtMpi.Sockets.shared_correct",
    "ExtMpi.Sockets.shared_allreduce"
   ],
   "note": "Every number of sockets with one process each on a single node, all programs in which the messages are matched wait by wait (Regular), all interleavings. Not shown: that the generated programs are of this form, several nodes, several processes per socket."
  },
  {
   "property": "C111",
   "status": "partial",
   "theorems": [
    "ExtMpi.Sockets.fuse_violated",
    "ExtMpi.Sockets.orderly_violated",
    "ExtMpi.Sockets.fuse_partial"
   ],
   "note": "Violated: the access to the segment of the other process moves behind the second barrier of the node. Negation for correct programs with messages, and for a generated allreduce on two nodes with two sockets each. Holds for programs without reductions."
  },
  {
   "property": "C112",
   "status": "partial",
   "theorems": [
    "ExtMpi.Sockets.direct_violated"
   ],
   "note": "Violated on a node of two sockets with one process each and the ports the library chooses there: negation proved. One process per node: C61."
  },
  {
   "property": "C113",
   "status": "partial",
   "theorems": [
    "ExtMpi.Measure.same_node",
    "ExtMpi.Measure.allreduce_measured",
    "ExtMpi.Measure.reduceScatter_measured",
    "ExtMpi.Measure.reduce_violated"
   ],
   "note": "Every outcome of the measurement. Allreduce and reduce_scatter: proved for the schedule between the sockets. Reduce: violated for every even number of processes and every root, since the ports are not adapted. Violated only if several sockets are found to be faster."
  },
  {
   "property": "C114",
   "status": "proved",
   "theorems": [
    "ExtMpi.Sockets.shared_sequence",
    "ExtMpi.Sockets.shared_allreduce_again"
   ],
   "note": "Every list of programs that meet the conditions of C110, all interleavings, all contents. The flags of the barriers of the node are common to all programs in the model."
  }
 ]
}