import Verif.Props.Barrier
import Verif.Props.HashTable
import Verif.Props.Handles
import Verif.Props.Interface
import Verif.Props.Numeric
import Verif.Props.ParallelMemcpy
import Verif.Props.Merge
import Verif.Props.BufferOffset
import Verif.Props.Recursive
import Verif.Props.Cyclic
import Verif.Props.Codec
import Verif.Props.Text
import Verif.Props.RankPerm
import Verif.Props.Waitany
import Verif.Props.WaitanyLook
import Verif.Props.ByteCode
import Verif.Props.BarrierPasses
import Verif.Props.Blocking
import Verif.Props.Rooted
import Verif.Props.CyclicReduce
import Verif.Props.RawCode
import Verif.Props.RawCodeCyclic
import Verif.Props.OnNode
import Verif.Props.Optimise
import Verif.Props.OnePerNode
import Verif.Props.InPlace
import Verif.Props.TasksNode
import Verif.Props.Cluster
import Verif.Props.Forward
import Verif.Props.RootedCyclic
import Verif.Props.RootedRecursive
import Verif.Props.RootedRecursiveReduce
import Verif.Props.PortChoice
import Verif.Props.Groups
import Verif.Props.SingleNode
import Verif.Props.RootNode
import Verif.Props.Settings
import Verif.Props.SelfTest
import Verif.Props.SingleNodeDispls
import Verif.Props.SelfTestInit
import Verif.Props.BlockingPorts
import Verif.Props.BlockingUneven
import Verif.Props.Requests
import Verif.Props.Tags
import Verif.Props.ClusterRepeat
import Verif.Props.ClusterAlternate
import Verif.Props.ClusterClean
import Verif.Props.Segments
import Verif.Props.SegmentsSystem
import Verif.Props.Sockets
import Verif.Props.Measure
import Verif.Props.SocketsRepeat
import Verif.Props.CyclicOvershoot
import Verif.Props.CyclicExact
import Lean.Elab.Command
import Lean.Util.CollectAxioms

/-! Prints the axioms every claimed theorem depends on. The build fails if there are others than the three of Lean. -/

open Lean Elab Command in
/-- Prints the axioms of a theorem; fails if it is no theorem or depends on others than the three of Lean. -/
elab "#audit " n:ident : command => do
  let c ← liftCoreM (realizeGlobalConstNoOverloadWithInfo n)
  match (← getEnv).find? c with
  | some (.thmInfo _) => pure ()
  | _ => throwError "{c} is no theorem"
  let used ← liftCoreM (collectAxioms c)
  for a in used do
    unless [``propext, ``Classical.choice, ``Quot.sound].contains a do
      throwError "{c} depends on {a}"
  logInfo m!"{c}: {used.toList}"

#audit ExtMpi.Barrier.barrier_separates
#audit ExtMpi.Barrier.barrier_lockstep
#audit ExtMpi.Barrier.barrier_no_deadlock
#audit ExtMpi.Barrier.barrier_live
#audit ExtMpi.Barrier.exec_test_inverted
#audit ExtMpi.Barrier.test_spec_violated
#audit ExtMpi.Barrier.polling_never_advances
#audit ExtMpi.Barrier.exec_wait_partial
#audit ExtMpi.Handles.create_fresh
#audit ExtMpi.Handles.live_ops_defined
#audit ExtMpi.Handles.live_program
#audit ExtMpi.Handles.test_flag
#audit ExtMpi.HashTable.table_refines_map
#audit ExtMpi.HashTable.table_search_any_state
#audit ExtMpi.HashTable.search_may_diverge
#audit ExtMpi.HashTable.search_terminates_violated
#audit ExtMpi.HashTable.search_terminates_partial
#audit ExtMpi.HashTable.live_lookup_terminates_partial
#audit ExtMpi.Interface.testall_partial
#audit ExtMpi.Interface.testall_ignore_always
#audit ExtMpi.Interface.testall_ignore_violated
#audit ExtMpi.Interface.testany_spec
#audit ExtMpi.Interface.waitany_spec
#audit ExtMpi.Interface.testsome_violated
#audit ExtMpi.Interface.testsome_partial
#audit ExtMpi.Cyclic.allgather_partial
#audit ExtMpi.Cyclic.allgather_exact
#audit ExtMpi.Cyclic.allgather_iff
#audit ExtMpi.Cyclic.allgather_violated
#audit ExtMpi.Recursive.allgather_correct
#audit ExtMpi.Recursive.reduceScatter_correct
#audit ExtMpi.Recursive.allreduce_correct
#audit ExtMpi.Recursive.recursive_matched
#audit ExtMpi.CyclicReduce.reduceScatter_matched
#audit ExtMpi.CyclicReduce.allreduce_matched_partial
#audit ExtMpi.Cyclic.cyclic_matched_partial
#audit ExtMpi.Cyclic.cyclic_matched_iff
#audit ExtMpi.Cyclic.matched_violated
#audit ExtMpi.Codec.algorithm_roundtrip
#audit ExtMpi.Codec.algorithm_injective
#audit ExtMpi.Codec.asm_roundtrip
#audit ExtMpi.Codec.asm_prefix
#audit ExtMpi.Codec.asm_reject
#audit ExtMpi.Codec.stream_roundtrip
#audit ExtMpi.Codec.message_roundtrip
#audit ExtMpi.Codec.copy_roundtrip
#audit ExtMpi.Text.ports_groups_roundtrip
#audit ExtMpi.ParallelMemcpy.parallel_pieces_exact
#audit ExtMpi.ParallelMemcpy.copyin_chunks_exact
#audit ExtMpi.ParallelMemcpy.copyin_rounds
#audit ExtMpi.ParallelMemcpy.parallel_partial
#audit ExtMpi.ParallelMemcpy.parallel_violated
#audit ExtMpi.Merge.merge_partial
#audit ExtMpi.Merge.merge_bufferKind_violated
#audit ExtMpi.Merge.merge_backward_violated
#audit ExtMpi.Merge.merge_overlap_violated
#audit ExtMpi.BufferOffset.layout_partial
#audit ExtMpi.BufferOffset.noOffset_copy
#audit ExtMpi.BufferOffset.layout_msg_violated
#audit ExtMpi.BufferOffset.noOffset_sreduc_violated
#audit ExtMpi.RankPerm.heuristic_positive_partial
#audit ExtMpi.RankPerm.heuristic_stable_partial
#audit ExtMpi.RankPerm.heuristic_violated
#audit ExtMpi.RankPerm.forward_backward_positive_partial
#audit ExtMpi.RankPerm.forward_backward_stable_partial
#audit ExtMpi.RankPerm.relabel_exec
#audit ExtMpi.RankPerm.relabel_allreduce
#audit ExtMpi.Numeric.messageSizes_spec
#audit ExtMpi.Numeric.plain_spec
#audit ExtMpi.Numeric.factorsMinimum_spec
#audit ExtMpi.Numeric.padding_spec
#audit ExtMpi.Numeric.paddingFactor_spec
#audit ExtMpi.Waitany.waitany_direct_partial
#audit ExtMpi.Waitany.waitany_accumulate_partial
#audit ExtMpi.Waitany.pass_refines_partial
#audit ExtMpi.Waitany.order_violated
#audit ExtMpi.Waitany.accumulate_violated
#audit ExtMpi.Waitany.pass_barrier_violated
#audit ExtMpi.Waitany.pass_erase
#audit ExtMpi.BarrierPasses.clean_barriers
#audit ExtMpi.BarrierPasses.clean_deadlock
#audit ExtMpi.BarrierPasses.no_first
#audit ExtMpi.BarrierPasses.no_socket
#audit ExtMpi.BarrierPasses.in_step
#audit ExtMpi.ByteCode.size_in_advance
#audit ExtMpi.ByteCode.reads_back
#audit ExtMpi.ByteCode.program_total
#audit ExtMpi.ByteCode.ungrouped_stops
#audit ExtMpi.Handles.alternate
#audit ExtMpi.Blocking.pick_spec
#audit ExtMpi.Blocking.inside
#audit ExtMpi.Blocking.tiling_partial
#audit ExtMpi.Blocking.tiling_violated
#audit ExtMpi.Interface.single_isolated
#audit ExtMpi.Interface.waitall_isolated
#audit ExtMpi.Interface.waitall_error
#audit ExtMpi.Interface.regular_spec
#audit ExtMpi.Numeric.tasksPerSocket_spec
#audit ExtMpi.Numeric.revert_spec
#audit ExtMpi.Numeric.revert_revert
#audit ExtMpi.Rooted.backward_partial
#audit ExtMpi.Rooted.drops_match_partial
#audit ExtMpi.Rooted.reduce_partial
#audit ExtMpi.Rooted.gather_partial
#audit ExtMpi.Rooted.gather_cyclic_partial
#audit ExtMpi.Rooted.gather_exact
#audit ExtMpi.Rooted.reduce_cyclic_partial
#audit ExtMpi.Rooted.reduce_exact
#audit ExtMpi.Rooted.gather_recursive
#audit ExtMpi.Rooted.reduce_recursive
#audit ExtMpi.Rooted.gather_violated
#audit ExtMpi.Interface.comm_ids_distinct
#audit ExtMpi.Handles.progress_undefined_without_handles
#audit ExtMpi.Handles.progress_partial
#audit ExtMpi.Interface.waitany_repeats
#audit ExtMpi.Interface.waitany_once_violated
#audit ExtMpi.Interface.foreign_comm_undefined
#audit ExtMpi.Numeric.gcd_is_lcm
#audit ExtMpi.Numeric.gcd_violated
#audit ExtMpi.Numeric.factorSqrt_partial
#audit ExtMpi.Numeric.factorSqrt_one_violated
#audit ExtMpi.Text.copyin_roundtrip
#audit ExtMpi.RankPerm.sizes_violated
#audit ExtMpi.RankPerm.sizes_involution_partial
#audit ExtMpi.WaitanyLook.sent_intact_partial
#audit ExtMpi.Waitany.sent_violated
#audit ExtMpi.WaitanyLook.look_violated
#audit ExtMpi.WaitanyLook.look_repaired
#audit ExtMpi.Blocking.unit_partial
#audit ExtMpi.Blocking.unit_violated
#audit ExtMpi.Blocking.messages_partial
#audit ExtMpi.Blocking.seenFlags_stuck
#audit ExtMpi.Blocking.messages_violated
#audit ExtMpi.Blocking.blocking_allreduce_partial
#audit ExtMpi.Blocking.uneven_violated
#audit ExtMpi.CyclicReduce.reduceScatter_correct
#audit ExtMpi.CyclicReduce.allreduce_correct_partial
#audit ExtMpi.CyclicReduce.allreduce_exact
#audit ExtMpi.CyclicReduce.allreduce_few_ports
#audit ExtMpi.CyclicReduce.core_isSome_iff
#audit ExtMpi.CyclicReduce.allreduce_correct_iff
#audit ExtMpi.CyclicReduce.overshoot_violated
#audit ExtMpi.CyclicReduce.allreduce_overshoot
#audit ExtMpi.RawCode.allreduce_recursive
#audit ExtMpi.RawCode.early_read_incorrect
#audit ExtMpi.RawCode.allgather_recursive
#audit ExtMpi.RawCode.allgather_cyclic
#audit ExtMpi.RawCode.reduceScatter_recursive
#audit ExtMpi.RawCode.reduceScatter_cyclic
#audit ExtMpi.RawCode.allreduce_cyclic_partial
#audit ExtMpi.OnNode.onNode_allreduce
#audit ExtMpi.OnNode.measured_sound
#audit ExtMpi.OnNode.onNode_correct
#audit ExtMpi.OnNode.singleBlock_core
#audit ExtMpi.OnNode.onNode_userFactors_partial
#audit ExtMpi.OnNode.onNode_deadlock_violated
#audit ExtMpi.OnNode.onNode_product_small_violated
#audit ExtMpi.OnNode.onNode_product_large_violated
#audit ExtMpi.OnNode.onNode_half_small_violated
#audit ExtMpi.OnNode.fast_bytes
#audit ExtMpi.OnNode.onNode_empty_violated
#audit ExtMpi.Optimise.allreduce_direct
#audit ExtMpi.Optimise.reduceScatter_direct
#audit ExtMpi.OnePerNode.reduceScatter_equal_partial
#audit ExtMpi.OnePerNode.reduceScatter_violated
#audit ExtMpi.Optimise.allgather_direct_partial
#audit ExtMpi.OnePerNode.allgather_equal_partial
#audit ExtMpi.OnePerNode.allgatherv_order_violated
#audit ExtMpi.OnePerNode.allgatherv_zero_violated
#audit ExtMpi.OnePerNode.allgatherv_displs_violated
#audit ExtMpi.OnePerNode.inPlace_violated
#audit ExtMpi.OnePerNode.inPlace_recursive_partial
#audit ExtMpi.OnePerNode.inPlace_cyclic_partial
#audit ExtMpi.TasksNode.distributed_recursive
#audit ExtMpi.TasksNode.distributed_cyclic_partial
#audit ExtMpi.TasksNode.distributed_violated
#audit ExtMpi.TasksNode.allgather_recursive
#audit ExtMpi.TasksNode.allgather_cyclic_partial
#audit ExtMpi.TasksNode.allgather_cyclic_violated
#audit ExtMpi.Cluster.allreduce_recursive
#audit ExtMpi.Cluster.allreduce_cyclic_partial
#audit ExtMpi.Cluster.reduceScatter_recursive
#audit ExtMpi.Cluster.reduceScatter_cyclic
#audit ExtMpi.Cluster.allgather_recursive
#audit ExtMpi.Cluster.allgather_cyclic_partial
#audit ExtMpi.Forward.bcast_exact
#audit ExtMpi.Forward.bcast_cyclic_partial
#audit ExtMpi.Forward.bcast_partial
#audit ExtMpi.Forward.bcast_of
#audit ExtMpi.Forward.bcast_violated
#audit ExtMpi.Forward.scatter_exact
#audit ExtMpi.Forward.scatter_cyclic_partial
#audit ExtMpi.Forward.scatter_partial
#audit ExtMpi.Forward.scatter_of
#audit ExtMpi.Forward.scatter_violated
#audit ExtMpi.PortChoice.allgather_default
#audit ExtMpi.PortChoice.reduceScatter_default
#audit ExtMpi.PortChoice.allreduce_default
#audit ExtMpi.PortChoice.choice_defined_partial
#audit ExtMpi.PortChoice.three_nodes_violated
#audit ExtMpi.PortChoice.single_node_violated
#audit ExtMpi.PortChoice.table_violated
#audit ExtMpi.PortChoice.fastest
#audit ExtMpi.Groups.allreduce_correct
#audit ExtMpi.Groups.minimal_computation
#audit ExtMpi.Groups.allgather_partial
#audit ExtMpi.Groups.reduceScatter_partial
#audit ExtMpi.Groups.allgather_violated
#audit ExtMpi.Groups.reduceScatter_violated
#audit ExtMpi.RootNode.rooted_partial
#audit ExtMpi.RootNode.rooted_recursive_partial
#audit ExtMpi.RootNode.same_node
#audit ExtMpi.RootNode.gather_violated
#audit ExtMpi.RootNode.reduce_violated
#audit ExtMpi.RootNode.gather_recursive_violated
#audit ExtMpi.RootNode.reduce_recursive_violated
#audit ExtMpi.RootNode.bcast_violated
#audit ExtMpi.RootNode.scatter_violated
#audit ExtMpi.RootNode.gather_small_violated
#audit ExtMpi.RootNode.bcast_small_violated
#audit ExtMpi.SingleNode.reduceScatter_correct
#audit ExtMpi.SingleNode.bcast_partial
#audit ExtMpi.SingleNode.bcast_violated
#audit ExtMpi.SingleNode.scatter_correct
#audit ExtMpi.SingleNode.allgather_partial
#audit ExtMpi.SingleNode.gather_partial
#audit ExtMpi.SingleNode.allgather_violated
#audit ExtMpi.SingleNode.gather_violated
#audit ExtMpi.SingleNode.reduce_correct
#audit ExtMpi.SingleNode.reduce_sound
#audit ExtMpi.Settings.readEnv_partial
#audit ExtMpi.Settings.same_partial
#audit ExtMpi.Settings.same_number
#audit ExtMpi.Settings.same_violated
#audit ExtMpi.Settings.calls_partial
#audit ExtMpi.Settings.debug_zero_violated
#audit ExtMpi.Settings.debug_calls_violated
#audit ExtMpi.SelfTest.bcast_unchanged
#audit ExtMpi.SelfTest.gatherv_other
#audit ExtMpi.SelfTest.allreduce_overwrites
#audit ExtMpi.SelfTest.allreduce_input_violated
#audit ExtMpi.SelfTest.allgatherv_overwrites
#audit ExtMpi.SelfTest.init_off
#audit ExtMpi.SelfTest.reduce_other
#audit ExtMpi.SelfTest.reduce_overwrites
#audit ExtMpi.SelfTest.reduceScatter_overwrites
#audit ExtMpi.SelfTest.scatterv_overwrites
#audit ExtMpi.SelfTest.allreduce_safe
#audit ExtMpi.SelfTest.reduce_safe
#audit ExtMpi.SelfTest.reduceScatter_safe
#audit ExtMpi.SelfTest.bcast_safe
#audit ExtMpi.SelfTest.allgatherv_safe
#audit ExtMpi.SelfTest.scatterv_safe_partial
#audit ExtMpi.SelfTest.scatterv_violated
#audit ExtMpi.SelfTest.scatterv_order_violated
#audit ExtMpi.SelfTest.allreduce_small_violated
#audit ExtMpi.SelfTest.init_iff
#audit ExtMpi.SelfTest.allreduce_ends_iff
#audit ExtMpi.SelfTest.reduce_ends_iff
#audit ExtMpi.SelfTest.reduceScatter_ends_iff
#audit ExtMpi.SelfTest.allreduce_exact
#audit ExtMpi.SelfTest.reduce_exact
#audit ExtMpi.SelfTest.reduceScatter_exact
#audit ExtMpi.SelfTest.bcast_exact_partial
#audit ExtMpi.SelfTest.allgatherv_exact_partial
#audit ExtMpi.SelfTest.allgatherv_long
#audit ExtMpi.SelfTest.scatterv_exact_partial
#audit ExtMpi.SelfTest.bcast_violated
#audit ExtMpi.SelfTest.allgatherv_unsound_violated
#audit ExtMpi.SelfTest.allgatherv_incomplete_violated
#audit ExtMpi.Settings.readEnv_none_iff
#audit ExtMpi.Settings.lists_partial
#audit ExtMpi.Settings.copyFixed_partial
#audit ExtMpi.Settings.lists_violated
#audit ExtMpi.Settings.copyFixed_violated
#audit ExtMpi.Settings.cycles_partial
#audit ExtMpi.Settings.cycles_once_partial
#audit ExtMpi.Settings.cycles_violated
#audit ExtMpi.Settings.getParam_partial
#audit ExtMpi.Settings.getParam_violated
#audit ExtMpi.Settings.tasksPerSocket_iff
#audit ExtMpi.Settings.tasksPerSocket_one_partial
#audit ExtMpi.Settings.tasksPerSocket_violated
#audit ExtMpi.SingleNode.scatterv_iff
#audit ExtMpi.SingleNode.scatterv_displs_violated
#audit ExtMpi.SingleNode.allgatherv_iff
#audit ExtMpi.BlockingPorts.init_defined_partial
#audit ExtMpi.BlockingPorts.init_minimum
#audit ExtMpi.BlockingPorts.init_violated
#audit ExtMpi.BlockingPorts.init_table_violated
#audit ExtMpi.BlockingPorts.allreduce_partial
#audit ExtMpi.BlockingPorts.allreduce_violated
#audit ExtMpi.BlockingPorts.allgather_partial
#audit ExtMpi.BlockingPorts.allgather_violated
#audit ExtMpi.BlockingPorts.reduceScatter_partial
#audit ExtMpi.BlockingPorts.reduceScatter_violated
#audit ExtMpi.BlockingPorts.reduceScatter_lost_violated
#audit ExtMpi.BlockingPorts.allreduce_minimum_iff
#audit ExtMpi.BlockingPorts.reduceScatter_minimum_iff
#audit ExtMpi.BlockingPorts.prime_violated
#audit ExtMpi.BlockingPorts.reduceScatter_prime_violated
#audit ExtMpi.BlockingPorts.reduceScatter_ports
#audit ExtMpi.BlockingPorts.reduceScatter_least
#audit ExtMpi.Requests.same_order
#audit ExtMpi.Requests.repeated
#audit ExtMpi.Requests.same_order_gets
#audit ExtMpi.Requests.any_order_partial
#audit ExtMpi.Requests.different_order_violated
#audit ExtMpi.Tags.envelope_inj
#audit ExtMpi.Tags.apart
#audit ExtMpi.Tags.range_partial
#audit ExtMpi.Tags.range_violated
#audit ExtMpi.Cluster.executions
#audit ExtMpi.Cluster.alternating_executions
#audit ExtMpi.Cluster.first_barrier_needed
#audit ExtMpi.Cluster.clean_executions
#audit ExtMpi.Cluster.clean_alternating
#audit ExtMpi.Segments.same_segment
#audit ExtMpi.Segments.other_node
#audit ExtMpi.Segments.writable_iff
#audit ExtMpi.Segments.message_segment
#audit ExtMpi.Segments.size_agrees
#audit ExtMpi.Segments.one_machine_violated
#audit ExtMpi.Segments.sockets_violated
#audit ExtMpi.Segments.one_machine_partial
#audit ExtMpi.Segments.refused_violated
#audit ExtMpi.Segments.refused_writes
#audit ExtMpi.Segments.refused_partial
#audit ExtMpi.Segments.names_violated
#audit ExtMpi.Segments.names_differ
#audit ExtMpi.Segments.names_partial
#audit ExtMpi.Segments.release
#audit ExtMpi.Sockets.shared_correct
#audit ExtMpi.Sockets.shared_allreduce
#audit ExtMpi.Sockets.fuse_violated
#audit ExtMpi.Sockets.orderly_violated
#audit ExtMpi.Sockets.fuse_partial
#audit ExtMpi.Sockets.direct_violated
#audit ExtMpi.Measure.same_node
#audit ExtMpi.Measure.allreduce_measured
#audit ExtMpi.Measure.reduceScatter_measured
#audit ExtMpi.Measure.reduce_violated
#audit ExtMpi.Sockets.shared_sequence
#audit ExtMpi.Sockets.shared_allreduce_again
