import Verif.Props.Barrier
import Verif.Props.HashTable
import Verif.Props.Handles
import Verif.Props.Interface
import Verif.Props.Numeric
import Verif.Props.ParallelMemcpy
import Verif.Props.Merge
import Verif.Props.BufferOffset
import Verif.Props.Recursive
import Verif.Props.Cyclic
import Verif.Props.Codec
import Verif.Props.Text
import Verif.Props.RankPerm
import Verif.Props.Waitany
import Verif.Props.WaitanyLook
import Verif.Props.ByteCode
import Verif.Props.BarrierPasses
import Verif.Props.Blocking
import Verif.Props.Rooted
import Verif.Props.CyclicReduce
import Verif.Props.RawCode
import Verif.Props.RawCodeCyclic
import Verif.Props.OnNode
import Verif.Props.Optimise
import Verif.Props.OnePerNode
import Verif.Props.InPlace
import Verif.Props.TasksNode
import Verif.Lemmas.ClusterBridge
import Verif.Lemmas.ClusterCopy
import Verif.Lemmas.ClusterElem
import Verif.Lemmas.ClusterOrder
import Verif.Lemmas.ClusterRun
import Verif.Lemmas.ClusterSum
import Verif.Lemmas.ClusterLines
import Verif.Lemmas.ClusterAssemble
import Verif.Props.Cluster
import Verif.Model.Forward
import Verif.Spec.Forward
import Verif.Lemmas.Forward
import Verif.Lemmas.ForwardRows
import Verif.Lemmas.ForwardCyclic
import Verif.Lemmas.ForwardGather
import Verif.Props.Forward
import Verif.Lemmas.RootedCyclic
import Verif.Lemmas.RootedSteps
import Verif.Props.RootedCyclic
import Verif.Lemmas.RootedExchange
import Verif.Lemmas.RootedReduce
import Verif.Props.RootedRecursive
import Verif.Props.RootedRecursiveReduce
import Verif.Model.PortChoice
import Verif.Spec.PortChoice
import Verif.Lemmas.PortChoice
import Verif.Lemmas.PortCount
import Verif.Lemmas.PortAll
import Verif.Props.PortChoice
import Verif.Model.Groups
import Verif.Spec.Groups
import Verif.Lemmas.GroupsLift
import Verif.Lemmas.GroupsSim
import Verif.Lemmas.GroupsLocal
import Verif.Lemmas.GroupsSplit
import Verif.Lemmas.GroupsSide
import Verif.Lemmas.GroupsEffect
import Verif.Lemmas.GroupsChain
import Verif.Lemmas.GroupsFlow
import Verif.Lemmas.GroupsPlain
import Verif.Lemmas.GroupsPlan
import Verif.Lemmas.GroupsMiddle
import Verif.Lemmas.GroupsJoin
import Verif.Props.Groups
import Verif.Model.SingleNode
import Verif.Spec.SingleNode
import Verif.Lemmas.TwoPhase
import Verif.Lemmas.SingleNode
import Verif.Lemmas.OnlyRoot
import Verif.Props.SingleNode
import Verif.Model.RootNode
import Verif.Spec.RootNode
import Verif.Lemmas.RootNode
import Verif.Props.RootNode
import Verif.Model.Settings
import Verif.Spec.Settings
import Verif.Props.Settings
import Verif.Model.SelfTest
import Verif.Spec.SelfTest
import Verif.Lemmas.SelfTest
import Verif.Props.SelfTest
import Verif.Props.SingleNodeDispls
import Verif.Props.SelfTestInit
import Verif.Model.BlockingPorts
import Verif.Spec.BlockingPorts
import Verif.Lemmas.Taint
import Verif.Lemmas.Uncovered
import Verif.Lemmas.Poison
import Verif.Lemmas.BlockingPorts
import Verif.Props.BlockingPorts
import Verif.Props.BlockingUneven
import Verif.Model.Requests
import Verif.Spec.Requests
import Verif.Lemmas.RequestsRun
import Verif.Lemmas.RequestsSerial
import Verif.Lemmas.RequestsBlock
import Verif.Lemmas.RequestsOrder
import Verif.Props.Requests
import Verif.Model.Tags
import Verif.Spec.Tags
import Verif.Props.Tags
import Verif.Model.ClusterRepeat
import Verif.Spec.ClusterRepeat
import Verif.Lemmas.ClusterRepeat
import Verif.Lemmas.ClusterUses
import Verif.Props.ClusterRepeat
import Verif.Model.ClusterAlternate
import Verif.Spec.ClusterAlternate
import Verif.Lemmas.AlternateDrop
import Verif.Lemmas.AlternateBank
import Verif.Lemmas.AlternateOrder
import Verif.Lemmas.AlternateBridge
import Verif.Props.ClusterAlternate
import Verif.Model.ClusterClean
import Verif.Lemmas.ClusterCut
import Verif.Lemmas.ClusterCopyLines
import Verif.Lemmas.ClusterUndouble
import Verif.Lemmas.ClusterClean
import Verif.Lemmas.ClusterCleanRun
import Verif.Props.ClusterClean
import Verif.Model.Segments
import Verif.Spec.Segments
import Verif.Props.Segments
import Verif.Model.SegmentsSystem
import Verif.Spec.SegmentsSystem
import Verif.Props.SegmentsSystem
import Verif.Model.Sockets
import Verif.Spec.Sockets
import Verif.Lemmas.SocketsSkel
import Verif.Lemmas.SocketsRun
import Verif.Lemmas.SocketsShare
import Verif.Lemmas.SocketsCode
import Verif.Lemmas.SocketsCheck
import Verif.Props.Sockets
import Verif.Model.Measure
import Verif.Props.Measure
import Verif.Props.SocketsRepeat
import Verif.Props.CyclicOvershoot
import Verif.Props.CyclicExact
import Verif.Audit
