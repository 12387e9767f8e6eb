import Verif.Base
import Verif.Spec
import Verif.Model.Std
import Verif.Model.Array
import Verif.Model.BTree
import Verif.Model.Combinators
import Verif.Model.Get
import Verif.Model.Stack
import Verif.Model.Inclusive
import Verif.Proofs.Std
import Verif.Proofs.Array
import Verif.Proofs.BTree
import Verif.Proofs.Exclusive
import Verif.Proofs.Batch
import Verif.Proofs.Associative
import Verif.Proofs.Get
import Verif.Proofs.Fair
import Verif.Proofs.Stack
import Verif.Proofs.Lookup
import Verif.Proofs.Inclusive
import Verif.Proofs.InclusiveWeak
import Verif.Props.ArrayProps
import Verif.Props.BTreeProps
import Verif.Props.CombProps
import Verif.Props.AssocProps
import Verif.Props.StackProps
import Verif.Props.InclusiveProps
import Verif.Props.UtilsProps
import Verif.Props.StreamProps
import Verif.Props.CompressedProps
import Verif.Props.LockProps
import Verif.Props.HandleProps
import Verif.Props.SequentialProps
import Verif.Props.PolicyProps
import Verif.Props.ProfilerProps
import Verif.Props.SocketProps
import Verif.Props.ConfigProps
import Verif.Props.BuilderProps
import Verif.Props.ExactProps
import Verif.Props.LayerProps
import Verif.Props.EvictProps
import Verif.Props.LrfuProps
import Verif.Props.LrfuHistProps
import Verif.Props.MapStackProps
import Verif.Props.ConcProfilerProps
import Verif.Props.ConcAssocProps
import Verif.Props.ConcAssocSeqProps
import Verif.Props.FileProps
import Verif.Props.ConcDecoratorProps
import Verif.Props.CellProps
import Verif.Props.StreamPolicyProps
import Verif.Props.ConfigTextProps
import Verif.Props.ConcStreamProps
import Verif.Props.TierProps
import Verif.Props.CacheProps
import Verif.Props.MemoryProps
import Verif.Props.SetProps
import Verif.Props.MachineProps
import Verif.Props.WeakLockProps
import Verif.Props.SeqCellProps
import Verif.Props.SeqCopyProps
import Verif.Props.MapGetProps
import Verif.Props.BTreeRcProps
import Verif.Props.F32Props
import Verif.Props.FileStreamProps
import Verif.Props.LrfuBTreeProps
import Verif.Props.StreamLenProps
import Verif.Props.ElementSizeProps
import Verif.Props.InclusiveHeldProps
import Verif.Props.BatchCacheProps
import Verif.Model.ProfilerTime
import Verif.Props.ProfilerTimeProps
import Verif.Proofs.InclusiveCache
import Verif.Props.InclusiveCacheProps
import Verif.Proofs.SeqWait
import Verif.Props.SeqWaitProps
import Verif.Model.Unwind
import Verif.Proofs.Unwind
import Verif.Proofs.Spill
import Verif.Proofs.UnwindKept
import Verif.Proofs.UnwindMore
import Verif.Props.UnwindProps
import Verif.Props.SpillProps
import Verif.Model.StreamStack
import Verif.Proofs.StreamStack
import Verif.Props.StreamStackProps
import Verif.Model.ServeSeq
import Verif.Proofs.ServeSeq
import Verif.Props.ServeSeqProps
import Verif.Model.Faults
import Verif.Proofs.Faults
import Verif.Props.FaultProps
import Verif.Props.CompressedFaultProps
import Verif.Model.StreamGet
import Verif.Proofs.StreamGet
import Verif.Props.StreamGetProps
import Verif.Model.CellFaults
import Verif.Proofs.CellFaults
import Verif.Props.CellFaultProps
import Verif.Model.SeqUnwind
import Verif.Props.SeqUnwindProps
import Verif.Model.CloneHeap
import Verif.Proofs.CloneHeap
import Verif.Props.CloneProps
import Verif.Model.StoreUnwind
import Verif.Proofs.StoreUnwind
import Verif.Props.StoreUnwindProps
import Verif.Model.AccessUnwind
import Verif.Proofs.AccessUnwind
import Verif.Props.AccessUnwindProps
import Verif.Model.BTreeUnwind
import Verif.Proofs.BTreeUnwind
import Verif.Props.BTreeUnwindProps
import Verif.Model.InclusiveUnwind
import Verif.Proofs.InclusiveUnwind
import Verif.Props.InclusiveUnwindProps
