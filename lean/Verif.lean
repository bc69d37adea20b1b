import Verif.Avl.Balance
import Verif.Avl.BalanceExact
import Verif.Avl.CopyExact
import Verif.Avl.CopyGrow
import Verif.Avl.Cost
import Verif.Avl.Degenerate
import Verif.Avl.Lemmas
import Verif.Avl.Model
import Verif.Avl.Props
import Verif.Avl.Refine
import Verif.Avl.Spec
import Verif.Avl.Stack
import Verif.Avl.Throw
import Verif.Avl.Unordered
import Verif.Avl.UnorderedProps
import Verif.Binary64
import Verif.Binary64Order
import Verif.Cache.CopyExact
import Verif.Cache.Hook
import Verif.Cache.HookProps
import Verif.Cache.Lemmas
import Verif.Cache.Model
import Verif.Cache.Props
import Verif.Cache.References
import Verif.Cache.Reserve
import Verif.Cache.Spec
import Verif.Cache.Throw
import Verif.Cache.ThrowProps
import Verif.Cache.Unequal
import Verif.Cache.UnequalProps
import Verif.Command.Copies
import Verif.Command.Exact
import Verif.Command.Model
import Verif.Command.Props
import Verif.Command.Reentrant
import Verif.Command.ReentrantProps
import Verif.Common
import Verif.Conc.Interval
import Verif.Conc.Lockable
import Verif.Conc.LockableValue
import Verif.Conc.QueueDestroy
import Verif.Conc.QueueEnds
import Verif.Conc.QueueInv
import Verif.Conc.QueueModel
import Verif.Conc.QueueObs
import Verif.Conc.QueueProps
import Verif.Conc.QueueReenter
import Verif.Conc.QueueThrow
import Verif.Conc.QueueWake
import Verif.Conc.SemFair
import Verif.Conc.SemInv
import Verif.Conc.SemModel
import Verif.Conc.SemProps
import Verif.Conc.SemWake
import Verif.Conc.Thread
import Verif.Conc.ThreadExact
import Verif.Conc.ThreadThrow
import Verif.Conc.TimerDestroy
import Verif.Conc.TimerEnds
import Verif.Conc.TimerExact
import Verif.Conc.TimerLate
import Verif.Conc.TimerModel
import Verif.Conc.TimerProps
import Verif.Conc.TimerReenter
import Verif.Conc.TimerStops
import Verif.Conc.TimerThrow
import Verif.Conc.TimerWake
import Verif.Fenwick.Alias
import Verif.Fenwick.Bits
import Verif.Fenwick.ClassProduct
import Verif.Fenwick.Cost
import Verif.Fenwick.Floating
import Verif.Fenwick.FloatingError
import Verif.Fenwick.FloatingProps
import Verif.Fenwick.History
import Verif.Fenwick.Lemmas
import Verif.Fenwick.Model
import Verif.Fenwick.Product
import Verif.Fenwick.Props
import Verif.Fenwick.Refine
import Verif.Fenwick.Signed
import Verif.Fenwick.SignedProduct
import Verif.Fenwick.Spec
import Verif.Fenwick.Throw
import Verif.Fenwick.ThrowProps
import Verif.Heap.Height
import Verif.Heap.Model
import Verif.Heap.Props
import Verif.Heap.Throw
import Verif.Mem.AvlParents
import Verif.Mem.BinBad
import Verif.Mem.BinLemmas
import Verif.Mem.BinModel
import Verif.Mem.BinProps
import Verif.Mem.BinSpec
import Verif.Mem.BinStep
import Verif.Mem.BinThrow
import Verif.Mem.BinThrowProps
import Verif.Mem.BinThrowStep
import Verif.Mem.Calls
import Verif.Mem.Follow
import Verif.Mem.Lemmas
import Verif.Mem.Mixed
import Verif.Mem.Model
import Verif.Mem.Props
import Verif.Mem.Refine
import Verif.Mem.RefineRemove
import Verif.Mem.Refs
import Verif.Mem.Spec
import Verif.Mem.Stable
import Verif.Mem.Store
import Verif.Mem.Walk
import Verif.Mem.WalkOrder
import Verif.Mem.WalkProps
import Verif.Mem.World
import Verif.NMem.Assign
import Verif.NMem.Bad
import Verif.NMem.Good
import Verif.NMem.Inv
import Verif.NMem.Lemmas
import Verif.NMem.Model
import Verif.NMem.Props
import Verif.NMem.Spec
import Verif.NMem.Step
import Verif.NMem.Throw
import Verif.NMem.ThrowProps
import Verif.Nary.Lemmas
import Verif.Nary.Model
import Verif.Nary.Props
import Verif.Nary.Spec
import Verif.Nary.Stack
import Verif.Nary.StopExact
import Verif.Nary.Waiting
import Verif.Seg.Bracket
import Verif.Seg.BracketProps
import Verif.Seg.Cost
import Verif.Seg.EmptyRebuild
import Verif.Seg.Lemmas
import Verif.Seg.MinFloat
import Verif.Seg.Model
import Verif.Seg.Navigate
import Verif.Seg.Props
import Verif.Seg.PropsFloat
import Verif.Seg.Run
import Verif.Seg.Shape
import Verif.Seg.Signed
import Verif.Seg.Spec
import Verif.Seg.Stack
import Verif.Seg.Throw
import Verif.Seg.ThrowProps
import Verif.Seg.ThrowRep
import Verif.Seg.ThrowRun
import Verif.Seqs.Cost
import Verif.Seqs.CostDp
import Verif.Seqs.CostLinear
import Verif.Seqs.Floating
import Verif.Seqs.MaxLengthAgree
import Verif.Seqs.MaxLengthNarrow
import Verif.Seqs.MaxLengthUnsigned
import Verif.Seqs.MaxSum
import Verif.Seqs.MaxSumFloat
import Verif.Seqs.MaxSumUnsigned
import Verif.Seqs.Missing
import Verif.Seqs.MissingSigned
import Verif.Seqs.MissingSignedExact
import Verif.Seqs.Model
import Verif.Seqs.PropsGeomF
import Verif.Seqs.PropsMissing
import Verif.Seqs.PropsMissingExact
import Verif.Seqs.PropsSubarray
import Verif.Seqs.PropsSubset
import Verif.Seqs.PropsXor
import Verif.Seqs.Signed
import Verif.Seqs.Stack
import Verif.Seqs.SubsetFloat
import Verif.Seqs.SubsetUnsigned
import Verif.Signed
import Verif.Tools.Cost
import Verif.Tools.CsvCrLf
import Verif.Tools.CsvExact
import Verif.Tools.CsvQuote
import Verif.Tools.EnumType
import Verif.Tools.Filters
import Verif.Tools.MakeUnique
import Verif.Tools.MathFloat
import Verif.Tools.Model
import Verif.Tools.PropsFloat
import Verif.Tools.PropsMath
import Verif.Tools.PropsText
import Verif.Tools.RandomDouble
import Verif.Tools.RandomSigned
import Verif.Tools.RandomThreads
import Verif.Tools.Timestamp
import Verif.UnionFind.Amortised
import Verif.UnionFind.Exact
import Verif.UnionFind.History
import Verif.UnionFind.Lemmas
import Verif.UnionFind.Model
import Verif.UnionFind.Props
import Verif.UnionFind.Spec
import Verif.UnionFind.Throw
import Verif.UnionFind.Unequal
