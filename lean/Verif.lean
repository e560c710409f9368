import Verif.Lemmas.Account
import Verif.Lemmas.ArcArchive
import Verif.Lemmas.ArcArchiveLoad
import Verif.Lemmas.ArcArchiveRoots
import Verif.Lemmas.ArcArchiveWrite
import Verif.Lemmas.Archive
import Verif.Lemmas.BTreeEffects
import Verif.Lemmas.BTreeMap
import Verif.Lemmas.BinarySearch
import Verif.Lemmas.Capacity
import Verif.Lemmas.CapacityCollect
import Verif.Lemmas.CapacityInPlace
import Verif.Lemmas.CopyOnWrite
import Verif.Lemmas.CopyOnWriteFind
import Verif.Lemmas.CopyOnWriteOnce
import Verif.Lemmas.CopyOnWriteOps
import Verif.Lemmas.Cost
import Verif.Lemmas.CostDedup
import Verif.Lemmas.CostLower
import Verif.Lemmas.CostMerge
import Verif.Lemmas.CostOptimal
import Verif.Lemmas.Dedup
import Verif.Lemmas.Effects
import Verif.Lemmas.Hostile
import Verif.Lemmas.HostileAcc
import Verif.Lemmas.HostileAgree
import Verif.Lemmas.HostileOps
import Verif.Lemmas.HostileRadix
import Verif.Lemmas.HostileRadixAgree
import Verif.Lemmas.HostileRadixAsk
import Verif.Lemmas.HostileRadixLike
import Verif.Lemmas.HostileRadixNew
import Verif.Lemmas.HostileRadixResult
import Verif.Lemmas.HostileRadixResultNew
import Verif.Lemmas.HostileRadixShape
import Verif.Lemmas.HostileRadixVals
import Verif.Lemmas.HostileSearch
import Verif.Lemmas.IterKey
import Verif.Lemmas.Join
import Verif.Lemmas.LazyCell
import Verif.Lemmas.LazyIter
import Verif.Lemmas.LazyReaders
import Verif.Lemmas.LazyReads
import Verif.Lemmas.LazyReadsCopy
import Verif.Lemmas.LazyReadsInPlace
import Verif.Lemmas.LazyReadsOps
import Verif.Lemmas.MapHistory
import Verif.Lemmas.MapOps
import Verif.Lemmas.Merge
import Verif.Lemmas.MergeRun
import Verif.Lemmas.MergeState
import Verif.Lemmas.Order
import Verif.Lemmas.RadixAsks
import Verif.Lemmas.RadixBase
import Verif.Lemmas.RadixBool
import Verif.Lemmas.RadixCanon
import Verif.Lemmas.RadixCloneCut
import Verif.Lemmas.RadixCloneEnd
import Verif.Lemmas.RadixCloneGo
import Verif.Lemmas.RadixCloneInv
import Verif.Lemmas.RadixCloneSim
import Verif.Lemmas.RadixCost
import Verif.Lemmas.RadixDb
import Verif.Lemmas.RadixDbClosed
import Verif.Lemmas.RadixDbCount
import Verif.Lemmas.RadixDbEval
import Verif.Lemmas.RadixDbLoad
import Verif.Lemmas.RadixDbStep
import Verif.Lemmas.RadixDepth
import Verif.Lemmas.RadixEffects
import Verif.Lemmas.RadixEffectsPure
import Verif.Lemmas.RadixFind
import Verif.Lemmas.RadixHistory
import Verif.Lemmas.RadixIter
import Verif.Lemmas.RadixJoinE
import Verif.Lemmas.RadixLock
import Verif.Lemmas.RadixLockGo
import Verif.Lemmas.RadixLockPure
import Verif.Lemmas.RadixMisc
import Verif.Lemmas.RadixOps
import Verif.Lemmas.RadixPanic
import Verif.Lemmas.RadixPrefixCases
import Verif.Lemmas.RadixPrefixGo
import Verif.Lemmas.RadixPrefixLog
import Verif.Lemmas.RadixPrefixRun
import Verif.Lemmas.RadixRef
import Verif.Lemmas.RadixSem
import Verif.Lemmas.RadixTag
import Verif.Lemmas.RadixWork
import Verif.Lemmas.RadixWorkOps
import Verif.Lemmas.RadixWorkRel
import Verif.Lemmas.Retain
import Verif.Lemmas.Schedule
import Verif.Lemmas.SetClone
import Verif.Lemmas.SetCloneImpl
import Verif.Lemmas.SetOps
import Verif.Lemmas.SharedBool
import Verif.Lemmas.SharedHeap
import Verif.Lemmas.SharedHistory
import Verif.Lemmas.SharedKeep
import Verif.Lemmas.SharedLoaded
import Verif.Lemmas.SharedMachine
import Verif.Lemmas.SharedOps
import Verif.Lemmas.SharedPure
import Verif.Lemmas.SharedRead
import Verif.Lemmas.SharedStep
import Verif.Lemmas.ThreadsHeap
import Verif.Lemmas.ThreadsReach
import Verif.Lemmas.ThreadsRun
import Verif.Lemmas.ThreadsStep
import Verif.Lemmas.ThreadsZip
import Verif.Lemmas.TotalMap
import Verif.Lemmas.TreeEq
import Verif.Lemmas.ValidationDepth
import Verif.Lemmas.ValidationWork
import Verif.Lemmas.VecMap
import Verif.Lemmas.VecSet
import Verif.Model.ArcArchive
import Verif.Model.Archive
import Verif.Model.BTreeEffects
import Verif.Model.BTreeMap
import Verif.Model.BorrowLookup
import Verif.Model.Capacity
import Verif.Model.CopyOnWrite
import Verif.Model.Cost
import Verif.Model.Dedup
import Verif.Model.Effects
import Verif.Model.Hostile
import Verif.Model.HostileRadix
import Verif.Model.HostileTotal
import Verif.Model.InPlaceBuilder
import Verif.Model.IntoIter
import Verif.Model.IterKey
import Verif.Model.Iterators
import Verif.Model.LazyCell
import Verif.Model.LazyIter
import Verif.Model.LazyReaders
import Verif.Model.LazyReads
import Verif.Model.LazyReadsCopy
import Verif.Model.LazyReadsInPlace
import Verif.Model.Macros
import Verif.Model.MergeDepth
import Verif.Model.MergeDriver
import Verif.Model.MergeState
import Verif.Model.Multimap
import Verif.Model.PlainWorld
import Verif.Model.RadixClone
import Verif.Model.RadixCost
import Verif.Model.RadixDb
import Verif.Model.RadixDbLate
import Verif.Model.RadixDbShared
import Verif.Model.RadixEffects
import Verif.Model.RadixPrefixEffects
import Verif.Model.RadixTree
import Verif.Model.RadixWork
import Verif.Model.SetClone
import Verif.Model.SharedHeap
import Verif.Model.SharedOps
import Verif.Model.SharedPure
import Verif.Model.SharedWorld
import Verif.Model.Std
import Verif.Model.Storage
import Verif.Model.Threads
import Verif.Model.TotalClone
import Verif.Model.TotalVecMap
import Verif.Model.TotalVecSet
import Verif.Model.ValidationDepth
import Verif.Model.ValidationWork
import Verif.Model.VecMap
import Verif.Model.VecSet
import Verif.Model.Watch
import Verif.Props.Account
import Verif.Props.ArcArchive
import Verif.Props.Archive
import Verif.Props.BTreeEffects
import Verif.Props.BTreeMap
import Verif.Props.BorrowLookup
import Verif.Props.Capacity
import Verif.Props.CapacityCollect
import Verif.Props.CopyOnWrite
import Verif.Props.CopyOnWriteAgain
import Verif.Props.Cost
import Verif.Props.CostOptimal
import Verif.Props.Effects
import Verif.Props.Hashing
import Verif.Props.Hostile
import Verif.Props.HostileRadix
import Verif.Props.HostileRadixResults
import Verif.Props.HostileTotal
import Verif.Props.IntoIter
import Verif.Props.IterKey
import Verif.Props.Iterators
import Verif.Props.LazyCell
import Verif.Props.LazyIter
import Verif.Props.LazyReaders
import Verif.Props.LazyReads
import Verif.Props.LazyReadsCopy
import Verif.Props.LazyReadsInPlace
import Verif.Props.Macros
import Verif.Props.MergeDepth
import Verif.Props.Multimap
import Verif.Props.Radix
import Verif.Props.RadixClone
import Verif.Props.RadixCost
import Verif.Props.RadixDb
import Verif.Props.RadixDbLate
import Verif.Props.RadixDbShared
import Verif.Props.RadixEffects
import Verif.Props.RadixEffectsPure
import Verif.Props.RadixPanic
import Verif.Props.RadixPrefixEffects
import Verif.Props.RadixWork
import Verif.Props.Schedule
import Verif.Props.SetClone
import Verif.Props.Shared
import Verif.Props.SharedOps
import Verif.Props.Storage
import Verif.Props.StorageSharing
import Verif.Props.Threads
import Verif.Props.TotalClone
import Verif.Props.TotalVecMap
import Verif.Props.TotalVecSet
import Verif.Props.ValidationDepth
import Verif.Props.ValidationWork
import Verif.Props.VecMap
import Verif.Props.VecSet
import Verif.Props.Watch
import Verif.Spec.ArcArchive
import Verif.Spec.Archive
import Verif.Spec.BTreeEffects
import Verif.Spec.Capacity
import Verif.Spec.CapacityHistory
import Verif.Spec.CopyOnWrite
import Verif.Spec.Effects
import Verif.Spec.HeapView
import Verif.Spec.Hostile
import Verif.Spec.HostileRadix
import Verif.Spec.IterKey
import Verif.Spec.LazyIter
import Verif.Spec.LazyTrace
import Verif.Spec.MapHistory
import Verif.Spec.Merging
import Verif.Spec.Order
import Verif.Spec.Radix
import Verif.Spec.RadixClone
import Verif.Spec.RadixDb
import Verif.Spec.RadixDbLate
import Verif.Spec.RadixDbShared
import Verif.Spec.RadixDepth
import Verif.Spec.RadixEffects
import Verif.Spec.RadixHistory
import Verif.Spec.RadixPanic
import Verif.Spec.RadixPrefixEffects
import Verif.Spec.RadixWork
import Verif.Spec.Retain
import Verif.Spec.Schedule
import Verif.Spec.SetClone
import Verif.Spec.SetHistory
import Verif.Spec.SharedHistory
import Verif.Spec.Storage
import Verif.Spec.Threads
import Verif.Spec.Total
import Verif.Spec.TotalClone
import Verif.Spec.TotalMap
import Verif.Spec.ValueMachine
