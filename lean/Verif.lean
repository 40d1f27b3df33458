import Verif.Props.HashTable
import Verif.Props.HashThrow
import Verif.Props.HashFnThrow
import Verif.Props.MemoThrow
import Verif.Props.HashRefs
import Verif.Props.Dump
import Verif.Props.ParDump
import Verif.Props.Layout
import Verif.Props.Parallel
import Verif.Props.Concurrent
import Verif.Props.Guards
import Verif.Props.Share
import Verif.Props.BitVector
import Verif.Props.BitMove
import Verif.Props.Lru
import Verif.Props.LruThreads
import Verif.Props.Memo
import Verif.Props.Soa
import Verif.Props.Intrusive
import Verif.Props.IntrusiveThreads
import Verif.Props.Utils
import Verif.Props.HashBits
import Verif.Props.HashCost
import Verif.Props.Vector
import Verif.Props.VecCost
import Verif.Props.Btree
import Verif.Props.BtreeCost
import Verif.Props.BtreeThrow
import Verif.Props.BtreeAlloc
import Verif.Props.HashAlloc
import Verif.Props.SoaFail
import Verif.Props.BitFail
import Verif.Props.Handles
import Verif.Props.BtreeCmpThrow
import Verif.Props.AllocOwner
import Verif.Props.NullCtrl
import Verif.Props.CallbackThrow
import Verif.Props.IntrusiveOrder
import Verif.Props.Race
import Verif.Props.Functors
import Verif.Props.BtreeOrders
import Verif.Props.BtreeStats
import Verif.Props.Salt
import Verif.Props.StringKeys
import Verif.Props.Capacity
import Verif.Props.SoaTables
import Verif.Props.ParRefs
import Verif.Props.ParReserve
import Verif.Props.ParReserveMore
import Verif.Props.LruThrow
import Verif.Props.Policy
import Verif.Props.IntrusiveCopies
import Verif.Props.Asked
import Verif.Props.BtreeQuery
import Verif.Props.HashQuery
import Verif.Props.VecHandover
import Verif.Props.Walk
import Verif.Props.IntrusiveConvert
import Verif.Props.ConcAlloc
import Verif.Props.ParAlloc
import Verif.Props.Archive
import Verif.Props.Reenter
import Verif.Props.Nested
import Verif.Props.ParCapacity
import Verif.Props.Debug
import Verif.Props.ScopedThrow
import Verif.Props.Timestamps
import Verif.Props.Lazy
import Verif.Props.SoaRows
import Verif.Props.Stopwatch
import Verif.Props.Stale
import Verif.Props.MapSlots
import Verif.Props.MapNodes
import Verif.Props.MapNodesThrow
import Verif.Props.MapNodesSwap
import Verif.Props.MapPool
import Verif.Props.MapPoolClear
import Verif.Props.MapPoolOrder
