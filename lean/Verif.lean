import Verif.Heap.Props
import Verif.Heap.Cost
import Verif.Heap.Index
import Verif.PQueue.Props
import Verif.PQueue.Ties
import Verif.Dllist.Props
import Verif.Dllist.Range
import Verif.Dllist.SelfPush
import Verif.Set.Props
import Verif.Set.Float
import Verif.GenMap.Props
import Verif.GenMap.During
import Verif.RWMap.Miss
import Verif.RWMap.Retain
import Verif.RWMap.Window
import Verif.RWMap.Panic
import Verif.RWMap.Handover
import Verif.RWMap.Turns
import Verif.RWMap.Race
import Verif.Lhashmap.Props
import Verif.Lhashmap.Range
import Verif.Ring.Props
import Verif.Ring.Wrap
import Verif.Tree.Props
import Verif.Tree.Draw
import Verif.Tree.Ends
import Verif.Vec.More
import Verif.Vec.Hidden
import Verif.Vec.Range
import Verif.Vec.Local
import Verif.Vec.Detect
import Verif.Vec.Effects
import Verif.HashRing.Crc
import Verif.HashRing.Float
import Verif.GenMap.Float
import Verif.Lhashmap.Float
import Verif.Refresh.Fun
import Verif.Refresh.Obs
import Verif.Refresh.Ret
import Verif.Refresh.Wait
import Verif.Refresh.Race
import Verif.Refresh.Nest
import Verif.SyncCache.Ends
import Verif.SyncCache.Whole
import Verif.SyncCache.Round
import Verif.SyncCache.Wrap
import Verif.SyncCache.Finish
import Verif.Lhashmap.Walk
import Verif.Dllist.Frame
import Verif.Dllist.RangeAll
import Verif.Dllist.SortE
import Verif.Dllist.Stale
import Verif.Heap.Panic
import Verif.Heap.Float
import Verif.RWMap.Hash
import Verif.RWMap.Float
import Verif.Misc.Props
import Verif.Misc.Zero
import Verif.RWMap.HB
import Verif.SyncCache.SysEnds
import Verif.SyncCache.SysHB
import Verif.SyncCache.Float
import Verif.SyncCache.Hash
import Verif.Refresh.Order
import Verif.Refresh.HB
import Verif.Refresh.Weak
import Verif.Heap.Retain
import Verif.SyncCache.Proc
import Verif.SyncCache.ProcSim
import Verif.SyncCache.ProcInv
import Verif.SyncCache.ProcReg
import Verif.SyncCache.ProcEx
import Verif.Lib.Pan
import Verif.GenMap.Hash
import Verif.Lhashmap.Hash
import Verif.Refresh.Zero
import Verif.Vec.Panic
import Verif.GenMap.Panic
import Verif.RWMap.Park
import Verif.SyncCache.Park
import Verif.RWMap.Fair
import Verif.Refresh.Fair
import Verif.SyncCache.Fair
import Verif.SyncCache.Settle
import Verif.SyncCache.WorldFair
import Verif.Misc.ZeroMade
import Verif.HashRing.Burst
import Verif.Dllist.Retain
import Verif.Lhashmap.Retain
import Verif.Vec.Slices
import Verif.Ring.Retain
import Verif.Tree.Retain
import Verif.HashRing.Retain
import Verif.Dllist.Cost
import Verif.Ring.DoF
import Verif.HashRing.Cost
import Verif.Tree.Nil
import Verif.Dllist.Nil
import Verif.Ring.Nil
import Verif.Dllist.Push
import Verif.Dllist.SliceAny
import Verif.Dllist.SortAny
import Verif.Dllist.AllCalls
