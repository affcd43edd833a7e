import Verif.Model.Mem
import Verif.Model.Blocked
import Verif.Model.NetCdf
import Verif.Model.Lru
import Verif.Model.Index
import Verif.Model.Counter
import Verif.Model.Levels
import Verif.Spec.Grid
import Verif.Spec.Coord
import Verif.Proofs.Radix
import Verif.Proofs.NetCdf
import Verif.Proofs.GetBlock
import Verif.Proofs.Lru
import Verif.Proofs.CacheList
import Verif.Proofs.Blocked
import Verif.Proofs.Index
import Verif.Proofs.Levels
import Verif.Props.Index
import Verif.Props.Blocks
import Verif.Props.Cache
import Verif.Props.Values
import Verif.Model.Params
import Verif.Spec.Text
import Verif.Props.Params
import Verif.Model.Api
import Verif.Props.Api
import Verif.Model.Directory
import Verif.Spec.Directory
import Verif.Proofs.Directory
import Verif.Props.Directory
import Verif.Model.Types
import Verif.Props.Types
import Verif.Model.Open
import Verif.Props.Open
import Verif.Model.Trans
import Verif.Model.Messages
import Verif.Proofs.Messages
import Verif.Props.Messages
import Verif.Model.CommThread
import Verif.Props.CommThread
import Verif.Model.Races
import Verif.Props.Races
import Verif.Model.Layout
import Verif.Props.Layout
import Verif.Model.Machine
import Verif.Proofs.Machine
import Verif.Props.Machine
import Verif.Model.MpiCount
import Verif.Props.MpiCount
import Verif.Model.Sync
import Verif.Proofs.Sync
import Verif.Props.Sync
import Verif.Model.MpiMutex
import Verif.Proofs.MpiMutex
import Verif.Spec.FifoLock
import Verif.Props.MpiMutex
import Verif.Model.CacheDist
import Verif.Proofs.CacheDist
import Verif.Proofs.CacheDistStep
import Verif.Model.CacheDistRun
import Verif.Proofs.CacheDistRun
import Verif.Spec.SharedCache
import Verif.Props.SharedCache
import Verif.Model.CacheDistLevel
import Verif.Props.SharedValues
import Verif.Proofs.CacheDistLive
import Verif.Proofs.CacheDistFrozen
import Verif.Props.SharedLive
import Verif.Proofs.CacheDistThread
import Verif.Proofs.CacheDistRetry
import Verif.Proofs.CacheDistSolo
import Verif.Proofs.CacheDistDrain
import Verif.Proofs.CacheDistFair
import Verif.Props.SharedRetry
import Verif.Props.SharedFair
import Verif.Model.Double
import Verif.Proofs.Double
import Verif.Proofs.DoubleAxis
import Verif.Props.Double
import Verif.Spec.DoubleExact
import Verif.Props.DoubleExact
import Verif.Model.OpenArgs
import Verif.Props.Defaults
import Verif.Model.CacheDistLib
import Verif.Spec.SharedLib
import Verif.Proofs.CacheDistLib
import Verif.Props.SharedLib
import Verif.Model.FullDistConc
import Verif.Spec.FullConc
import Verif.Proofs.FullDistConc
import Verif.Props.FullConc
import Verif.Model.PassConc
import Verif.Model.Session
import Verif.Spec.Session
import Verif.Props.PassConc
import Verif.Props.SampleDouble
import Verif.Props.Session
import Verif.Model.CommLife
import Verif.Spec.CommLife
import Verif.Props.CommLife
import Verif.Model.Collective
import Verif.Spec.Collective
import Verif.Props.Collective
import Verif.Model.Convert
import Verif.Spec.Convert
import Verif.Props.Convert
import Verif.Model.DirMachine
import Verif.Props.DirMachine
import Verif.Model.CounterConc
import Verif.Props.CounterConc
import Verif.Model.Fortran
import Verif.Spec.Fortran
import Verif.Props.Fortran
import Verif.Model.HandleConc
import Verif.Props.HandleConc
import Verif.Model.Reopen
import Verif.Props.Reopen
import Verif.Props.Walk
import Verif.Model.Resources
import Verif.Proofs.Resources
import Verif.Props.Resources
import Verif.Spec.Binary64
import Verif.Props.Binary64
import Verif.Model.OpenThreads
import Verif.Spec.OpenThreads
import Verif.Proofs.OpenThreads
import Verif.Props.OpenThreads
import Verif.Model.TypeConc
import Verif.Proofs.TypeConc
import Verif.Props.TypeConc
import Verif.Model.WinCache
import Verif.Model.WinCacheRun
import Verif.Spec.WinCache
import Verif.Proofs.WinCache
import Verif.Proofs.WinCacheLive
import Verif.Proofs.WinCacheRun
import Verif.Props.WinCache
import Verif.Model.MsgCache
import Verif.Model.MsgCacheRun
import Verif.Spec.MsgCache
import Verif.Proofs.MsgCacheFrame
import Verif.Proofs.MsgCache
import Verif.Proofs.MsgCacheStep
import Verif.Proofs.MsgCacheComm
import Verif.Proofs.MsgCacheLive
import Verif.Proofs.MsgCacheBuf
import Verif.Proofs.MsgCacheRun
import Verif.Props.MsgCache
import Verif.Model.FullMsg
import Verif.Model.FullMsgRun
import Verif.Spec.FullMsg
import Verif.Proofs.FullMsg
import Verif.Proofs.FullMsgLive
import Verif.Proofs.FullMsgRun
import Verif.Props.FullMsg
import Verif.Model.SessionComm
import Verif.Spec.SessionComm
import Verif.Props.SessionComm
import Verif.Model.ManyLevels
import Verif.Spec.ManyLevels
import Verif.Proofs.ManyLevels
import Verif.Proofs.ManyLevelsWin
import Verif.Proofs.ManyLevelsOnly
import Verif.Proofs.ManyLevelsOther
import Verif.Proofs.InLibrary
import Verif.Props.ManyLevels
import Verif.Spec.Deal
import Verif.Props.Deal
import Verif.Model.ManySessions
import Verif.Spec.ManySessions
import Verif.Proofs.ManySessions
import Verif.Props.ManySessions
import Verif.Model.ManyComm
import Verif.Spec.ManyComm
import Verif.Proofs.ManyComm
import Verif.Proofs.ManyCommKinds
import Verif.Proofs.ManyCommOnly
import Verif.Proofs.ManyCommRun
import Verif.Props.ManyComm
import Verif.Model.CommSessions
import Verif.Spec.CommSessions
import Verif.Proofs.CommSessions
import Verif.Props.CommSessions
import Verif.Proofs.ManyLevelsLocal
import Verif.Model.OpenWhile
import Verif.Spec.OpenWhile
import Verif.Proofs.OpenWhile
import Verif.Props.OpenWhile
import Verif.Model.RecvTable
import Verif.Spec.RecvTable
import Verif.Proofs.RecvTable
import Verif.Props.RecvTable
import Verif.Model.CloseMsg
import Verif.Spec.CloseMsg
import Verif.Proofs.CacheDistPoke
import Verif.Proofs.CloseMsg
import Verif.Props.CloseMsg
import Verif.Model.CloseFull
import Verif.Spec.CloseFull
import Verif.Proofs.CloseFull
import Verif.Props.CloseFull
import Verif.Model.CloseWin
import Verif.Spec.CloseWin
import Verif.Proofs.CloseWin
import Verif.Props.CloseWin
import Verif.Spec.Sources
import Verif.Props.Sources
import Verif.Model.FailedOpen
import Verif.Spec.FailedOpen
import Verif.Props.FailedOpen
import Verif.Model.ManyClose
import Verif.Spec.ManyClose
import Verif.Proofs.ManyClose
import Verif.Proofs.ManyCloseKinds
import Verif.Proofs.ManyCloseAll
import Verif.Proofs.ManyCloseCall
import Verif.Props.ManyClose
import Verif.Model.CloseSessions
import Verif.Spec.CloseSessions
import Verif.Proofs.CloseSessions
import Verif.Proofs.CloseSessionsAll
import Verif.Props.CloseSessions
import Verif.Model.CacheCount
import Verif.Spec.CacheCount
import Verif.Proofs.CacheCount
import Verif.Props.CacheCount
import Verif.Model.CountInc
import Verif.Spec.CountInc
import Verif.Proofs.CountInc
import Verif.Props.CountInc
import Verif.Spec.FileReads
import Verif.Proofs.FileReads
import Verif.Props.FileReads
import Verif.Model.MpiTypes
import Verif.Spec.MpiTypes
import Verif.Proofs.MpiTypes
import Verif.Props.MpiTypes
import Verif.Props.FullReads
import Verif.Model.OpenSync
import Verif.Spec.OpenSync
import Verif.Proofs.SyncNext
import Verif.Proofs.OpenSync
import Verif.Proofs.OpenSyncStep
import Verif.Proofs.OpenSyncEnd
import Verif.Props.OpenSync
import Verif.Spec.RegTables
import Verif.Props.RegTables
import Verif.Spec.Starvation
import Verif.Proofs.Starve
import Verif.Proofs.CacheDistStarve
import Verif.Proofs.CacheLibStarve
import Verif.Proofs.MtxStarve
import Verif.Proofs.WinStarve
import Verif.Props.Starvation
import Verif.Props.PassStarve
import Verif.Props.WinStarve
import Verif.Proofs.FullMsgStarve
import Verif.Props.FullMsgStarve
import Verif.Spec.ManyStarve
import Verif.Proofs.ManyStarve
import Verif.Proofs.ManyStarveKinds
import Verif.Proofs.ManyStarveWin
import Verif.Props.ManyStarve
import Verif.Spec.SessionStarve
import Verif.Proofs.SessionStarve
import Verif.Props.SessionStarve
