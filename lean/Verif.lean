import Verif.Props.Range
import Verif.Props.SpaceCodec
import Verif.Props.Covers
import Verif.Props.RangeList
import Verif.Props.Group
import Verif.Props.Migrate
import Verif.Props.Partitioner
import Verif.Props.Split
import Verif.Props.Block
import Verif.Props.Reassign
import Verif.Props.Transition
import Verif.Props.Transition2d
import Verif.Props.ActionSort
import Verif.Props.Combine
import Verif.Props.AllocBuf
import Verif.Props.SplitReduce
import Verif.Props.Kvs
import Verif.Props.KvsMerge
import Verif.Props.KvsSync
import Verif.Props.Async
import Verif.Props.Stats
import Verif.Props.Layout
import Verif.Props.Pack
import Verif.Props.Copy
import Verif.Props.Reuse
import Verif.Props.IndexTrans
import Verif.Props.Types
import Verif.Props.MemStat
import Verif.Props.MapMem
import Verif.Props.Reserve
import Verif.Props.TcpFrame
import Verif.Props.TcpData
import Verif.Props.TcpResize
import Verif.Props.ReqQueue
import Verif.Spec.Form
import Verif.Model.FormCheck
import Verif.Model.FormCheckLemmas
import Verif.Props.FormCheck
import Verif.Spec.DataExec
import Verif.Model.DataExecLemmas
import Verif.Model.DataPointwise
import Verif.Model.Tcp2Exec
import Verif.Model.Tcp2ExecLemmas
import Verif.Model.Tcp2Match
import Verif.Model.Tcp2Order
import Verif.Model.Tcp2Values
import Verif.Model.Tcp2Switch
import Verif.Model.Tcp2Cells
import Verif.Props.Tcp2Exec
import Verif.Model.Stored
import Verif.Model.StoredLemmas
import Verif.Model.StoredEnough
import Verif.Props.Stored
import Verif.Model.SingleExec
import Verif.Model.SingleLemmas
import Verif.Props.SingleExec
import Verif.Spec.NetExec
import Verif.Spec.MemorySeq
import Verif.Model.NetExecLemmas
import Verif.Model.MpiPrepare
import Verif.Model.MpiNet
import Verif.Model.MpiComb
import Verif.Model.MpiWalk
import Verif.Model.MpiRelabel
import Verif.Model.MpiGroup
import Verif.Model.MpiSplit
import Verif.Model.MpiSplitWalk
import Verif.Model.MpiSplitRel
import Verif.Model.MpiProcess
import Verif.Model.MpiMatch
import Verif.Model.MpiNetOK
import Verif.Model.MpiAll
import Verif.Model.MpiChain
import Verif.Model.TransGroups
import Verif.Model.MpiFit
import Verif.Model.MpiCells
import Verif.Spec.Combine
import Verif.Model.MpiSetup
import Verif.Model.MpiJoin
import Verif.Model.MpiLocal
import Verif.Model.MpiSwitch
import Verif.Model.MpiExists
import Verif.Props.MpiSwitch
import Verif.Spec.AsyncExec
import Verif.Model.MpiAsync
import Verif.Model.MpiAsyncShape
import Verif.Model.MpiAsyncSim
import Verif.Model.MpiAsyncRun
import Verif.Model.MpiAsyncEnd
import Verif.Model.MpiAsyncReg
import Verif.Model.MpiAsyncV3
import Verif.Model.MpiAsyncSwitch
import Verif.Props.MpiAsync
import Verif.Model.MiniMpiProgress
import Verif.Props.MiniMpi
import Verif.Spec.Choreo
import Verif.Spec.MiniColl
import Verif.Model.Choreo
import Verif.Model.ChoreoRun
import Verif.Model.ChoreoLive
import Verif.Model.MiniColl
import Verif.Model.CollEvs
import Verif.Model.CollRun
import Verif.Model.CollSplit
import Verif.Model.CollMain
import Verif.Model.CollBarrier
import Verif.Model.CollSum
import Verif.Props.MiniColl
import Verif.Model.TcpSwitch
import Verif.Model.TcpStatic
import Verif.Model.TcpEvs
import Verif.Model.TcpBuild
import Verif.Model.TcpNoRet
import Verif.Props.TcpSwitch
import Verif.Spec.KvsRounds
import Verif.Model.Tcp2Sync
import Verif.Model.Tcp2SyncText
import Verif.Model.Tcp2SyncStore
import Verif.Model.Tcp2SyncInv
import Verif.Model.Tcp2SyncLocal
import Verif.Model.Tcp2SyncCli
import Verif.Model.Tcp2SyncSys
import Verif.Model.Tcp2SyncProg
import Verif.Props.Tcp2Sync
import Verif.Model.ProgSim
import Verif.Model.TcpSync
import Verif.Model.TcpSyncEvs
import Verif.Model.TcpSyncRound
import Verif.Model.TcpSyncStuck
import Verif.Props.TcpSync
import Verif.Spec.Log
import Verif.Model.Log
import Verif.Model.LogLemmas
import Verif.Model.LogParts
import Verif.Model.LogOrder
import Verif.Props.Log
import Verif.Model.DigitSort
import Verif.Props.DigitSort
import Verif.Model.Placement
import Verif.Model.History
import Verif.Props.History
import Verif.Spec.ActionStore
import Verif.Model.ActionStore
import Verif.Props.ActionStore
import Verif.Model.Names
import Verif.Props.Names
import Verif.Model.Agents
import Verif.Props.Agents
import Verif.Model.Server
import Verif.Model.ServerInv
import Verif.Model.ServerLive
import Verif.Props.Server
import Verif.Model.Conn
import Verif.Model.ConnLemmas
import Verif.Props.Conn
import Verif.Model.Profiling
import Verif.Spec.Profiling
import Verif.Model.ProfilingLemmas
import Verif.Props.Profiling
import Verif.Model.Locations
import Verif.Model.LocationsLemmas
import Verif.Props.Locations
import Verif.Model.ResSwitch
import Verif.Props.ResSwitch
import Verif.Spec.ResLife
import Verif.Model.ResLife
import Verif.Model.ResLifeLemmas
import Verif.Model.ResLifeSteps
import Verif.Model.ResLifeRun
import Verif.Props.ResLife
import Verif.Spec.TcpConn
import Verif.Model.TcpConn
import Verif.Model.TcpConnLemmas
import Verif.Model.TcpConnRun
import Verif.Props.TcpConn
import Verif.Spec.TcpConfig
import Verif.Model.TcpConfig
import Verif.Model.TcpConfigRun
import Verif.Model.TcpConfigLemmas
import Verif.Props.TcpConfig
import Verif.Spec.TcpStartup
import Verif.Model.TcpStartup
import Verif.Model.TcpStartupLemmas
import Verif.Props.TcpStartup
import Verif.Spec.TcpLoop
import Verif.Model.TcpLoop
import Verif.Model.TcpLoopLemmas
import Verif.Model.TcpLoopCalm
import Verif.Model.TcpLoopSteps
import Verif.Props.TcpLoop
import Verif.Spec.TcpStatus
import Verif.Model.TcpStatus
import Verif.Props.TcpStatus
