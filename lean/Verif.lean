import Verif.Lemma.ActionBus
import Verif.Lemma.ActionDone
import Verif.Lemma.ActionEff
import Verif.Lemma.ActionFrame
import Verif.Lemma.ActionFrame2
import Verif.Lemma.ActionHist
import Verif.Lemma.ActionHist2
import Verif.Lemma.ActionInv
import Verif.Lemma.ActionMore
import Verif.Lemma.ActionPlay
import Verif.Lemma.ActionTalk
import Verif.Lemma.ActionTrack
import Verif.Lemma.Answered
import Verif.Lemma.AnsweredPlay
import Verif.Lemma.Build
import Verif.Lemma.BusCost
import Verif.Lemma.BusHist
import Verif.Lemma.BusInv
import Verif.Lemma.BusLive
import Verif.Lemma.BusMore
import Verif.Lemma.BusStep
import Verif.Lemma.BusSub
import Verif.Lemma.BusTree
import Verif.Lemma.BusWorld
import Verif.Lemma.CallbackException
import Verif.Lemma.Canon
import Verif.Lemma.Container
import Verif.Lemma.Cycle
import Verif.Lemma.Decimal
import Verif.Lemma.Dict
import Verif.Lemma.Endless
import Verif.Lemma.Equal
import Verif.Lemma.Exceptions
import Verif.Lemma.Exchange
import Verif.Lemma.FlatBomb
import Verif.Lemma.FlatBytes
import Verif.Lemma.FlatParts
import Verif.Lemma.FlatRead
import Verif.Lemma.FlatRound
import Verif.Lemma.FlatSame
import Verif.Lemma.FlatSize
import Verif.Lemma.FlatTable
import Verif.Lemma.FlatWrite
import Verif.Lemma.Follow
import Verif.Lemma.Fs
import Verif.Lemma.Grid
import Verif.Lemma.GridCause
import Verif.Lemma.GridEndless
import Verif.Lemma.GridOrder
import Verif.Lemma.GridSchedule
import Verif.Lemma.GridSettle
import Verif.Lemma.GridTravel
import Verif.Lemma.Handle
import Verif.Lemma.Ieee
import Verif.Lemma.Installer
import Verif.Lemma.Interleave
import Verif.Lemma.Json
import Verif.Lemma.LampPost
import Verif.Lemma.LampPost2
import Verif.Lemma.LampPost3
import Verif.Lemma.Life
import Verif.Lemma.LifeFrame
import Verif.Lemma.LifeInv
import Verif.Lemma.LifeKeep
import Verif.Lemma.Link
import Verif.Lemma.LinkAgain
import Verif.Lemma.LinkConc
import Verif.Lemma.LinkHistory
import Verif.Lemma.LinkLife
import Verif.Lemma.LinkSend
import Verif.Lemma.Local
import Verif.Lemma.Locks
import Verif.Lemma.Net
import Verif.Lemma.NetTree
import Verif.Lemma.NullData
import Verif.Lemma.Observe
import Verif.Lemma.OpenRequests
import Verif.Lemma.Overload
import Verif.Lemma.Overwritten
import Verif.Lemma.Path
import Verif.Lemma.Plugin
import Verif.Lemma.Print
import Verif.Lemma.Query
import Verif.Lemma.Race
import Verif.Lemma.RaceResponse
import Verif.Lemma.RaceRun
import Verif.Lemma.RawBytes
import Verif.Lemma.Reach
import Verif.Lemma.Registered
import Verif.Lemma.Remote
import Verif.Lemma.RemoteCourse
import Verif.Lemma.RemoteEndless
import Verif.Lemma.RemotePlay
import Verif.Lemma.Returned
import Verif.Lemma.Service
import Verif.Lemma.ServiceStatus
import Verif.Lemma.Shape
import Verif.Lemma.Sim
import Verif.Lemma.Spin
import Verif.Lemma.Substr
import Verif.Lemma.SysHistory
import Verif.Lemma.SysInfo
import Verif.Lemma.SysInfoFree
import Verif.Lemma.SysInfoInv
import Verif.Lemma.SysInfoPlay
import Verif.Lemma.SysInfoPub
import Verif.Lemma.SysInfoWorld
import Verif.Lemma.SysLife
import Verif.Lemma.SysRemote
import Verif.Lemma.SysRemotePlay
import Verif.Lemma.Team
import Verif.Lemma.TeamLeave
import Verif.Lemma.TeamPlay
import Verif.Lemma.Transport
import Verif.Lemma.Tree
import Verif.Lemma.WF
import Verif.Lemma.Wire
import Verif.Lemma.WireRead
import Verif.Model.Access
import Verif.Model.Action
import Verif.Model.Bus
import Verif.Model.BusConc
import Verif.Model.Cmd
import Verif.Model.Config
import Verif.Model.Datagram
import Verif.Model.Dict
import Verif.Model.Exceptions
import Verif.Model.Flat
import Verif.Model.Fs
import Verif.Model.FsWin
import Verif.Model.Grid
import Verif.Model.Heap
import Verif.Model.Installer
import Verif.Model.Json
import Verif.Model.JsonLib
import Verif.Model.LampPost
import Verif.Model.Life
import Verif.Model.Link
import Verif.Model.LinkConc
import Verif.Model.LinkLife
import Verif.Model.Locks
import Verif.Model.Log
import Verif.Model.Main
import Verif.Model.Message
import Verif.Model.Net
import Verif.Model.Node
import Verif.Model.Out
import Verif.Model.Overload
import Verif.Model.Payload
import Verif.Model.Plugin
import Verif.Model.PluginWin
import Verif.Model.Process
import Verif.Model.Prog
import Verif.Model.Query
import Verif.Model.Race
import Verif.Model.RawBytes
import Verif.Model.Remote
import Verif.Model.Service
import Verif.Model.Signals
import Verif.Model.Str
import Verif.Model.SysInfo
import Verif.Model.SysLife
import Verif.Model.SysRemote
import Verif.Model.Team
import Verif.Model.Transport
import Verif.Model.Uuid
import Verif.Model.Val
import Verif.Model.Wire
import Verif.Model.Worker
import Verif.Prop.Access
import Verif.Prop.AccessFrame
import Verif.Prop.Action
import Verif.Prop.ActionEnd
import Verif.Prop.ActionLife
import Verif.Prop.ActionWait
import Verif.Prop.Answered
import Verif.Prop.BusOrder
import Verif.Prop.BusQueue
import Verif.Prop.BusTree
import Verif.Prop.CallbackException
import Verif.Prop.Config
import Verif.Prop.Configured
import Verif.Prop.Copy
import Verif.Prop.Destroy
import Verif.Prop.Endless
import Verif.Prop.Equal
import Verif.Prop.Exceptions
import Verif.Prop.Flat
import Verif.Prop.FlatSame
import Verif.Prop.Forest
import Verif.Prop.Free
import Verif.Prop.Fs
import Verif.Prop.FsWin
import Verif.Prop.Grid
import Verif.Prop.GridEndless
import Verif.Prop.GridOrder
import Verif.Prop.GridSettle
import Verif.Prop.Hierarchy
import Verif.Prop.Host
import Verif.Prop.Imported
import Verif.Prop.Installer
import Verif.Prop.Instances
import Verif.Prop.Instantiate
import Verif.Prop.Interleave
import Verif.Prop.LampPost
import Verif.Prop.Life
import Verif.Prop.Link
import Verif.Prop.LinkEnd
import Verif.Prop.LinkLife
import Verif.Prop.LinkSend
import Verif.Prop.Locks
import Verif.Prop.Log
import Verif.Prop.Main
import Verif.Prop.Message
import Verif.Prop.MessagePrint
import Verif.Prop.Net
import Verif.Prop.NullData
import Verif.Prop.Object
import Verif.Prop.OpenRequests
import Verif.Prop.Overload
import Verif.Prop.Overwritten
import Verif.Prop.Paths
import Verif.Prop.Payload
import Verif.Prop.Plugin
import Verif.Prop.PluginManager
import Verif.Prop.PluginWin
import Verif.Prop.Print
import Verif.Prop.Process
import Verif.Prop.Race
import Verif.Prop.RawBytes
import Verif.Prop.Registered
import Verif.Prop.Remote
import Verif.Prop.RemoteEndless
import Verif.Prop.Returned
import Verif.Prop.Search
import Verif.Prop.Service
import Verif.Prop.Shutdown
import Verif.Prop.Signals
import Verif.Prop.SysInfo
import Verif.Prop.SysLife
import Verif.Prop.SysRemote
import Verif.Prop.Team
import Verif.Prop.Uuid
import Verif.Prop.Wire
import Verif.Prop.Worker
import Verif.Spec.Access
import Verif.Spec.Action
import Verif.Spec.Answered
import Verif.Spec.Bus
import Verif.Spec.CallbackException
import Verif.Spec.Client
import Verif.Spec.Configured
import Verif.Spec.Container
import Verif.Spec.Doc
import Verif.Spec.Endless
import Verif.Spec.Exceptions
import Verif.Spec.Flat
import Verif.Spec.Free
import Verif.Spec.Graph
import Verif.Spec.Grid
import Verif.Spec.GridEndless
import Verif.Spec.GridOrder
import Verif.Spec.Ieee
import Verif.Spec.Imported
import Verif.Spec.Installer
import Verif.Spec.Interleave
import Verif.Spec.LampPost
import Verif.Spec.Life
import Verif.Spec.Link
import Verif.Spec.LinkConc
import Verif.Spec.LinkLife
import Verif.Spec.Locks
import Verif.Spec.Net
import Verif.Spec.OpenRequests
import Verif.Spec.Overload
import Verif.Spec.Overwritten
import Verif.Spec.Path
import Verif.Spec.Payload
import Verif.Spec.Print
import Verif.Spec.Race
import Verif.Spec.RawBytes
import Verif.Spec.Read
import Verif.Spec.Registered
import Verif.Spec.Remote
import Verif.Spec.RemoteEndless
import Verif.Spec.Returned
import Verif.Spec.Sent
import Verif.Spec.Service
import Verif.Spec.SysInfo
import Verif.Spec.SysLife
import Verif.Spec.SysRemote
import Verif.Spec.Team
import Verif.Spec.Tree
import Verif.Spec.Wire
