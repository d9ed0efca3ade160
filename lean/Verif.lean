import Verif.Util.AMap
import Verif.Model.VersionedMap
import Verif.Lemmas.VersionedMap
import Verif.Props.VersionedMap
import Verif.Model.RelationalMap
import Verif.Lemmas.RelationalMap
import Verif.Props.RelationalMap
import Verif.Model.Connections
import Verif.Lemmas.Connections
import Verif.Props.Connections
import Verif.Lemmas.TopicSync
import Verif.Props.TopicSync
import Verif.Model.Topic
import Verif.Model.Message
import Verif.Model.Broker
import Verif.Props.Prune
import Verif.Lemmas.Broker
import Verif.Props.Broker
import Verif.Model.Network
import Verif.Lemmas.Network
import Verif.Lemmas.NetworkStatic
import Verif.Lemmas.NetworkFifo
import Verif.Props.Network
import Verif.Model.UserSync
import Verif.Lemmas.UserSync
import Verif.Props.UserSync
import Verif.Model.Frame
import Verif.Lemmas.Frame
import Verif.Props.Frame
import Verif.Model.Pool
import Verif.Lemmas.Pool
import Verif.Props.Pool
import Verif.Model.Ident
import Verif.Props.Ident
import Verif.Util.AMapFilter
import Verif.Model.Discovery
import Verif.Props.DiscoverySpec
import Verif.Lemmas.Discovery
import Verif.Lemmas.Heartbeat
import Verif.Props.Discovery
import Verif.Model.Auth
import Verif.Model.AuthRun
import Verif.Model.AuthWorld
import Verif.Lemmas.AuthRun
import Verif.Lemmas.AuthPhases
import Verif.Props.Auth
import Verif.Props.AuthWorld
import Verif.Props.AuthRun
import Verif.Props.BrokerFrames
import Verif.Model.Client
import Verif.Lemmas.Client
import Verif.Props.Client
import Verif.Props.ClientLocks
import Verif.Model.Sessions
import Verif.Lemmas.Sessions
import Verif.Props.Handshake
import Verif.Props.Sessions
import Verif.Model.Whitelist
import Verif.Lemmas.Isolation
import Verif.Props.Whitelist
import Verif.Props.ClientClose
import Verif.Model.Codec
import Verif.Lemmas.Codec
import Verif.Lemmas.CodecBuild
import Verif.Lemmas.CodecRead
import Verif.Lemmas.CodecSize
import Verif.Props.Codec
import Verif.Props.SessionEnds
import Verif.Model.Mesh
import Verif.Lemmas.Mesh
import Verif.Props.Mesh
import Verif.Props.MeshUsers
import Verif.Props.MeshTurn
import Verif.Model.Memory
import Verif.Props.Memory
import Verif.Model.Heartbeat
import Verif.Props.Heartbeat
import Verif.Props.EndToEnd
import Verif.Model.Backlog
import Verif.Props.Backlog
import Verif.Props.Listing
import Verif.Model.Process
import Verif.Props.Process
import Verif.Props.MeshCrash
import Verif.Props.MeshFailover
import Verif.Props.MeshFound
import Verif.Props.MeshBack
import Verif.Props.MeshOnce
import Verif.Props.MeshOnceDirect
import Verif.Props.Kept
import Verif.Props.KeptMesh
import Verif.Props.MeshJoin
import Verif.Props.MeshEpochs
import Verif.Props.MeshEpochsDirect
import Verif.Props.MeshHistory
import Verif.Props.MeshHistorySettles
import Verif.Props.MeshHistoryTime
import Verif.Props.MeshHistoryTimeBound
import Verif.Props.MeshHistoryTimeTopics
import Verif.Props.MeshHistoryTopics
import Verif.Props.Agree
import Verif.Model.Eviction
import Verif.Props.Eviction
import Verif.Lemmas.NetworkOrder
import Verif.Props.NetworkOrder
import Verif.Props.PermitCount
import Verif.Props.Hooks
import Verif.Model.Transfer
import Verif.Lemmas.Transfer
import Verif.Props.Transfer
import Verif.Model.Failover
import Verif.Lemmas.Failover
import Verif.Props.Failover
import Verif.Model.Trust
import Verif.Props.Trust
import Verif.Replay.RepoTests
import Verif.Model.Startup
import Verif.Props.Startup
import Verif.Model.Latency
import Verif.Props.Latency
import Verif.Props.Whole
import Verif.Model.MeshTime
import Verif.Lemmas.MeshTime
import Verif.Props.MeshTime
import Verif.Props.MeshPatience
import Verif.Props.WholeTime
import Verif.Model.Realm
import Verif.Props.Realm
import Verif.Props.RealmOnce
import Verif.Model.Connect
import Verif.Props.Connect
import Verif.Model.Meter
import Verif.Props.Meter
import Verif.Props.Spread
import Verif.Props.Once
import Verif.Props.Wait
import Verif.Model.Reading
import Verif.Props.Reading
import Verif.Props.Returns
import Verif.Model.Choosing
import Verif.Props.Choosing
import Verif.Props.Redeeming
import Verif.Model.Checking
import Verif.Props.Checking
import Verif.Model.Linking
import Verif.Lemmas.Linking
import Verif.Props.Linking
import Verif.Model.Updating
import Verif.Props.Updating
import Verif.Props.LinkingUsers
import Verif.Props.LinkingPlaces
import Verif.Props.LinkingStays
import Verif.Props.LinkingTurn
import Verif.Model.Rng
import Verif.Props.Rng
import Verif.Model.Churn
import Verif.Lemmas.Churn
import Verif.Props.Churn
import Verif.Props.ChurnDirect
import Verif.Props.ChurnOrder
import Verif.Props.ChurnSafe
import Verif.Props.Echo
