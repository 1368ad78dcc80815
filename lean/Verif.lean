import Verif.Committee.Props
import Verif.Cert.Props
import Verif.Gas.PenaltyProps
import Verif.Gas.FeeProps
import Verif.Gas.RestartProps
import Verif.Schedule.Props
import Verif.Storage.LayeredReads
import Verif.Voting.Props
import Verif.Proposer.Example
import Verif.Proposer.Certifier
import Verif.Proposer.CertifierProps
import Verif.Proposer.CertifierMain
import Verif.Proposer.CertifierLife
import Verif.Proposer.CertifierSpec
import Verif.Proposer.CertifierVotes
import Verif.Proposer.CertifierExample
import Verif.System.Certified
import Verif.System.JointExample
import Verif.Sync.PendingExample
import Verif.Codec.Golden
import Verif.Codec.Chain
import Verif.Codec.NodeRecord
import Verif.Token.Balance
import Verif.Exec.Output
import Verif.Exec.Build
import Verif.Exec.BuildProps
import Verif.Exec.StateProps
import Verif.Gossip.Tally
import Verif.Gossip.TallyProps
import Verif.Gossip.TallyLive
import Verif.Gossip.Blame
import Verif.Gossip.BlameProps
import Verif.Worker.Fetch
import Verif.Worker.Quorum
import Verif.Worker.Avail
import Verif.Worker.AvailExample
import Verif.Archive.Hdx
import Verif.Archive.HdxCrash
import Verif.Archive.DataFile
import Verif.Archive.Record
import Verif.Archive.PackModel
import Verif.Archive.PackProps
import Verif.Archive.PackRun
import Verif.Archive.PackExample
import Verif.Archive.Chain
import Verif.Archive.ChainProps
import Verif.Archive.ChainRun
import Verif.Exec.Pipeline
import Verif.Exec.PipelineProps
import Verif.Exec.Handoff
import Verif.Exec.HandoffProps
import Verif.Exec.PipelineExample
import Verif.Epoch.Record
import Verif.Epoch.Store
import Verif.Epoch.Votes
import Verif.Epoch.Example
import Verif.Sync.Retention
import Verif.Sync.RetentionFork
import Verif.Archive.Import
import Verif.Archive.Validate
import Verif.Archive.ValidateProps
import Verif.Archive.ValidateImport
import Verif.Archive.ValidateMain
import Verif.Archive.ImportProps
import Verif.Archive.ImportMain
import Verif.Archive.ImportComplete
import Verif.Archive.ImportLimits
import Verif.Epoch.Shuffle
import Verif.Epoch.ShuffleProps
import Verif.Epoch.ShuffleMain
import Verif.Net.Map
import Verif.Net.Peers
import Verif.Net.PeersInv
import Verif.Net.PeersIdx
import Verif.Net.PeersPrune
import Verif.Net.PeersMain
import Verif.Net.PeersTrust
import Verif.Net.PeersBan
import Verif.Net.PeersBanLast
import Verif.Net.PeersBanTerm
import Verif.Net.PeersIdent
import Verif.Net.PeersExample
import Verif.Net.Cache
import Verif.Net.CacheMain
import Verif.Net.Blacklist
import Verif.Net.PeersMore
import Verif.Net.BlacklistMore
import Verif.Tx.Build
import Verif.Tx.BuildProps
import Verif.Tx.BuildMain
import Verif.Tx.Target
import Verif.Tx.Forward
import Verif.Tx.ForwardProps
import Verif.Tx.ForwardMain
import Verif.Tx.ForwardBatch
import Verif.Tx.Life
import Verif.Tx.LifeMain
import Verif.Tx.LifeProps
import Verif.Tx.Loop
import Verif.Tx.LoopMain
import Verif.Exex.Channel
import Verif.Exex.Merge
import Verif.Exex.Router
import Verif.Exex.Replay
import Verif.Exex.Seam
import Verif.Exex.SeamProof
import Verif.Exex.SeamMain
import Verif.Exex.SeamProps
import Verif.Exex.SeamTheorems
import Verif.Tx.ForwardMore
import Verif.Wire.Snap
import Verif.Wire.Message
import Verif.Wire.MessageProps
import Verif.Wire.Frame
import Verif.Wire.Pack
import Verif.Wire.CertStream
import Verif.Wire.Demo
import Verif.Fetch.Collector
import Verif.Fetch.CollectorProps
import Verif.Fetch.Answer
import Verif.Fetch.Fetcher
import Verif.Fetch.Fan
import Verif.Fetch.Demo
import Verif.Probe.Probe
import Verif.Probe.Admit
import Verif.Follow.Ledger
import Verif.Follow.Drain
import Verif.Follow.DrainInv
import Verif.Follow.DrainProps
import Verif.Loop.Engine
import Verif.Loop.EngineProps
import Verif.Loop.Notice
import Verif.Loop.Channel
import Verif.Loop.Sequencer
import Verif.Loop.SequencerProps
import Verif.Mode.Model
import Verif.Mode.Inv
import Verif.Mode.Props
import Verif.Mode.Behind
import Verif.Mode.BehindProps
import Verif.Proposer.Timing
import Verif.Proposer.TimingInv
import Verif.Proposer.TimingProps
import Verif.Proposer.TimingExample
import Verif.Bls.Precompile
import Verif.Bls.PrecompileProps
import Verif.Genesis.Ceremony
import Verif.Genesis.CeremonyProps
import Verif.Snapshot.Pack
import Verif.Snapshot.Publish
import Verif.Snapshot.PublishInv
import Verif.Snapshot.PublishProps
import Verif.Snapshot.PackProps
import Verif.Snapshot.Export
import Verif.Snapshot.Restore
import Verif.Snapshot.Window
import Verif.Snapshot.Import
import Verif.Snapshot.Transfer
import Verif.Snapshot.Datadir
import Verif.Kad.Store
import Verif.Kad.StoreProps
import Verif.Kad.Known
import Verif.Kad.KnownProps
import Verif.Kad.Providers
import Verif.Exec.Executor
import Verif.Exec.ExecutorProps
import Verif.Exec.ExecutorGas
import Verif.Epoch.Entry
import Verif.Epoch.EntryProps
import Verif.Epoch.EntryExample
import Verif.Loop.Tasks
import Verif.Loop.TasksProps
import Verif.Archive.CertPack
import Verif.Archive.CertPackProps
import Verif.Archive.CertPackExample
import Verif.Gateway.Limiter
import Verif.Gateway.LimiterProps
import Verif.Gateway.LimiterMain
import Verif.Gateway.LimiterKey
import Verif.Gateway.LimiterExample
import Verif.Gateway.Proxy
import Verif.Gateway.ProxyProps
import Verif.Gateway.ProxyExample
import Verif.Gateway.Server
import Verif.Net.Streams
import Verif.Net.StreamsProps
import Verif.Net.StreamsMain
import Verif.Net.StreamsTime
import Verif.Net.StreamsBlame
import Verif.Net.StreamsExample
import Verif.Net.Dialing
import Verif.Net.DialingProps
import Verif.Net.DialingMain
import Verif.Net.DialingMore
import Verif.Snapshot.Resume
import Verif.Snapshot.ResumeMore
import Verif.Storage.Notify
import Verif.Storage.NotifyProps
import Verif.Storage.NotifyMain
import Verif.Storage.NotifySpec
import Verif.Storage.NotifyExample
import Verif.Follow.WaitExec
import Verif.Follow.WaitExecRing
import Verif.Follow.WaitExecProps
import Verif.Follow.WaitExecSpec
import Verif.Follow.WaitExecClose
import Verif.Rpc.Blocking
import Verif.Rpc.BlockingInv
import Verif.Rpc.BlockingProps
import Verif.Rpc.BlockingMain
import Verif.Rpc.BlockingAnswer
import Verif.Epoch.Router
import Verif.Epoch.RouterInv
import Verif.Epoch.RouterMain
import Verif.Epoch.RouterOrder
import Verif.Epoch.DiskActor
import Verif.Epoch.Wait
import Verif.Epoch.WaitProps
import Verif.Tx.FeeCap
import Verif.Tx.FeeCapProps
import Verif.Keys.Disk
import Verif.Keys.DiskProps
import Verif.Archive.Crc
import Verif.Archive.Stream
import Verif.Archive.StreamProps
import Verif.Archive.StreamImport
import Verif.Storage.Atomic
import Verif.Storage.Composite
import Verif.Storage.CompositeProps
import Verif.Storage.CompositeMain
import Verif.Storage.Backends
import Verif.Storage.BackendsProps
import Verif.Storage.BackendsMain
import Verif.Gateway.Health
import Verif.Gateway.HealthProps
import Verif.Loop.Broadcast
import Verif.Loop.BroadcastProps
import Verif.Archive.IndexFile
import Verif.Archive.IndexFileProps
import Verif.Archive.Bucket
import Verif.Archive.BucketProps
import Verif.Archive.BucketSave
import Verif.Archive.BucketSplit
import Verif.Archive.PosFile
import Verif.Archive.PosFileProps
import Verif.Archive.BloomBytes
import Verif.Archive.IndexNew
