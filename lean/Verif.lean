import Verif.Props.Id
import Verif.Props.Binary
import Verif.Props.Tree
import Verif.Props.Collector
import Verif.Props.Balance
import Verif.Props.Lru
import Verif.Props.Cache
import Verif.Props.JsonString
import Verif.Props.Parser
import Verif.Props.Json
import Verif.Props.Document
import Verif.Props.Convert
import Verif.Props.Handlers
import Verif.Props.Forward
import Verif.Props.Ring
import Verif.Props.Sink
import Verif.Props.System
import Verif.Props.Cluster
import Verif.Props.Oversize
import Verif.Props.Settling
import Verif.Props.Consume
import Verif.Props.Debug
import Verif.Props.TimeJson
import Verif.Props.CacheMetrics
import Verif.Props.Jaeger
import Verif.Props.JaegerTypes
import Verif.Props.Truncate
import Verif.Props.Tokens
import Verif.Props.Syntax
import Verif.Props.Shape
import Verif.Props.Redeliver
import Verif.Props.Interleave
import Verif.Props.TagHeap
import Verif.Props.Together
import Verif.Props.View
import Verif.Props.Isolation
import Verif.Proofs.Bounded
import Verif.Proofs.FirstBig
import Verif.Props.Endless
import Verif.Props.Accept
import Verif.Props.Repeat
import Verif.Props.Server
import Verif.Props.Account
import Verif.Props.Allocation
import Verif.Props.Answer
import Verif.Props.AnyMemory
import Verif.Props.Depth
import Verif.Props.ErrorText
import Verif.Props.Cost
import Verif.Props.RepoTests
import Verif.Props.CollectorCost
import Verif.Props.Fair
import Verif.Props.FairSender
import Verif.Props.Intact
import Verif.Props.Posted
import Verif.Props.FairFront
import Verif.Props.FairCluster
import Verif.Props.Pieces
import Verif.Props.BinaryError
import Verif.Props.Recovery
import Verif.Props.BinaryMemory
import Verif.Props.RingLock
import Verif.Props.BatchesWitness
import Verif.Props.TimeRead
import Verif.Props.JaegerAny
import Verif.Props.Avro
import Verif.Props.Held
import Verif.Props.HeldKafka
import Verif.Props.Race
import Verif.Props.Clocks
import Verif.Props.Formats
import Verif.Props.Shift
import Verif.Props.Warnings
import Verif.Props.SinkLines
import Verif.Props.Meters
import Verif.Props.Amplify
import Verif.Props.Timely
import Verif.Props.Roots
import Verif.Props.Load
import Verif.Props.Verbose
import Verif.Props.Lookup
import Verif.Props.Divided
import Verif.Props.SinkMemory
import Verif.Props.Api
import Verif.Props.ApiV1
import Verif.Props.Gauges
import Verif.Props.Modest
import Verif.Props.LogTraces
import Verif.Props.Headers
import Verif.Props.Stop
import Verif.Props.Slice
import Verif.Props.TimelyCluster
import Verif.Props.TimelyPieces
import Verif.Props.TimelyLoad
import Verif.Props.Burst
import Verif.Props.Even
import Verif.Props.Moved
import Verif.Props.Offsets
import Verif.Props.Producer
import Verif.Props.BinaryFields
import Verif.Props.ReceiverLog
import Verif.Props.Shedding
import Verif.Props.Batches
import Verif.Props.EncoderMemory
import Verif.Props.Partition
import Verif.Props.Shares
import Verif.Props.Rename
import Verif.Props.Above
import Verif.Props.Later
import Verif.Props.Unsafe
import Verif.Props.Orders
import Verif.Props.Due
import Verif.Props.References
import Verif.Props.SharedMemory
import Verif.Props.TagForward
