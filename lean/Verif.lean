import Verif.Model.Affinity
import Verif.Model.Buffer
import Verif.Model.BufferApi
import Verif.Model.Capacity
import Verif.Model.Compaction
import Verif.Model.Conc
import Verif.Model.ConcHeap
import Verif.Model.Cost
import Verif.Model.Driver
import Verif.Model.Dynamic
import Verif.Model.FSTrie
import Verif.Model.Floats
import Verif.Model.Full
import Verif.Model.ISAM
import Verif.Model.Instances
import Verif.Model.IntCoords
import Verif.Model.Learned
import Verif.Model.LearnedBuild
import Verif.Model.LevelCheck
import Verif.Model.Louds
import Verif.Model.Memory
import Verif.Model.Merge
import Verif.Model.MtAppend
import Verif.Model.OwnKnnTests
import Verif.Model.OwnSampleTests
import Verif.Model.OwnShardTests
import Verif.Model.OwnStringTests
import Verif.Model.OwnTests
import Verif.Model.OwnViewTests
import Verif.Model.Ownership
import Verif.Model.Points
import Verif.Model.Query
import Verif.Model.Record
import Verif.Model.RecordVariants
import Verif.Model.Rounding
import Verif.Model.Sampling
import Verif.Model.Scheduler
import Verif.Model.SerialSched
import Verif.Model.ShardMem
import Verif.Model.Snapshot
import Verif.Model.SortedShard
import Verif.Model.Stats
import Verif.Model.Structure
import Verif.Model.Tail32
import Verif.Model.Teardown
import Verif.Model.Torn
import Verif.Model.Util
import Verif.Model.VPCost
import Verif.Model.VPTree
import Verif.Model.Views
import Verif.Model.Work
import Verif.Proofs.Abs
import Verif.Proofs.BSM
import Verif.Proofs.BSMNet
import Verif.Proofs.BSMShape
import Verif.Proofs.Bare
import Verif.Proofs.Bits
import Verif.Proofs.Buffer
import Verif.Proofs.BufferApi
import Verif.Proofs.BufferRun
import Verif.Proofs.Cap
import Verif.Proofs.Capacity
import Verif.Proofs.Closure
import Verif.Proofs.ConcAct
import Verif.Proofs.ConcClient
import Verif.Proofs.ConcContend
import Verif.Proofs.ConcCore
import Verif.Proofs.ConcData
import Verif.Proofs.ConcHeap
import Verif.Proofs.ConcHist
import Verif.Proofs.ConcInv
import Verif.Proofs.ConcJob
import Verif.Proofs.ConcMain
import Verif.Proofs.ConcOrder
import Verif.Proofs.ConcPool
import Verif.Proofs.ConcProgress
import Verif.Proofs.ConcProgressJob
import Verif.Proofs.ConcRest
import Verif.Proofs.ConcRun
import Verif.Proofs.ConcStep
import Verif.Proofs.ConcStuck
import Verif.Proofs.Conserve
import Verif.Proofs.Cost
import Verif.Proofs.Count
import Verif.Proofs.Cycle
import Verif.Proofs.CycleQuery
import Verif.Proofs.CycleRun
import Verif.Proofs.Decompose
import Verif.Proofs.Driver
import Verif.Proofs.FSTagging
import Verif.Proofs.FSTrie
import Verif.Proofs.Flush
import Verif.Proofs.Full
import Verif.Proofs.FullShape
import Verif.Proofs.ISAM
import Verif.Proofs.Index
import Verif.Proofs.InsertOnly
import Verif.Proofs.Instances
import Verif.Proofs.IntCoords
import Verif.Proofs.Keeps
import Verif.Proofs.Knn
import Verif.Proofs.KnnRound
import Verif.Proofs.Later
import Verif.Proofs.Learned
import Verif.Proofs.LearnedBuild
import Verif.Proofs.LevHeight
import Verif.Proofs.Linear
import Verif.Proofs.LookupOrder
import Verif.Proofs.Merge
import Verif.Proofs.MtAppend
import Verif.Proofs.NoAbort
import Verif.Proofs.OwnKnnTests
import Verif.Proofs.OwnKnnTie
import Verif.Proofs.OwnShardTests
import Verif.Proofs.OwnStringTests
import Verif.Proofs.OwnTests
import Verif.Proofs.Owned
import Verif.Proofs.Ownership
import Verif.Proofs.OwnershipOps
import Verif.Proofs.OwnershipStatic
import Verif.Proofs.Pair
import Verif.Proofs.Plan
import Verif.Proofs.PointLookup
import Verif.Proofs.Points
import Verif.Proofs.Query
import Verif.Proofs.Reduces
import Verif.Proofs.Rounding
import Verif.Proofs.Run
import Verif.Proofs.Safety
import Verif.Proofs.SampleEnd
import Verif.Proofs.SampleLaw
import Verif.Proofs.Sampling
import Verif.Proofs.Scheduler
import Verif.Proofs.SegTotal
import Verif.Proofs.Segments
import Verif.Proofs.Serial
import Verif.Proofs.SerialRefine
import Verif.Proofs.SerialRun
import Verif.Proofs.Shape
import Verif.Proofs.ShapeRun
import Verif.Proofs.ShardMem
import Verif.Proofs.Snapshot
import Verif.Proofs.Stable
import Verif.Proofs.Static
import Verif.Proofs.StaticLaw
import Verif.Proofs.Tagging
import Verif.Proofs.Torn
import Verif.Proofs.Unbiased
import Verif.Proofs.Util
import Verif.Proofs.VPAverage
import Verif.Proofs.VPCost
import Verif.Proofs.VPIndex
import Verif.Proofs.VPLookup
import Verif.Proofs.VPTree
import Verif.Proofs.VPVisits
import Verif.Proofs.ViewDelete
import Verif.Proofs.Views
import Verif.Proofs.Work
import Verif.Proofs.WssFair
import Verif.Proofs.WssLaw
import Verif.Properties.Affinity
import Verif.Properties.Alone
import Verif.Properties.Buffer
import Verif.Properties.BufferApi
import Verif.Properties.Capacity
import Verif.Properties.Compaction
import Verif.Properties.ConcHeap
import Verif.Properties.Concurrency
import Verif.Properties.Conservation
import Verif.Properties.ConservationBSM
import Verif.Properties.Contention
import Verif.Properties.Cost
import Verif.Properties.CountTomb
import Verif.Properties.Counts
import Verif.Properties.Cycle
import Verif.Properties.Epochs
import Verif.Properties.FSTagging
import Verif.Properties.FSTrie
import Verif.Properties.Fanout
import Verif.Properties.Floats
import Verif.Properties.Full
import Verif.Properties.FullQuiet
import Verif.Properties.FullReads
import Verif.Properties.FullSampleLaw
import Verif.Properties.FullSampling
import Verif.Properties.FullStatic
import Verif.Properties.FullTomb
import Verif.Properties.FullUser
import Verif.Properties.IntCoords
import Verif.Properties.KnnTomb
import Verif.Properties.LearnedBuild
import Verif.Properties.LevelCheck
import Verif.Properties.LinearTomb
import Verif.Properties.Linearizable
import Verif.Properties.LookupOrder
import Verif.Properties.Memory
import Verif.Properties.MtAppend
import Verif.Properties.OwnKnnTests
import Verif.Properties.OwnMerging
import Verif.Properties.OwnSampleTests
import Verif.Properties.OwnShardTests
import Verif.Properties.OwnStringTests
import Verif.Properties.OwnTests
import Verif.Properties.OwnViewTests
import Verif.Properties.Ownership
import Verif.Properties.PointLookup
import Verif.Properties.Points
import Verif.Properties.Pool
import Verif.Properties.Progress
import Verif.Properties.RangeCount
import Verif.Properties.RangeQuery
import Verif.Properties.Records
import Verif.Properties.Rest
import Verif.Properties.Rounding
import Verif.Properties.Safety
import Verif.Properties.SampleEnd
import Verif.Properties.SampleLaw
import Verif.Properties.Sampling
import Verif.Properties.Scheduler
import Verif.Properties.Search
import Verif.Properties.Segments
import Verif.Properties.SerialSched
import Verif.Properties.Shape
import Verif.Properties.ShardMem
import Verif.Properties.Shards
import Verif.Properties.Snapshot
import Verif.Properties.StaticBlocks
import Verif.Properties.StaticLaw
import Verif.Properties.StaticTomb
import Verif.Properties.Stats
import Verif.Properties.TaggingErase
import Verif.Properties.Tail32
import Verif.Properties.Teardown
import Verif.Properties.Torn
import Verif.Properties.Unbiased
import Verif.Properties.UserQuery
import Verif.Properties.Util
import Verif.Properties.VPAverage
import Verif.Properties.VPCost
import Verif.Properties.VPTree
import Verif.Properties.VersionOrder
import Verif.Properties.VersionShape
import Verif.Properties.ViewDelete
import Verif.Properties.Views
import Verif.Properties.Work
import Verif.Properties.WssFair
import Verif.Spec
import Verif.SpecDict
import Verif.SpecQuery
import Verif.SpecVP
