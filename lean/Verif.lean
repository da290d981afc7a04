import Verif.Model.Boundary
import Verif.Lemmas.Lists
import Verif.Lemmas.Boundary
import Verif.Props.Routing
import Verif.Props.TaskCount
import Verif.Props.Handlers
import Verif.Props.Stats
import Verif.Props.BroadcastQueue
import Verif.Props.Demux
import Verif.Props.Pool
import Verif.Props.EndToEnd
import Verif.Props.Worker
import Verif.Props.WorkUnit
import Verif.Props.Sampler
import Verif.Props.Close
import Verif.Props.Union
import Verif.Props.Leaf
import Verif.Props.Headers
import Verif.Model.Codec
import Verif.Model.PlanTree
import Verif.Model.Planner
import Verif.Props.Codec
import Verif.Lemmas.PlanReduce
import Verif.Lemmas.PlanInject
import Verif.Lemmas.PlanSource
import Verif.Lemmas.PlanPasses
import Verif.Spec.Aggregate
import Verif.Lemmas.Aggregate
import Verif.Props.Plan
import Verif.Props.Join
import Verif.Spec.Shape
import Verif.Lemmas.PlanShape
import Verif.Lemmas.PlanShapeInject
import Verif.Props.PlanShape
import Verif.Lemmas.PlanShapePrepare
import Verif.Lemmas.PlanShapeDeal
import Verif.Model.Recursion
import Verif.Spec.Recursion
import Verif.Lemmas.Recursion
import Verif.Props.Recursion
import Verif.Lemmas.Specialise
import Verif.Props.Specialise
import Verif.Model.Limit
import Verif.Spec.Limit
import Verif.Lemmas.Limit
import Verif.Lemmas.PlanFeeds
import Verif.Props.Limit
import Verif.Model.MetricsRewrite
import Verif.Spec.MetricsRewrite
import Verif.Lemmas.MetricsRewrite
import Verif.Props.MetricsRewrite
import Verif.Model.Create
import Verif.Spec.Create
import Verif.Lemmas.Create
import Verif.Props.Create
import Verif.Props.ErrorWire
import Verif.Props.Dynamic
import Verif.Props.Choice
import Verif.Props.RuntimeStats
import Verif.Props.LeafRows
import Verif.Props.Cost
import Verif.Model.Channels
import Verif.Props.Channels
import Verif.Model.InProcess
import Verif.Props.InProcess
import Verif.Model.WorkerSession
import Verif.Props.WorkerSession
import Verif.Lemmas.PlanHead
import Verif.Spec.Placed
import Verif.Props.Placed
import Verif.Spec.Head
import Verif.Props.Head
import Verif.Model.UserCodec
import Verif.Spec.UserCodec
import Verif.Props.UserCodec
import Verif.Model.Display
import Verif.Spec.Display
import Verif.Props.Display
import Verif.Model.MetricsDisplay
import Verif.Spec.MetricsDisplay
import Verif.Props.MetricsDisplay
import Verif.Model.Merge
import Verif.Model.Stream
import Verif.Spec.Order
import Verif.Spec.OrderBy
import Verif.Lemmas.Order
import Verif.Lemmas.OrderPlan
import Verif.Props.Order
import Verif.Props.OrderLeaf
import Verif.Props.OrderDynamic
import Verif.Model.Faulty
import Verif.Lemmas.Faulty
import Verif.Lemmas.FaultyQuiet
import Verif.Props.Faulty
import Verif.Spec.Merging
import Verif.Props.Merging
import Verif.Model.Fed
import Verif.Props.Fed
import Verif.Model.Times
import Verif.Props.Times
import Verif.Model.SamplerReport
import Verif.Props.SamplerReport
import Verif.Model.FeedPlan
import Verif.Spec.FeedPlan
import Verif.Lemmas.FeedPlan
import Verif.Props.FeedPlan
import Verif.Props.FeedEnds
import Verif.Model.Network
import Verif.Spec.Network
import Verif.Lemmas.Network
import Verif.Lemmas.NetworkEnd
import Verif.Lemmas.NetworkFlow
import Verif.Props.Network
import Verif.Model.PlanNetwork
import Verif.Lemmas.PlanNetwork
import Verif.Props.PlanNetwork
import Verif.Model.NetworkRows
import Verif.Lemmas.NetworkRows
import Verif.Lemmas.NetworkWithin
import Verif.Lemmas.NetworkRuns
import Verif.Lemmas.NetworkHonest
import Verif.Props.NetworkRows
import Verif.Props.NetworkDynamic
import Verif.Model.Rewrite
import Verif.Spec.Rewrite
import Verif.Lemmas.Rewrite
import Verif.Lemmas.RewriteRuns
import Verif.Props.Rewrite
import Verif.Model.Progress
import Verif.Props.Progress
import Verif.Props.ProgressPlan
import Verif.Props.Configure
import Verif.Props.ConfigurePlanner
import Verif.Spec.Isolation
import Verif.Lemmas.Isolation
import Verif.Model.Runs
import Verif.Props.Isolation
import Verif.Model.Analyze
import Verif.Model.Batches
import Verif.Spec.Analyze
import Verif.Spec.Batches
import Verif.Props.Analyze
import Verif.Props.MetricsDynamic
import Verif.Props.Batches
import Verif.Props.Traffic
import Verif.Props.MetricsRewritten
import Verif.Props.InProcessMetrics
import Verif.Props.UnionShares
import Verif.Props.SendMetrics
import Verif.Props.UserDynamic
import Verif.Props.StageStats
import Verif.Props.Percentile
import Verif.Props.Again
import Verif.Props.Requests
import Verif.Props.Rebuild
import Verif.Props.KeyCodec
import Verif.Props.FeedRead
import Verif.Props.Buffers
import Verif.Props.DrawInside
import Verif.Props.StageHeader
import Verif.Props.PlanEnds
import Verif.Props.Learned
import Verif.Props.LearnedLocal
import Verif.Props.LearnedTop
import Verif.Model.Sink
import Verif.Spec.Sink
import Verif.Props.Sink
import Verif.Model.OwnMetrics
import Verif.Spec.OwnMetrics
import Verif.Props.OwnMetrics
import Verif.Props.SinkAnalyze
import Verif.Props.SinkFailures
import Verif.Props.SinkPlaced
import Verif.Model.Ranges
import Verif.Spec.Ranges
import Verif.Props.Ranges
import Verif.Model.OrderedScan
import Verif.Spec.OrderedScan
import Verif.Props.OrderedScan
import Verif.Model.Answers
import Verif.Spec.Answers
import Verif.Props.Answers
import Verif.Props.AnswersStats
