import Verif.Model.Configure
/-
What configuring a session should mean, from the calls made on it.
-/
namespace DD.Configure

open Headers Session

variable {fl : Session.Float} {X : Type}

/-- The calls made on each session: a copy starts with those made on the session it is a copy of. -/
def lineages (evs : List (Ev fl X)) : List (List (Call fl X)) :=
  evs.foldl (fun ls ev => match ev with
    | .call i c => ls.modify i (· ++ [c])
    | .clone i => match ls[i]? with
      | some l => ls ++ [l]
      | none => ls) [[]]

/-- The option a setter is documented to set, and the value, `/repo/src/distributed_ext.rs` (doc comments of `with_*`). -/
def Setter.field : Setter fl → Field
  | .fileScanConfigBytesPerPartition _ => .fileScanBytesPerPartition
  | .cardinalityEffectTaskScaleFactor _ => .cardinalityTaskCountFactor
  | .metricsCollection _ => .collectMetrics
  | .childrenIsolatorUnions _ => .childrenIsolatorUnions
  | .broadcastJoins _ => .broadcastJoins
  | .compression _ => .compression
  | .shuffleBatchSize _ => .shuffleBatchSize
  | .maxTasksPerStage _ => .maxTasksPerStage
  | .partialReduce _ => .partialReduce
  | .workerConnectionBufferBudgetBytes _ => .bufferBudget
  | .dynamicTaskCount _ => .dynamicTaskCount
  | .dynamicBytesPerPartition _ => .dynamicBytesPerPartition

def Setter.value : (s : Setter fl) → s.field.kind.Val fl
  | .fileScanConfigBytesPerPartition n => n
  | .cardinalityEffectTaskScaleFactor x => x
  | .metricsCollection b => b
  | .childrenIsolatorUnions b => b
  | .broadcastJoins b => b
  | .compression (some .zstd) => "zstd".toList
  | .compression (some .lz4) => "lz4".toList
  | .compression none => "none".toList
  | .shuffleBatchSize n => n
  | .maxTasksPerStage n => n
  | .partialReduce b => b
  | .workerConnectionBufferBudgetBytes n => n
  | .dynamicTaskCount b => b
  | .dynamicBytesPerPartition n => n

/-- Calls that are about an option. -/
def Call.about (f : Field) : Call fl X → Prop
  | .options _ => True
  | .fromHeaders _ => True
  | .set s => s.field = f
  | .sql key _ => key = f.key
  | _ => False

/-- Calls after which the distributed options are there. -/
def Call.brings : Call fl X → Bool
  | .options _ | .workerResolver _ | .channelResolver _ | .planner => true
  | _ => false

def Call.isFromHeaders : Call fl X → Bool
  | .fromHeaders _ => true
  | _ => false

def Call.codec? : Call fl X → Option X
  | .codec x => some x
  | _ => none

def Call.feed? : Call fl X → Option X
  | .feed x => some x
  | _ => none

def Call.workerResolver? : Call fl X → Option X
  | .workerResolver x => some x
  | _ => none

def Call.channelResolver? : Call fl X → Option X
  | .channelResolver x => some x
  | _ => none

def Call.localWorker? : Call fl X → Option X
  | .localWorker x => some x
  | _ => none

/-- Headers without a reserved name. -/
def Call.headers? : Call fl X → Option HeaderMap
  | .headers h => if h.any (fun x => configPrefix.isPrefixOf x.1) then none else some h
  | _ => none

/-- The user's handlers of a kind. -/
def Call.handler? (k : HandlerKind) : Call fl X → Option (Handler X)
  | .handler k' x => if k' = k then some (.user x) else none
  | _ => none

/-- The built-in handlers `with_distributed_planner` adds. -/
def Call.builtins (k : HandlerKind) : Call fl X → List (Handler X)
  | .planner => match k with
    | .desiredTaskCount => [.fileTaskCount]
    | .scaleUpLeaf => [.fileScaleUp]
    | .routeTasks => [.coordinatorRouting, .childUrlRouting, .randomRouting]
    | .workerPlanRewrite => []
  | _ => []

end DD.Configure
