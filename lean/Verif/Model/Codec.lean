/-
What travels over the wire: plan nodes, messages and metrics.

Models `/repo/src/codec/distributed_codec.rs:49-551`, the message conversions of
`/repo/src/protocol/grpc/worker_client.rs:405-544` and `/repo/src/protocol/grpc/worker_service.rs:196-348`,
`/repo/src/protocol/grpc/metrics_proto.rs:20-604` and `/repo/src/common/uuid.rs`.

The protobuf messages are modelled as values; turning them into bytes and back is `prost`, which is not
modelled. `usize as u64` and back is the identity (64-bit targets). Statistics collected at run time
(`RemoteStage::runtime_stats`) and coordinator-side metrics (`LocalStage::metrics_set`) are not sent and
not part of this model.
-/
import Verif.Model.Union

namespace DD.Codec

/-- `Vec<u8>` in the messages of `/repo/src/protocol/grpc/generated/worker.rs`. -/
abbrev Bytes := List UInt8

/-- A UUID is sixteen bytes. `uuid::Uuid`, `/repo/src/common/uuid.rs:5-11`. -/
structure Uuid where
  bytes : Bytes
  len : bytes.length = 16

/-- `serialize_uuid`, common/uuid.rs:9-11. -/
def serializeUuid (u : Uuid) : Bytes := u.bytes

/-- `deserialize_uuid`, common/uuid.rs:5-7. -/
def deserializeUuid (b : Bytes) : Except Err Uuid :=
  if h : b.length = 16 then .ok ⟨b, h⟩ else .error (.internal "Invalid Uuid bytes")

/-- The external conversions the codec relies on. -/
structure Lib where
  Url : Type
  Schema : Type
  SchemaPb : Type
  Part : Type
  PartPb : Type
  printUrl : Url → String
  parseUrl : String → Option Url
  encSchema : Schema → Except Err SchemaPb
  decSchema : SchemaPb → Except Err Schema
  encPart : Part → Except Err PartPb
  decPart : PartPb → Schema → Except Err (Option Part)

/-! ### Plan nodes -/

/-- `Stage`, stage.rs:73-117: the plan of a local stage is the child of the boundary. -/
inductive Location (Url : Type) where
  | here (tasks : Nat)
  | remote (workers : List Url)

/-- `Stage` with the fields that are sent, `/repo/src/stage.rs:73-117`. -/
structure Stage (Url : Type) where
  query : Uuid
  num : Nat
  loc : Location Url

/-- The three network boundaries. `/repo/src/codec/distributed_codec.rs:407-421`. -/
inductive Boundary where
  | shuffle | coalesce | broadcast
  deriving DecidableEq

/-- The plan nodes of this project, without their children; `other` is a node encoded by DataFusion or by a
user codec. -/
inductive Kind (L : Lib) where
  | boundary (b : Boundary) (schema : L.Schema) (part : L.Part) (stage : Stage L.Url)
  | broadcast (consumers : Nat)
  | union (partitions : Nat) (map : Union.TaskMap) (weights : List Union.ChildWeight)
  | sampler
  | other (code : Nat)

/-- A physical plan (DataFusion `ExecutionPlan`) with the nodes of `/repo/src/codec/distributed_codec.rs:245-375`. -/
inductive Plan (L : Lib) where
  | node (k : Kind L) (children : List (Plan L))

/-- `StageProto`, distributed_codec.rs:378-398: a task is an optional URL. -/
structure StageProto where
  query : Bytes
  num : Nat
  tasks : List (Option String)

/-- distributed_codec.rs:454-468. -/
structure CtxProto where
  child : Nat
  taskIdx : Nat
  taskCount : Nat

/-- distributed_codec.rs:446-452. -/
structure WeightProto where
  weight : Rat
  max : Option Nat

/-- The messages of distributed_codec.rs:406-551. Optional message fields are `Option`. -/
inductive KindProto (L : Lib) where
  | shuffle (schema : Option L.SchemaPb) (part : Option L.PartPb) (stage : Option StageProto)
  | coalesce (schema : Option L.SchemaPb) (part : Option L.PartPb) (stage : Option StageProto)
  | netBroadcast (schema : Option L.SchemaPb) (part : Option L.PartPb) (stage : Option StageProto)
  | broadcast (consumers : Nat)
  | union (partitions : Nat) (map : List (List CtxProto)) (weights : List WeightProto)
  | sampler
  | other (code : Nat)

/-- `PhysicalPlanNode` (datafusion-proto) whose extension nodes are `/repo/src/codec/distributed_codec.rs:401-421`. -/
inductive PlanProto (L : Lib) where
  | node (k : KindProto L) (children : List (PlanProto L))

/-- `encode_stage_proto`, distributed_codec.rs:251-272. -/
def encodeStage (L : Lib) (s : Stage L.Url) : StageProto :=
  ⟨serializeUuid s.query, s.num, match s.loc with
    | .here n => List.replicate n none
    | .remote ws => ws.map fun w => some (L.printUrl w)⟩

/-- The URLs of a remote stage, distributed_codec.rs:81-90. -/
def decodeUrls (L : Lib) : List (Option String) → Except Err (List L.Url)
  | [] => .ok []
  | none :: _ => .error (.internal "Missing URL in task")
  | some s :: ts =>
    match L.parseUrl s with
    | none => .error (.internal "Invalid URL in task")
    | some u => do
      let us ← decodeUrls L ts
      .ok (u :: us)

/-- `parse_stage_proto`, distributed_codec.rs:65-98: whether the stage is local is decided by the presence
of an input. -/
def decodeStage (L : Lib) (p : Option StageProto) (hasInput : Bool) : Except Err (Stage L.Url) :=
  match p with
  | none => .error (.internal "Empty StageProto")
  | some p =>
    if hasInput then do
      let q ← deserializeUuid p.query
      .ok ⟨q, p.num, .here p.tasks.length⟩
    else do
      let us ← decodeUrls L p.tasks
      let q ← deserializeUuid p.query
      .ok ⟨q, p.num, .remote us⟩

/-- `try_encode`, distributed_codec.rs:245-375 (`other` nodes are encoded elsewhere). -/
def encodeKind (L : Lib) : Kind L → Except Err (KindProto L)
  | .boundary b schema part stage => do
    let s ← L.encSchema schema
    let p ← L.encPart part
    .ok (match b with
      | .shuffle => .shuffle (some s) (some p) (some (encodeStage L stage))
      | .coalesce => .coalesce (some s) (some p) (some (encodeStage L stage))
      | .broadcast => .netBroadcast (some s) (some p) (some (encodeStage L stage)))
  | .broadcast n => .ok (.broadcast n)
  | .union p m ws => .ok (.union p
      (m.map fun v => v.map fun e => ⟨e.1, e.2.index, e.2.count⟩)
      (ws.map fun w => ⟨w.weight, w.max⟩))
  | .sampler => .ok .sampler
  | .other c => .ok (.other c)

/-- The common part of decoding a boundary, distributed_codec.rs:101-175. -/
def decodeBoundary (L : Lib) (b : Boundary) (schema : Option L.SchemaPb) (part : Option L.PartPb)
    (stage : Option StageProto) (hasInput : Bool) : Except Err (Kind L) :=
  match schema with
  | none => .error (.internal "missing schema")
  | some s => do
    let s ← L.decSchema s
    match part with
    | none => .error (.internal "missing partitioning")
    | some p => do
      match ← L.decPart p s with
      | none => .error (.internal "missing partitioning")
      | some p => do
        let st ← decodeStage L stage hasInput
        .ok (.boundary b s p st)

/-- `try_decode`, distributed_codec.rs:49-243; `inputs` is the number of decoded children. -/
def decodeKind (L : Lib) (inputs : Nat) : KindProto L → Except Err (Kind L)
  | .shuffle s p st => decodeBoundary L .shuffle s p st (0 < inputs)
  | .coalesce s p st => decodeBoundary L .coalesce s p st (0 < inputs)
  | .netBroadcast s p st => decodeBoundary L .broadcast s p st (0 < inputs)
  | .broadcast n => if inputs ≠ 1 then .error (.internal "BroadcastExec expects exactly one child") else .ok (.broadcast n)
  | .union p m ws =>
    if inputs = 0 then .error (.exec "UnionExec requires at least one input")
    else .ok (.union p
      (m.map fun v => v.map fun e => (e.child, ⟨e.taskIdx, e.taskCount⟩))
      (ws.map fun w => ⟨w.weight, w.max⟩))
  | .sampler => if inputs ≠ 1 then .error (.plan "expected one child") else .ok .sampler
  | .other c => .ok (.other c)

/- Encoding a whole plan: DataFusion encodes the children of an extension node and then calls
`try_encode`. -/
mutual
def encode (L : Lib) : Plan L → Except Err (PlanProto L)
  | .node k cs => do
    let cs ← encodeAll L cs
    let k ← encodeKind L k
    .ok (.node k cs)
/-- `encode` on every child, in order (datafusion-proto, before `try_encode`, `/repo/src/codec/distributed_codec.rs:245`). -/
def encodeAll (L : Lib) : List (Plan L) → Except Err (List (PlanProto L))
  | [] => .ok []
  | p :: ps => do
    let p ← encode L p
    let ps ← encodeAll L ps
    .ok (p :: ps)
end

/- Decoding a whole plan: the inputs are decoded first. -/
mutual
/-- datafusion-proto, then `try_decode`, `/repo/src/codec/distributed_codec.rs:49-243`. -/
def decode (L : Lib) : PlanProto L → Except Err (Plan L)
  | .node k cs => do
    let cs ← decodeAll L cs
    let k ← decodeKind L cs.length k
    .ok (.node k cs)
/-- `decode` on every child, in order (datafusion-proto, before `try_decode`, `/repo/src/codec/distributed_codec.rs:49`). -/
def decodeAll (L : Lib) : List (PlanProto L) → Except Err (List (Plan L))
  | [] => .ok []
  | p :: ps => do
    let p ← decode L p
    let ps ← decodeAll L ps
    .ok (p :: ps)
end

/-! ### Messages -/

/-- `TaskKey`, worker_channel.rs:58-66. -/
structure TaskKey where
  query : Uuid
  stage : Nat
  task : Nat

/-- `pb::TaskKey`, `/repo/src/protocol/grpc/generated/worker.rs`. -/
structure TaskKeyProto where
  query : Bytes
  stage : Nat
  task : Nat

/-- `encode_task_key`, worker_client.rs:486-492. -/
def encodeTaskKey (k : TaskKey) : TaskKeyProto := ⟨serializeUuid k.query, k.stage, k.task⟩

/-- `decode_task_key`, worker_service.rs:342-348. -/
def decodeTaskKey (p : TaskKeyProto) : Except Err TaskKey := do
  let q ← deserializeUuid p.query
  .ok ⟨q, p.stage, p.task⟩

/-- `ProducerHead`, network_boundary.rs:39-48, with an encoded or decoded partitioning. -/
inductive Head (P : Type) where
  | none
  | broadcast (outputPartitions : Nat)
  | repartition (partitioning : P)

/-- `encode_producer_head`, worker_client.rs:405-422 (`enc` is `MaybeEncoded::encode`). -/
def encodeHead {P B : Type} (enc : P → Except Err B) : Head P → Except Err (Head B)
  | .none => .ok .none
  | .broadcast n => .ok (.broadcast n)
  | .repartition p => do
    let b ← enc p
    .ok (.repartition b)

/-- `decode_producer_head` (worker_service.rs:247-257) followed by `ensure_decoded`
(network_boundary.rs:75-82). -/
def decodeHead {P B : Type} (dec : B → Except Err P) : Head B → Except Err (Head P)
  | .none => .ok .none
  | .broadcast n => .ok (.broadcast n)
  | .repartition b => do
    let p ← dec b
    .ok (.repartition p)

/-- `SetPlanRequest`, worker_channel.rs:75-96; the plan is already encoded. -/
structure SetPlan (Url : Type) where
  key : TaskKey
  taskCount : Nat
  plan : Bytes
  feeds : List (Uuid × Nat)
  url : Url
  startNs : Nat

/-- `pb::SetPlanRequest`, `/repo/src/protocol/grpc/generated/worker.rs`. -/
structure SetPlanProto where
  key : Option TaskKeyProto
  taskCount : Nat
  plan : Bytes
  feeds : List (Bytes × Nat)
  url : String
  startNs : Nat

/-- `encode_set_plan_request`, worker_client.rs:437-454. -/
def encodeSetPlan (L : Lib) (r : SetPlan L.Url) : SetPlanProto :=
  ⟨some (encodeTaskKey r.key), r.taskCount, r.plan,
    r.feeds.map fun f => (serializeUuid f.1, f.2), L.printUrl r.url, r.startNs⟩

/-- `/repo/src/protocol/grpc/worker_service.rs:333-340`. -/
def decodeFeed (f : Bytes × Nat) : Except Err (Uuid × Nat) := do
  let u ← deserializeUuid f.1
  .ok (u, f.2)

/-- `decode_set_plan_request`, worker_service.rs:219-232. -/
def decodeSetPlan (L : Lib) (p : SetPlanProto) : Except Err (SetPlan L.Url) :=
  match p.key with
  | none => .error (.exec "Missing field 'task_key'")
  | some k => do
    let k ← decodeTaskKey k
    let fs ← p.feeds.mapM decodeFeed
    match L.parseUrl p.url with
    | none => .error (.exec "Invalid field 'target_worker_url'")
    | some u => .ok ⟨k, p.taskCount, p.plan, fs, u, p.startNs⟩

/-- `ExecuteTaskRequest`, worker_channel.rs:160-173. -/
structure Execute (P : Type) where
  key : TaskKey
  lo : Nat
  hi : Nat
  head : Head P

/-- `pb::ExecuteTaskRequest`, `/repo/src/protocol/grpc/generated/worker.rs`. -/
structure ExecuteProto (B : Type) where
  key : Option TaskKeyProto
  lo : Nat
  hi : Nat
  head : Option (Head B)

/-- The request built in `execute_task`, worker_client.rs:95-106. -/
def encodeExecute {P B : Type} (enc : P → Except Err B) (r : Execute P) : Except Err (ExecuteProto B) := do
  let h ← encodeHead enc r.head
  .ok ⟨some (encodeTaskKey r.key), r.lo, r.hi, some h⟩

/-- `decode_execute_task_request`, worker_service.rs:234-245. -/
def decodeExecute {P B : Type} (dec : B → Except Err P) (p : ExecuteProto B) : Except Err (Execute P) :=
  match p.key with
  | none => .error (.exec "Missing field 'task_key'")
  | some k => do
    let k ← decodeTaskKey k
    match p.head with
    | none => .error (.exec "Missing field 'producer_head'")
    | some h => do
      let h ← decodeHead dec h
      .ok ⟨k, p.lo, p.hi, h⟩

/-- `WorkUnitMsg` with an encoded body, worker_channel.rs:103-118. -/
structure WorkUnit where
  id : Uuid
  partition : Nat
  body : Bytes
  created : Nat
  sent : Nat
  received : Nat
  processed : Nat

/-- `pb::WorkUnit`, `/repo/src/protocol/grpc/generated/worker.rs`. -/
structure WorkUnitProto where
  id : Bytes
  partition : Nat
  body : Bytes
  created : Nat
  sent : Nat
  received : Nat
  processed : Nat

/-- `encode_work_unit`, worker_client.rs:462-475. -/
def encodeWorkUnit (w : WorkUnit) : WorkUnitProto :=
  ⟨serializeUuid w.id, w.partition, w.body, w.created, w.sent, w.received, w.processed⟩

/-- `decode_work_unit`, worker_service.rs:321-331. -/
def decodeWorkUnit (p : WorkUnitProto) : Except Err WorkUnit := do
  let u ← deserializeUuid p.id
  .ok ⟨u, p.partition, p.body, p.created, p.sent, p.received, p.processed⟩

/-- `CoordinatorToWorkerMsg`. `/repo/src/protocol/worker_channel.rs:48-55`, without `SetPlan`, which is `SetPlanProto`. -/
inductive ToWorker where
  | batch (b : List WorkUnit)
  | eos

/-- `pb::coordinator_to_worker_msg::Inner`, `/repo/src/protocol/grpc/generated/worker.rs`. -/
inductive ToWorkerProto where
  | setPlan (p : SetPlanProto)
  | batch (b : List WorkUnitProto)
  | eos

/-- `encode_coordinator_to_worker_msg`, worker_client.rs:424-435. -/
def encodeToWorker : ToWorker → Option ToWorkerProto
  | .batch b => some (.batch (b.map encodeWorkUnit))
  | .eos => some .eos

/-- `decode_coordinator_to_worker_msg`, worker_service.rs:196-217. -/
def decodeToWorker : Option ToWorkerProto → Except Err ToWorker
  | none => .error (.exec "Missing field 'CoordinatorToWorkerMsg.inner'")
  | some (.setPlan _) => .error (.exec "SetPlanRequest must be the first coordinator message")
  | some (.batch b) => do
    let b ← b.mapM decodeWorkUnit
    .ok (.batch b)
  | some .eos => .ok .eos

/-! ### Metrics -/

/-- The values of a metric: DataFusion's and this project's. `Sk` is a DDSketch; `custom` is a custom metric
of somebody else. -/
inductive Value (Sk : Type) where
  | outputRows (n : Nat)
  | elapsedCompute (nanos : Nat)
  | spillCount (n : Nat)
  | spilledBytes (n : Nat)
  | spilledRows (n : Nat)
  | currentMemoryUsage (n : Nat)
  | count (name : String) (n : Nat)
  | gauge (name : String) (n : Nat)
  | peakMemoryUsage (name : String) (n : Nat)
  | time (name : String) (nanos : Nat)
  | startTimestamp (t : Option Int)
  | endTimestamp (t : Option Int)
  | outputBytes (n : Nat)
  | outputBatches (n : Nat)
  | pruning (name : String) (pruned matched : Nat)
  | ratio (name : String) (part total : Nat)
  | minLatency (name : String) (n : Nat)
  | maxLatency (name : String) (n : Nat)
  | avgLatency (name : String) (sum count : Nat)
  | firstLatency (name : String) (n : Nat)
  | bytesCount (name : String) (n : Nat)
  | p50 (name : String) (s : Sk)
  | p75 (name : String) (s : Sk)
  | p95 (name : String) (s : Sk)
  | p99 (name : String) (s : Sk)
  | maxGauge (name : String) (n : Nat)
  | custom (name : String)

/-- `Metric` (DataFusion), as taken apart in `/repo/src/protocol/grpc/metrics_proto.rs:66-291`. -/
structure Metric (Sk : Type) where
  value : Value Sk
  partition : Option Nat
  labels : List (String × String)

/-- `pb::metric::Value`. `/repo/src/protocol/grpc/generated/worker.rs`. -/
inductive ValueProto where
  | outputRows (n : Nat)
  | elapsedCompute (nanos : Nat)
  | spillCount (n : Nat)
  | spilledBytes (n : Nat)
  | spilledRows (n : Nat)
  | currentMemoryUsage (n : Nat)
  | count (name : String) (n : Nat)
  | gauge (name : String) (n : Nat)
  | peakMemoryUsage (name : String) (n : Nat)
  | time (name : String) (nanos : Nat)
  | startTimestamp (t : Option Int)
  | endTimestamp (t : Option Int)
  | outputBytes (n : Nat)
  | outputBatches (n : Nat)
  | pruning (name : String) (pruned matched : Nat)
  | ratio (name : String) (part total : Nat)
  | minLatency (name : String) (n : Nat)
  | maxLatency (name : String) (n : Nat)
  | avgLatency (name : String) (sum count : Nat)
  | firstLatency (name : String) (n : Nat)
  | bytesCount (name : String) (n : Nat)
  | p50 (name : String) (s : Bytes)
  | p75 (name : String) (s : Bytes)
  | p95 (name : String) (s : Bytes)
  | p99 (name : String) (s : Bytes)
  | maxGauge (name : String) (n : Nat)

/-- `pb::Metric`, `/repo/src/protocol/grpc/generated/worker.rs`. -/
structure MetricProto where
  value : Option ValueProto
  partition : Option Nat
  labels : List (String × String)

/-- `DateTime::timestamp_nanos_opt`: fails outside of `i64` nanoseconds.
`chrono`, used in `/repo/src/protocol/grpc/metrics_proto.rs:66-291`. -/
def nanosOpt : Option Int → Except Err (Option Int)
  | none => .ok none
  | some t => if -(2 ^ 63) ≤ t ∧ t < 2 ^ 63 then .ok (some t) else .error (.internal "timestamp out of range")

/-- The error `df_metric_to_proto` returns for somebody else's custom metric, metrics_proto.rs:59-60. -/
def customNotSupported : Err := .internal "custom metrics are not supported in metrics proto conversion"

/-- `df_metric_to_proto`, metrics_proto.rs:66-291. `ser` is `serialize_sketch`. -/
def encodeValue {Sk : Type} (ser : Sk → Except Err Bytes) : Value Sk → Except Err ValueProto
  | .outputRows n => .ok (.outputRows n)
  | .elapsedCompute n => .ok (.elapsedCompute n)
  | .spillCount n => .ok (.spillCount n)
  | .spilledBytes n => .ok (.spilledBytes n)
  | .spilledRows n => .ok (.spilledRows n)
  | .currentMemoryUsage n => .ok (.currentMemoryUsage n)
  | .count s n => .ok (.count s n)
  | .gauge s n => .ok (.gauge s n)
  | .peakMemoryUsage s n => .ok (.peakMemoryUsage s n)
  | .time s n => .ok (.time s n)
  | .startTimestamp t => do
    let t ← nanosOpt t
    .ok (.startTimestamp t)
  | .endTimestamp t => do
    let t ← nanosOpt t
    .ok (.endTimestamp t)
  | .outputBytes n => .ok (.outputBytes n)
  | .outputBatches n => .ok (.outputBatches n)
  | .pruning s a b => .ok (.pruning s a b)
  | .ratio s a b => .ok (.ratio s a b)
  | .minLatency s n => .ok (.minLatency s n)
  | .maxLatency s n => .ok (.maxLatency s n)
  | .avgLatency s a b => .ok (.avgLatency s a b)
  | .firstLatency s n => .ok (.firstLatency s n)
  | .bytesCount s n => .ok (.bytesCount s n)
  | .p50 s k => do
    let b ← ser k
    .ok (.p50 s b)
  | .p75 s k => do
    let b ← ser k
    .ok (.p75 s b)
  | .p95 s k => do
    let b ← ser k
    .ok (.p95 s b)
  | .p99 s k => do
    let b ← ser k
    .ok (.p99 s b)
  | .maxGauge s n => .ok (.maxGauge s n)
  | .custom _ => .error customNotSupported

/-- `df_metric_to_proto`, `/repo/src/protocol/grpc/metrics_proto.rs:66-291`. -/
def encodeMetric {Sk : Type} (ser : Sk → Except Err Bytes) (m : Metric Sk) : Except Err MetricProto := do
  let v ← encodeValue ser m.value
  .ok ⟨some v, m.partition, m.labels⟩

/-- `Time::add_duration` on a new `Time` (DataFusion): at least one nanosecond is recorded. -/
def timeOf (nanos : Nat) : Nat := max nanos 1

/-- `metric_proto_to_df`, metrics_proto.rs:294-604. -/
def decodeValue {Sk : Type} (de : Bytes → Except Err Sk) : ValueProto → Except Err (Value Sk)
  | .outputRows n => .ok (.outputRows n)
  | .elapsedCompute n => .ok (.elapsedCompute (timeOf n))
  | .spillCount n => .ok (.spillCount n)
  | .spilledBytes n => .ok (.spilledBytes n)
  | .spilledRows n => .ok (.spilledRows n)
  | .currentMemoryUsage n => .ok (.currentMemoryUsage n)
  | .count s n => .ok (.count s n)
  | .gauge s n => .ok (.gauge s n)
  | .peakMemoryUsage s n => .ok (.peakMemoryUsage s n)
  | .time s n => .ok (.time s (timeOf n))
  | .startTimestamp t => .ok (.startTimestamp t)
  | .endTimestamp t => .ok (.endTimestamp t)
  | .outputBytes n => .ok (.outputBytes n)
  | .outputBatches n => .ok (.outputBatches n)
  | .pruning s a b => .ok (.pruning s a b)
  | .ratio s a b => .ok (.ratio s a b)
  | .minLatency s n => .ok (.minLatency s n)
  | .maxLatency s n => .ok (.maxLatency s n)
  | .avgLatency s a b => .ok (.avgLatency s a b)
  | .firstLatency s n => .ok (.firstLatency s n)
  | .bytesCount s n => .ok (.bytesCount s n)
  | .p50 s b => do
    let k ← de b
    .ok (.p50 s k)
  | .p75 s b => do
    let k ← de b
    .ok (.p75 s k)
  | .p95 s b => do
    let k ← de b
    .ok (.p95 s k)
  | .p99 s b => do
    let k ← de b
    .ok (.p99 s k)
  | .maxGauge s n => .ok (.maxGauge s n)

/-- `metric_proto_to_df`, `/repo/src/protocol/grpc/metrics_proto.rs:294-598`. -/
def decodeMetric {Sk : Type} (de : Bytes → Except Err Sk) (m : MetricProto) : Except Err (Metric Sk) :=
  match m.value with
  | none => .error (.internal "proto metric is missing the metric field")
  | some v => do
    let v ← decodeValue de v
    .ok ⟨v, m.partition, m.labels⟩

/-- `df_metrics_set_to_proto`, metrics_proto.rs:20-43: unsupported metrics are skipped, any other error is
returned. -/
def encodeSet {Sk : Type} (ser : Sk → Except Err Bytes) : List (Metric Sk) → Except Err (List MetricProto)
  | [] => .ok []
  | m :: ms =>
    match encodeMetric ser m with
    | .ok p => do
      let ps ← encodeSet ser ms
      .ok (p :: ps)
    | .error e => if e = customNotSupported then encodeSet ser ms else .error e

/-- `metrics_set_proto_to_df`, metrics_proto.rs:46-56. -/
def decodeSet {Sk : Type} (de : Bytes → Except Err Sk) (ps : List MetricProto) : Except Err (List (Metric Sk)) :=
  ps.mapM (decodeMetric de)

/-- `TaskMetrics`, worker_channel.rs:133-142. -/
structure TaskMetrics (Sk : Type) where
  nodes : List (List (Metric Sk))
  task : List (Metric Sk)

/-- `pb::TaskMetrics`, `/repo/src/protocol/grpc/generated/worker.rs`. -/
structure TaskMetricsProto where
  nodes : List (List MetricProto)
  task : Option (List MetricProto)

/-- `encode_task_metrics`, worker_service.rs:279-293. -/
def encodeTaskMetrics {Sk : Type} (ser : Sk → Except Err Bytes) (t : TaskMetrics Sk) :
    Except Err TaskMetricsProto := do
  let ns ← t.nodes.mapM (encodeSet ser)
  let s ← encodeSet ser t.task
  .ok ⟨ns, some s⟩

/-- `decode_task_metrics`, worker_client.rs:515-528. -/
def decodeTaskMetrics {Sk : Type} (de : Bytes → Except Err Sk) (p : TaskMetricsProto) :
    Except Err (TaskMetrics Sk) := do
  let ns ← p.nodes.mapM (decodeSet de)
  match p.task with
  | none => .error (.internal "Missing field 'task_metrics'")
  | some s => do
    let s ← decodeSet de s
    .ok ⟨ns, s⟩

/-- `LoadInfo`, worker_channel.rs:144-168; `F` is `f32`. -/
structure Load (F : Type) where
  partition : Nat
  rowsReady : Nat
  bytesReady : List Nat
  ndv : List F
  nulls : List F
  rowsPulled : Nat
  eos : Bool

/-- `pb::LoadInfo`, `/repo/src/protocol/grpc/generated/worker.rs`. -/
structure LoadProto (F : Type) where
  partition : Nat
  rowsReady : Nat
  bytesReady : List Nat
  ndv : List F
  nulls : List F
  rowsPulled : Nat
  eos : Bool

/-- `encode_load_info`, worker_service.rs:295-309. -/
def encodeLoad {F : Type} (l : Load F) : LoadProto F :=
  ⟨l.partition, l.rowsReady, l.bytesReady, l.ndv, l.nulls, l.rowsPulled, l.eos⟩

/-- `decode_load_info`, worker_client.rs:530-544. -/
def decodeLoad {F : Type} (l : LoadProto F) : Load F :=
  ⟨l.partition, l.rowsReady, l.bytesReady, l.ndv, l.nulls, l.rowsPulled, l.eos⟩

end DD.Codec
