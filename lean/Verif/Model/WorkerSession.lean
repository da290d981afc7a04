import Verif.Model.Headers
import Mathlib.Data.Nat.Digits.Defs
import Mathlib.Logic.Function.Basic
/-
The settings a task runs with on its worker. Models `/repo/src/distributed_planner/distributed_config.rs` (the options), the setters of
`/repo/src/distributed_ext.rs` that change them, `/repo/src/config_extension_ext.rs:11-22` (registering), the session a worker builds
for a task (`/repo/src/worker/impl_coordinator_channel.rs:43-75`) and `/repo/src/worker/session_builder.rs`.

Reading and printing of values is that of the macro `extensions_options!`: `Display` and `FromStr` of Rust. Decimal numbers and booleans
are modelled; `f64` is a type with a printer and a reader that undo each other. A key with a dot behind an option's name, which the
macro also accepts, does not exist here.
-/
namespace DD.Session

open Headers

/-- What the options of `DistributedConfig` hold. `distributed_config.rs:8-72`. -/
inductive Kind where
  | usize | bool | float | text
  deriving Repr, DecidableEq

/-- `f64`, `Display` and `FromStr` of `f64` (external). -/
structure Float where
  F : Type
  print : F → Str
  parse : Str → Option F
  /-- `1.0`, `distributed_config.rs:75-81` (1.5 in tests) -/
  one : F

/-- The type of the values of an option, `distributed_config.rs:8-72`. -/
def Kind.Val (fl : Float) : Kind → Type
  | .usize => Fin (2 ^ 64)
  | .bool => Bool
  | .float => fl.F
  | .text => Str

/-- The options, `distributed_config.rs:8-72`, in their order. -/
inductive Field where
  | fileScanBytesPerPartition | cardinalityTaskCountFactor | childrenIsolatorUnions | collectMetrics | broadcastJoins | compression
  | shuffleBatchSize | maxTasksPerStage | partialReduce | bufferBudget | dynamicTaskCount | dynamicBytesPerPartition
  deriving Repr, DecidableEq

/-- The options in their order, `distributed_config.rs:8-72`. -/
def Field.all : List Field :=
  [.fileScanBytesPerPartition, .cardinalityTaskCountFactor, .childrenIsolatorUnions, .collectMetrics, .broadcastJoins, .compression,
   .shuffleBatchSize, .maxTasksPerStage, .partialReduce, .bufferBudget, .dynamicTaskCount, .dynamicBytesPerPartition]

/-- The names of the options, `distributed_config.rs:8-72`. -/
def Field.key : Field → Str
  | .fileScanBytesPerPartition => "file_scan_config_bytes_per_partition".toList
  | .cardinalityTaskCountFactor => "cardinality_task_count_factor".toList
  | .childrenIsolatorUnions => "children_isolator_unions".toList
  | .collectMetrics => "collect_metrics".toList
  | .broadcastJoins => "broadcast_joins".toList
  | .compression => "compression".toList
  | .shuffleBatchSize => "shuffle_batch_size".toList
  | .maxTasksPerStage => "max_tasks_per_stage".toList
  | .partialReduce => "partial_reduce".toList
  | .bufferBudget => "worker_connection_buffer_budget_bytes".toList
  | .dynamicTaskCount => "dynamic_task_count".toList
  | .dynamicBytesPerPartition => "dynamic_bytes_per_partition".toList

/-- The types of the options, `distributed_config.rs:8-72`. -/
@[reducible] def Field.kind : Field → Kind
  | .cardinalityTaskCountFactor => .float
  | .childrenIsolatorUnions | .collectMetrics | .broadcastJoins | .partialReduce | .dynamicTaskCount => .bool
  | .compression => .text
  | .fileScanBytesPerPartition | .shuffleBatchSize | .maxTasksPerStage | .bufferBudget | .dynamicBytesPerPartition => .usize

/-- `DistributedConfig`. `distributed_config.rs:8-72`. -/
abbrev Config (fl : Float) := (f : Field) → f.kind.Val fl

/-- The defaults, `distributed_config.rs:14-71`. -/
def Config.default (fl : Float) : Config fl
  | .fileScanBytesPerPartition => (16777216 : Fin (2 ^ 64))
  | .cardinalityTaskCountFactor => fl.one
  | .childrenIsolatorUnions => true
  | .collectMetrics => true
  | .broadcastJoins => true
  | .compression => "lz4".toList
  | .shuffleBatchSize => (0 : Fin (2 ^ 64))
  | .maxTasksPerStage => (0 : Fin (2 ^ 64))
  | .partialReduce => false
  | .bufferBudget => (67108864 : Fin (2 ^ 64))
  | .dynamicTaskCount => false
  | .dynamicBytesPerPartition => (16777216 : Fin (2 ^ 64))

/-- `usize` in decimal. Rust's std. -/
def printNat (n : Nat) : Str := if n = 0 then ['0'] else (Nat.digits 10 n).reverse.map Nat.digitChar

/-- The value of a digit, `char::to_digit` (std). -/
def digitVal (c : Char) : Option Nat := if '0' ≤ c ∧ c ≤ '9' then some (c.toNat - 48) else none

/-- The loop of `usize::from_str` (std). -/
def parseDigits : Nat → Str → Option Nat
  | acc, [] => some acc
  | acc, c :: cs => match digitVal c with
    | none => none
    | some d => parseDigits (acc * 10 + d) cs

/-- A leading `+` is accepted by `usize::from_str` (std). -/
def stripPlus : Str → Str
  | '+' :: rest => rest
  | s => s

/-- `usize::from_str`: an optional sign, at least one digit, no overflow. Rust's std. -/
def parseUsize (s : Str) : Option (Fin (2 ^ 64)) :=
  if (stripPlus s).isEmpty then none
  else match parseDigits 0 (stripPlus s) with
    | none => none
    | some n => if h : n < 2 ^ 64 then some ⟨n, h⟩ else none

/-- `Display` of `bool` (std). -/
def printBool (b : Bool) : Str := if b then "true".toList else "false".toList

/-- `bool::from_str` (std). -/
def parseBool (s : Str) : Option Bool := if s = "true".toList then some true else if s = "false".toList then some false else none

/-- The macro `extensions_options` (DataFusion) prints values with `Display`. -/
def print (fl : Float) : (k : Kind) → k.Val fl → Str
  | .usize, n => printNat n.val
  | .bool, b => printBool b
  | .float, x => fl.print x
  | .text, s => s

/-- The macro `extensions_options` (DataFusion) reads values with `from_str`. -/
def parse (fl : Float) : (k : Kind) → Str → Option (k.Val fl)
  | .usize, s => parseUsize s
  | .bool, s => parseBool s
  | .float, s => fl.parse s
  | .text, s => some s

/-- The `match` on names of `extensions_options` (DataFusion). -/
def Field.ofKey (k : Str) : Option Field := Field.all.find? fun f => f.key = k

/-- `distributed_config.rs:123` -/
def distPrefix : Str := "distributed".toList

/-- `DistributedConfig` as a configuration extension, `distributed_config.rs:122-124` and the macro. -/
def distExt (fl : Float) : ExtType where
  State := Config fl
  pfx := distPrefix
  keys := Field.all.map Field.key
  get d k := (Field.ofKey k).map fun f => print fl f.kind (d f)
  set d k v := match Field.ofKey k with
    | none => .error (.plan "Config value not found")
    | some f => match parse fl f.kind v with
      | none => .error (.plan "Error parsing value")
      | some x => .ok (Function.update d f x)

/-- A coordinator's session, as far as workers are concerned: the batch size (one of DataFusion's own options), the distributed
options if there are any, the prefixes registered to be sent and the other extensions. -/
structure Coordinator (fl : Float) where
  batchSize : Nat := 8192
  dist : Option (Config fl) := none
  prefixes : List Str := []
  custom : List (Str × Entries) := []

/-- Calls that configure a session. `/repo/src/distributed_ext.rs:778-901`, `/repo/src/config_extension_ext.rs:11-22`. -/
inductive Call (fl : Float) where
  /-- `with_distributed_planner`, `with_distributed_worker_resolver` and `with_distributed_channel_resolver` put in the options if
  there are none, `distributed_config.rs:110-119` -/
  | ensure
  /-- `with_distributed_option_extension(DistributedConfig { .. })`, `config_extension_ext.rs:11-22` -/
  | distribute (d : Config fl)
  /-- DataFusion's `with_option_extension(DistributedConfig { .. })` -/
  | insert (d : Config fl)
  /-- a setter of `DistributedExt`, `distributed_ext.rs:778-901` -/
  | set (f : Field) (v : f.kind.Val fl)
  /-- `SET distributed.<key> = '<value>'` -/
  | sql (key value : Str)
  /-- `with_batch_size` -/
  | batchSize (n : Nat)
  /-- another extension registered with `with_distributed_option_extension` -/
  | extension (pfx : Str) (entries : Entries)

/-- Errors leave the session as it was. `/repo/src/distributed_ext.rs:778-901`, `/repo/src/config_extension_ext.rs:11-22`. -/
def Coordinator.call {fl : Float} (s : Coordinator fl) : Call fl → Coordinator fl
  | .ensure => match s.dist with
    | some _ => s
    | none => { s with dist := some (Config.default fl), prefixes := s.prefixes ++ [distPrefix] }
  | .distribute d => { s with dist := some d, prefixes := s.prefixes ++ [distPrefix] }
  | .insert d => { s with dist := some d }
  | .set f v => match s.dist with
    | none => s
    | some d => { s with dist := some (Function.update d f v) }
  | .sql key value => match s.dist with
    | none => s
    | some d => match (distExt fl).set d key value with
      | .ok d' => { s with dist := some d' }
      | .error _ => s
  | .batchSize n => { s with batchSize := n }
  | .extension pfx entries => { s with custom := s.custom.filter (fun e => e.1 != pfx) ++ [(pfx, entries)], prefixes := s.prefixes ++ [pfx] }

/-- A sequence of calls (`/repo/src/distributed_ext.rs:778-901`). -/
def Coordinator.run {fl : Float} (calls : List (Call fl)) : Coordinator fl := calls.foldl Coordinator.call {}

/-- The extensions of the session. `ConfigOptions::extensions` (DataFusion). -/
def Coordinator.exts {fl : Float} (s : Coordinator fl) : List (Str × Entries) :=
  (match s.dist with
    | some d => [(distPrefix, (distExt fl).entries d)]
    | none => []) ++ s.custom

/-- The option `shuffle_batch_size` as a number. `/repo/src/distributed_planner/distributed_config.rs:8-72`. -/
def shuffleBatch {fl : Float} (d : Config fl) : Nat :=
  let n : Fin (2 ^ 64) := d .shuffleBatchSize
  n.val

/-- The session of a task on a worker. `/repo/src/worker/impl_coordinator_channel.rs:43-75`. -/
structure Worker (fl : Float) where
  batchSize : Nat
  dist : Config fl
  taskIndex : Nat
  taskCount : Nat

/-- `impl_coordinator_channel.rs:43-63`: a default session with the task's index and count and the options in the headers. -/
def workerBase (fl : Float) (headers : HeaderMap) (taskIndex taskCount : Nat) : Except Err (Worker fl) := do
  let d ← fromHeaders (distExt fl) (Config.default fl) headers
  .ok { batchSize := if shuffleBatch d ≠ 0 then shuffleBatch d else 8192, dist := d, taskIndex, taskCount }

/-- `WorkerSessionBuilder`, `session_builder.rs:14-60`. -/
abbrev Builder (fl : Float) := Worker fl → HeaderMap → Except Err (Worker fl)

/-- `DefaultSessionBuilder`, `session_builder.rs:62-75`. -/
def defaultBuilder (fl : Float) : Builder fl := fun w _ => .ok w

/-- `MappedWorkerSessionBuilder`, `session_builder.rs:143-158`. -/
def Builder.map {fl : Float} (b : Builder fl) (f : Worker fl → Except Err (Worker fl)) : Builder fl := fun w h => do
  let w ← b w h
  f w

/-- A task's session: what the coordinator sends (`query_coordinator.rs:168-169`) and what the worker makes of it
(`impl_coordinator_channel.rs:43-75`). -/
def taskSession {fl : Float} (s : Coordinator fl) (passthrough : HeaderMap) (b : Builder fl) (taskIndex taskCount : Nat) :
    Except Err (Worker fl) := do
  let headers ← taskHeaders s.prefixes s.exts passthrough
  let w ← workerBase fl headers taskIndex taskCount
  b w headers

/-- What a worker compresses its rows with, `protocol/grpc/worker_service.rs:149-156`. -/
inductive Codec where
  | lz4 | zstd
  deriving Repr, DecidableEq

/-- The compression as read from the option, `protocol/grpc/worker_service.rs:149-156`. -/
def Worker.codec {fl : Float} (w : Worker fl) : Except Err (Option Codec) :=
  let c : Str := w.dist .compression
  if c = "lz4".toList then .ok (some .lz4)
  else if c = "zstd".toList then .ok (some .zstd)
  else if c = "none".toList then .ok none
  else .error (.plan "Unknown compression type")

/-- The value `set_distributed_compression` stores, `distributed_ext.rs:822-833`. -/
def compressionSetting : Option Codec → Str
  | some .zstd => "zstd".toList
  | some .lz4 => "lz4".toList
  | none => "none".toList

end DD.Session
