import Verif.Model.WorkerSession
import Verif.Model.Handlers
/-
Configuring a session. Models `DistributedExt` (`/repo/src/distributed_ext.rs:750-1480`) with what its functions call, and
`with_distributed_planner` (`/repo/src/distributed_planner/session_state_builder_ext.rs:24-53`).

A `SessionConfig` of DataFusion holds its options behind a reference-counted pointer that is copied on writing, and a map
from types to reference-counted values. Both are modelled as addresses into a heap, because copies of a session (the clones
made for every query, task and context) share what is behind them.

Codecs, resolvers, feed getters, handlers and local worker contexts given by the user are opaque values of a type `X`.
-/
namespace DD.Configure

open Headers Session

/-- The four kinds of event handlers, `/repo/src/distributed_ext.rs:904-918`. -/
inductive HandlerKind where
  | desiredTaskCount | scaleUpLeaf | routeTasks | workerPlanRewrite
  deriving DecidableEq, Repr

/-- A handler: the user's, or one of the built-in ones.
`/repo/src/distributed_ext.rs:904-918`; the built-in ones are `/repo/src/events/defaults`. -/
inductive Handler (X : Type) where
  | user (x : X)
  | fileTaskCount
  | fileScaleUp
  | coordinatorRouting
  | childUrlRouting
  | randomRouting
  deriving DecidableEq, Repr

/-- The types under which a session keeps what it was given. `SessionConfig::set_extension` (DataFusion) is keyed by type. -/
inductive Slot where
  /-- `UserProvidedCodecs`, `/repo/src/codec/user_codec.rs:5` -/
  | codecs
  /-- `WorkUnitFeedRegistry`, `/repo/src/work_unit_feed/work_unit_feed_registry.rs:90-93` -/
  | feeds
  /-- `WorkerResolverExtension`, `/repo/src/worker_resolver.rs` -/
  | workerResolver
  /-- `ChannelResolverExtension`, `/repo/src/protocol/channel_resolver.rs` -/
  | channelResolver
  /-- `LocalWorkerContext` -/
  | localWorker
  /-- `PassthroughHeaders`, `/repo/src/passthrough_headers.rs:8-9` -/
  | headers
  /-- `ConfigExtensionPropagationContext`, `/repo/src/config_extension_ext.rs:90-93` -/
  | prefixes
  /-- `EventHandlerChain`, `/repo/src/events/common.rs:4-7` -/
  | chain (k : HandlerKind)
  deriving DecidableEq, Repr

/-- What is kept under a type. The types are those named at `Slot`, `/repo/src/distributed_ext.rs:750-918`. -/
@[reducible] def Slot.Val (X : Type) : Slot → Type
  | .codecs | .feeds => List X
  | .workerResolver | .channelResolver | .localWorker => X
  | .headers => HeaderMap
  | .prefixes => List Str
  | .chain _ => HandlerChain (Handler X)

/-- The options of a session, `ConfigOptions`: DataFusion's option that the planner changes
(`optimizer.enable_physical_uncorrelated_scalar_subquery`), the distributed options if they are there, and other option
extensions. -/
structure Options (fl : Session.Float) where
  scalarSubqueries : Bool := true
  dist : Option (Config fl) := none
  others : List (Str × Entries) := []

/-- A `SessionConfig`: addresses. DataFusion. -/
structure Ref where
  options : Nat
  ext : Slot → Option Nat

/-- All sessions of a process. The heap is a device of the model; sessions are `SessionConfig`s (DataFusion). -/
structure World (fl : Session.Float) (X : Type) where
  optionHeap : List (Options fl)
  heap : (s : Slot) → List (s.Val X)
  sessions : List Ref

variable {fl : Session.Float} {X : Type}

/-- One new session. `SessionConfig::new` (DataFusion). -/
def World.init : World fl X := ⟨[{}], fun _ => [], [⟨0, fun _ => none⟩]⟩

/-- `SessionConfig::options`. DataFusion. -/
def World.options (w : World fl X) (i : Nat) : Options fl :=
  match w.sessions[i]? with
  | some r => (w.optionHeap[r.options]?).getD {}
  | none => {}

/-- A write through `SessionConfig::options_mut`, which is `Arc::make_mut`: in place if no other session refers to the options,
on a copy otherwise. DataFusion. -/
def World.setOptions (w : World fl X) (i : Nat) (o : Options fl) : World fl X :=
  match w.sessions[i]? with
  | none => w
  | some r =>
    if (List.range w.sessions.length).any (fun j => j != i && (w.sessions[j]?).any fun r' => r'.options == r.options) then
      { w with optionHeap := w.optionHeap ++ [o]
               sessions := w.sessions.set i { r with options := w.optionHeap.length } }
    else { w with optionHeap := w.optionHeap.set r.options o }

/-- `SessionConfig::get_extension`. DataFusion. -/
def World.get (w : World fl X) (i : Nat) (s : Slot) : Option (s.Val X) := do
  let r ← w.sessions[i]?
  let a ← r.ext s
  (w.heap s)[a]?

/-- `SessionConfig::set_extension(Arc::new(v))`: a new value, to which only this session's map refers. DataFusion. -/
def World.put (w : World fl X) (i : Nat) (s : Slot) (v : s.Val X) : World fl X :=
  match w.sessions[i]? with
  | none => w
  | some r =>
    { w with heap := Function.update w.heap s (w.heap s ++ [v])
             sessions := w.sessions.set i { r with ext := Function.update r.ext s (some (w.heap s).length) } }

/-- `SessionConfig::clone`: the addresses are copied. DataFusion. -/
def World.clone (w : World fl X) (i : Nat) : World fl X :=
  match w.sessions[i]? with
  | none => w
  | some r => { w with sessions := w.sessions ++ [r] }

/-! ### The functions of `DistributedExt` -/

/-- `propagation_ctx.prefixes.push(T::PREFIX)`, `/repo/src/config_extension_ext.rs:16-21,41-46`. -/
def World.pushPrefix (w : World fl X) (i : Nat) (p : Str) : World fl X :=
  w.put i .prefixes ((w.get i .prefixes).getD [] ++ [p])

/-- `set_distributed_option_extension` for `DistributedConfig`, `/repo/src/config_extension_ext.rs:11-22`. -/
def World.setDist (w : World fl X) (i : Nat) (d : Config fl) : World fl X :=
  (w.setOptions i { w.options i with dist := some d }).pushPrefix i distPrefix

/-- The same for another option extension. `Extensions::insert` replaces the one with the same prefix.
`/repo/src/config_extension_ext.rs:11-22`. -/
def World.setOther (w : World fl X) (i : Nat) (p : Str) (e : Entries) : World fl X :=
  (w.setOptions i { w.options i with others := (w.options i).others.filter (fun x => x.1 != p) ++ [(p, e)] }).pushPrefix i p

/-- `DistributedConfig::ensure_in_config`, `/repo/src/distributed_planner/distributed_config.rs:110-119`. -/
def World.ensure (w : World fl X) (i : Nat) : World fl X :=
  match (w.options i).dist with
  | some _ => w
  | none => w.setDist i (Config.default fl)

/-- The loop of `set_distributed_option_extension_from_headers`, `/repo/src/config_extension_ext.rs:62-79`, with what has been
set when it ends or fails. -/
def applyHeaders (d : Config fl) : HeaderMap → Config fl × Except Err Unit
  | [] => (d, .ok ())
  | h :: hs => match applyHeader (distExt fl) d h with
    | .ok d' => applyHeaders d' hs
    | .error e => (d, .error e)

/-- `set_distributed_option_extension_from_headers` for `DistributedConfig`, `/repo/src/config_extension_ext.rs:24-88`: options
that are there are changed in place, new ones are put in only if there was no error. -/
def World.fromHeaders (w : World fl X) (i : Nat) (hs : HeaderMap) : World fl X × Except Err Unit :=
  let w := w.pushPrefix i distPrefix
  match (w.options i).dist with
  | some d =>
    let r := applyHeaders d hs
    (w.setOptions i { w.options i with dist := some r.1 }, r.2)
  | none =>
    match applyHeaders (Config.default fl) hs with
    | (d, .ok ()) => (w.setOptions i { w.options i with dist := some d }, .ok ())
    | (_, .error e) => (w, .error e)

/-- `push_custom`, `/repo/src/events/common.rs:77-84`. -/
def World.pushCustom (w : World fl X) (i : Nat) (k : HandlerKind) (h : Handler X) : World fl X :=
  w.put i (.chain k) (((w.get i (.chain k)).getD {}).register (.custom h))

/-- `push_builtin` and `extend_builtin`, `/repo/src/events/common.rs:55-75`. -/
def World.extendBuiltin (w : World fl X) (i : Nat) (k : HandlerKind) (hs : List (Handler X)) : World fl X :=
  w.put i (.chain k) (hs.foldl (fun c h => c.register (.builtin h)) ((w.get i (.chain k)).getD {}))

/-- The setters of single options, one constructor for each, `/repo/src/distributed_ext.rs:778-901`. -/
inductive Setter (fl : Session.Float) where
  | fileScanConfigBytesPerPartition (n : Fin (2 ^ 64))
  | cardinalityEffectTaskScaleFactor (x : fl.F)
  | metricsCollection (b : Bool)
  | childrenIsolatorUnions (b : Bool)
  | broadcastJoins (b : Bool)
  | compression (c : Option Session.Codec)
  | shuffleBatchSize (n : Fin (2 ^ 64))
  | maxTasksPerStage (n : Fin (2 ^ 64))
  | partialReduce (b : Bool)
  | workerConnectionBufferBudgetBytes (n : Fin (2 ^ 64))
  | dynamicTaskCount (b : Bool)
  | dynamicBytesPerPartition (n : Fin (2 ^ 64))

/-- The assignment each setter makes, `/repo/src/distributed_ext.rs:778-901`. -/
def Setter.assign (d : Config fl) : Setter fl → Config fl
  | .fileScanConfigBytesPerPartition n => Function.update d .fileScanBytesPerPartition n
  | .cardinalityEffectTaskScaleFactor x => Function.update d .cardinalityTaskCountFactor x
  | .metricsCollection b => Function.update d .collectMetrics b
  | .childrenIsolatorUnions b => Function.update d .childrenIsolatorUnions b
  | .broadcastJoins b => Function.update d .broadcastJoins b
  | .compression c => Function.update d .compression (compressionSetting c)
  | .shuffleBatchSize n => Function.update d .shuffleBatchSize n
  | .maxTasksPerStage n => Function.update d .maxTasksPerStage n
  | .partialReduce b => Function.update d .partialReduce b
  | .workerConnectionBufferBudgetBytes n => Function.update d .bufferBudget n
  | .dynamicTaskCount b => Function.update d .dynamicTaskCount b
  | .dynamicBytesPerPartition n => Function.update d .dynamicBytesPerPartition n

/-- A call that configures a session. `DistributedExt`, `/repo/src/distributed_ext.rs:750-918`. -/
inductive Call (fl : Session.Float) (X : Type) where
  /-- `set_distributed_option_extension(DistributedConfig { .. })` -/
  | options (d : Config fl)
  /-- `set_distributed_option_extension` with another extension -/
  | extension (p : Str) (e : Entries)
  /-- `set_distributed_option_extension_from_headers::<DistributedConfig>` -/
  | fromHeaders (hs : HeaderMap)
  /-- one of the setters of single options -/
  | set (s : Setter fl)
  /-- `SET distributed.<key> = '<value>'` -/
  | sql (key value : Str)
  /-- `set_distributed_user_codec`, `set_distributed_user_codec_arc` -/
  | codec (x : X)
  /-- `set_distributed_work_unit_feed` -/
  | feed (x : X)
  /-- `set_distributed_worker_resolver` -/
  | workerResolver (x : X)
  /-- `set_distributed_channel_resolver` -/
  | channelResolver (x : X)
  /-- `set_distributed_local_worker_context` -/
  | localWorker (x : X)
  /-- `set_distributed_passthrough_headers` -/
  | headers (h : HeaderMap)
  /-- `set_distributed_desired_task_count_handler` and the three others -/
  | handler (k : HandlerKind) (x : X)
  /-- `with_distributed_planner` -/
  | planner
  /-- DataFusion: sets `optimizer.enable_physical_uncorrelated_scalar_subquery` -/
  | scalarSubqueries (b : Bool)

/-- A call on a session, in place (`set_*`), and its result. `/repo/src/distributed_ext.rs:750-918`. -/
def World.call (w : World fl X) (i : Nat) : Call fl X → World fl X × Except Err Unit
  | .options d => (w.setDist i d, .ok ())
  | .extension p e => (w.setOther i p e, .ok ())
  | .fromHeaders hs => w.fromHeaders i hs
  -- `DistributedConfig::from_config_options_mut`, `distributed_config.rs:91-96`
  | .set s => match (w.options i).dist with
    | none => (w, .error (.plan "DistributedConfig is not in ConfigOptions.extensions"))
    | some d => (w.setOptions i { w.options i with dist := some (s.assign d) }, .ok ())
  | .sql k v => match (w.options i).dist with
    | none => (w, .error (.plan "Could not find config namespace"))
    | some d => match (distExt fl).set d k v with
      | .ok d' => (w.setOptions i { w.options i with dist := some d' }, .ok ())
      | .error e => (w, .error e)
  -- `user_codec.rs:7-17`
  | .codec x => (w.put i .codecs ((w.get i .codecs).getD [] ++ [x]), .ok ())
  -- `work_unit_feed_registry.rs:109-121`
  | .feed x => (w.put i .feeds ((w.get i .feeds).getD [] ++ [x]), .ok ())
  -- `worker_resolver.rs`: the options first, `channel_resolver.rs`: the options last
  | .workerResolver x => ((w.ensure i).put i .workerResolver x, .ok ())
  | .channelResolver x => ((w.put i .channelResolver x).ensure i, .ok ())
  -- `distributed_ext.rs:900-902`
  | .localWorker x => (w.put i .localWorker x, .ok ())
  -- `passthrough_headers.rs:15-32`
  | .headers h => match setPassthrough h with
    | .ok h => (w.put i .headers h, .ok ())
    | .error e => (w, .error e)
  | .handler k x => (w.pushCustom i k (.user x), .ok ())
  -- `session_state_builder_ext.rs:25-49`; for the wrapped query planner see `layered`
  | .planner =>
    let w := w.ensure i
    let w := w.setOptions i { w.options i with scalarSubqueries := false }
    let w := w.extendBuiltin i .desiredTaskCount [.fileTaskCount]
    let w := w.extendBuiltin i .scaleUpLeaf [.fileScaleUp]
    (w.extendBuiltin i .routeTasks [.coordinatorRouting, .childUrlRouting, .randomRouting], .ok ())
  | .scalarSubqueries b => (w.setOptions i { w.options i with scalarSubqueries := b }, .ok ())

/-- What happens to the sessions of a process: a call on one of them, or a copy of one, which gets the next number.
`/repo/src/distributed_ext.rs:750-918`, `SessionConfig::clone` (DataFusion). -/
inductive Ev (fl : Session.Float) (X : Type) where
  | call (i : Nat) (c : Call fl X)
  | clone (i : Nat)

/-- One event of a history of `/repo/src/distributed_ext.rs:750-918`. -/
def World.step (w : World fl X) : Ev fl X → World fl X
  | .call i c => (w.call i c).1
  | .clone i => w.clone i

/-- A history, from one new session (`/repo/src/distributed_ext.rs:750-918`). -/
def World.run (evs : List (Ev fl X)) : World fl X := evs.foldl World.step World.init

/-- The consuming forms, `with_*`, `/repo/src/distributed_ext.rs:922-1028`: `set_*` on the value and then the value, or the error
of `set_*` instead of it. -/
def World.chain (w : World fl X) (i : Nat) : List (Call fl X) → Except Err (World fl X)
  | [] => .ok w
  | c :: cs => match w.call i c with
    | (w, .ok ()) => w.chain i cs
    | (_, .error e) => .error e

/-! ### What is read back -/

/-- An option: `None` if the distributed options are not there.
`DistributedConfig::from_config_options`, `/repo/src/distributed_planner/distributed_config.rs:84-89`. -/
def World.option (w : World fl X) (i : Nat) (f : Field) : Option (f.kind.Val fl) := (w.options i).dist.map fun d => d f

/-- The handlers in the order in which they are asked, `/repo/src/events/common.rs:28-50`. -/
def World.asked (w : World fl X) (i : Nat) (k : HandlerKind) : List (Handler X) :=
  match w.get i (.chain k) with
  | none => []
  | some c => c.custom ++ c.builtin

/-- The query planners around the user's own, one for each call of `with_distributed_planner`,
`/repo/src/distributed_planner/session_state_builder_ext.rs:51-52` and
`/repo/src/distributed_planner/distributed_query_planner.rs:58-75`. -/
def layered {P ε : Type} (create : P → Except ε P) (base : Except ε P) : Nat → Except ε P
  | 0 => base
  | n + 1 => do
    let p ← layered create base n
    create p

end DD.Configure
