/-
Which nodes of a stage's plan are fed with work units: the registry of feeds, the declarations sent to a task with its plan, and
the feeds the coordinator opens for the task.

Models `/repo/src/work_unit_feed/work_unit_feed_registry.rs:90-121`, the feed part of `task_specialized_plan`
(`/repo/src/coordinator/query_coordinator.rs:344-391`) and the first half of `coordinator_to_worker_task`
(`query_coordinator.rs:270-320`). What happens to the units of the opened feeds is `Model/WorkUnit`.

Simplifications. Feeds are named by their id (a UUID) as a natural number. Round-tripping a node through its codec
(`query_coordinator.rs:374`) is a parameter.
-/
import Verif.Model.Recursion
import Verif.Model.WorkUnit

namespace DD.Tree.Rec

open DD.Tree

variable {Row : Type}

/-- `WorkUnitFeedGetter`, `work_unit_feed_registry.rs:59-87`: the id of the feed embedded in a node, if the node has the type the
getter was registered for (`/repo/src/distributed_ext.rs:875-885`). -/
abbrev Getter (Row : Type) := Plan Row → Option Nat

/-- `WorkUnitFeedRegistry::get_work_unit_feed`, `work_unit_feed_registry.rs:94-105`: the first getter that answers. -/
def getFeed : List (Getter Row) → Plan Row → Option Nat
  | [], _ => none
  | g :: gs, p => match g p with
    | some id => some id
    | none => getFeed gs p

/-- `set_distributed_work_unit_feed`, `work_unit_feed_registry.rs:108-121`. -/
def addGetter (reg : List (Getter Row)) (g : Getter Row) : List (Getter Row) := reg ++ [g]

/-- A feed declared to a worker: id and partition count, `/repo/src/protocol/worker_channel.rs:92-96`. -/
abbrev Decl := Nat × Nat

/-- The visitor of `task_specialized_plan`, `query_coordinator.rs:360-389`. -/
def declareNode (reg : List (Getter Row)) (roundtrip : Plan Row → M (Plan Row)) (p : Plan Row) (ctx : TaskCtx)
    (ds : List Decl) : M (Tr Row × List Decl) :=
  match getFeed reg p with
  | some id => do
    let p' ← roundtrip p
    .ok (⟨p', .cont⟩, ds ++ [(id, p.parts)])
  | none => specialiseNode p ctx ds

/-- `task_specialized_plan`, `query_coordinator.rs:344-391`: the task's plan and the declarations that go with it. -/
def taskPlan (reg : List (Getter Row)) (roundtrip : Plan Row → M (Plan Row)) (fuel : Nat) (p : Plan Row) (ctx : TaskCtx) :
    M (Plan Row × List Decl) := do
  let (r, _, ds) ← downCtx (declareNode reg roundtrip) fuel p ctx []
  .ok (r.data, ds)

/-- A feed node as the coordinator meets it for one task: its id, partition count and the context of the node.
`/repo/src/coordinator/query_coordinator.rs:270-304`. -/
structure Opened where
  id : Nat
  partitions : Nat
  ctx : TaskCtx
  deriving DecidableEq, Repr

/-- The closure of `coordinator_to_worker_task`, `query_coordinator.rs:285-293`. -/
def openNode (reg : List (Getter Row)) (v : TaskCtx × Plan Row) : Option Opened :=
  match getFeed reg v.2 with
  | none => none
  | some id => some ⟨id, v.2.parts, v.1⟩

/-- The feeds opened for one task, `query_coordinator.rs:279-310`. -/
def openFeeds (reg : List (Getter Row)) (p : Plan Row) (ctx : TaskCtx) : M (List Opened) := do
  let l ← applyCtx p ctx
  .ok (l.filterMap (openNode reg))

/-- The call made for local partition `q`, `query_coordinator.rs:290-304`: the feed's index, and the fan-out it is told. -/
def Opened.feedIdx (o : Opened) (q : Nat) : Nat := o.partitions * o.ctx.index + q
/-- The number of feeds opened over all tasks, `/repo/src/coordinator/query_coordinator.rs:290-304`. -/
def Opened.fanOut (o : Opened) : Nat := o.ctx.count

/-- A call `feed(partition)` of the provider of feed `id`, with the fan-out put into the context, `query_coordinator.rs:296-304`. -/
structure Call where
  id : Nat
  fanOut : Nat
  partition : Nat
  deriving DecidableEq, Repr

/-- The calls made for one node of one task, `query_coordinator.rs:290-304`. -/
def Opened.calls (o : Opened) : List Call := (List.range o.partitions).map fun q => ⟨o.id, o.fanOut, o.feedIdx q⟩

/-- The node of `Model/WorkUnit` that is streamed to the task, where `provider id fanOut partition` is what the provider of feed
`id` returns. `/repo/src/coordinator/query_coordinator.rs:270-320`. -/
def Opened.node {U : Type} (provider : Nat → Nat → Nat → List (Except Err U)) (o : Opened) : WU.Node U where
  id := o.id
  partitions := o.partitions
  taskIndex := o.ctx.index
  feed := provider o.id o.fanOut

end DD.Tree.Rec
