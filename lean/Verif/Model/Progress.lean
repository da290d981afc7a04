/-
The progress a worker reports about its tasks.

Models `get_task_progress` of `/repo/src/protocol/grpc/observability/service.rs` on top of the task registry
of `Model/Worker.lean`, with plans whose nodes have an identity, because the rows reported for a task are
those recorded by one particular node object.
-/
import Verif.Model.Worker

namespace DD.Progress

open Worker

/-- What `ProducerHead::insert` looks at in a node, `/repo/src/distributed_planner/network_boundary.rs:87-93`. -/
inductive NodeKind where
  | repartition
  | broadcast
  | other
  deriving DecidableEq

/-- The identity of a node object: the `n`-th node of the plan a task got from its coordinator, or the node
that `ProducerHead::insert` makes. Metrics belong to the object, `ExecutionPlan::metrics`.
DataFusion's `Arc<dyn ExecutionPlan>`. -/
inductive Ident where
  | sent (n : Nat)
  | added
  deriving DecidableEq

/-- A plan as a tree of node objects. DataFusion's `Arc<dyn ExecutionPlan>`. -/
inductive Obj where
  | node (id : Ident) (kind : NodeKind) (children : List Obj)

/-- Projection of `Obj` (DataFusion's `Arc<dyn ExecutionPlan>`). -/
def Obj.id : Obj → Ident
  | .node i _ _ => i

/-- Projection of `Obj` (DataFusion's `Arc<dyn ExecutionPlan>`). -/
def Obj.kind : Obj → NodeKind
  | .node _ k _ => k

/-- `ExecutionPlan::children` (DataFusion). -/
def Obj.children : Obj → List Obj
  | .node _ _ cs => cs

mutual
/-- All node objects of a plan. Follows `ExecutionPlan::children` (DataFusion). -/
def Obj.ids : Obj → List Ident
  | .node i _ cs => i :: Obj.idsAll cs
/-- `Obj.ids` of every child. -/
def Obj.idsAll : List Obj → List Ident
  | [] => []
  | c :: cs => c.ids ++ Obj.idsAll cs
end

/-- `ProducerHead`, `/repo/src/distributed_planner/network_boundary.rs:39-48`: what an execute request wants at the head of the plan. For a
repartitioning `result` is what decoding its expressions and `RepartitionExec::try_new` answer. -/
inductive HeadWanted where
  | none
  | broadcast
  | repartition (result : Except Err Unit)

/-- `ProducerHead::insert`, `/repo/src/distributed_planner/network_boundary.rs:86-105`: a `RepartitionExec` or
`BroadcastExec` at the root is taken off, and the wanted head, a new object, is put on. The two node types have
one input; a root of these types without one does not exist. -/
def insertHead (h : HeadWanted) (p : Obj) : Except Err Obj :=
  let input := match p with
    | .node _ .repartition [c] => c
    | .node _ .broadcast [c] => c
    | p => p
  match h with
  | .none => .ok input
  | .broadcast => .ok (.node .added .broadcast [input])
  | .repartition (.ok _) => .ok (.node .added .repartition [input])
  | .repartition (.error e) => .error e

/-- A worker and the rows recorded so far by the node objects of the tasks it was given. The plan of each
registry entry is decoded anew, so its objects are its own (in-process workers, which may share plan objects with
the coordinator, are in `progressShared` below).
`/repo/src/worker/task_data.rs:103-115`, and the metrics DataFusion keeps in the nodes. -/
structure St (Key : Type) where
  worker : State Key Obj HeadWanted
  rows : Nat → Ident → Nat

/-- Something that happens on a worker: a step of the task registry, or a node of the plan of entry `e`
records `n` output rows. `BaselineMetrics::record_output` (DataFusion). -/
inductive Ev (Key : Type) where
  | reg (st : Step Key Obj HeadWanted)
  | record (e : Nat) (id : Ident) (n : Nat)

variable {Key : Type} [DecidableEq Key]

/-- The nodes of a task that can record rows: those of the plan that is executed, which is the one with the
producer head installed (`/repo/src/worker/impl_execute_task.rs:37-62`), and those below the root of the
plan that was sent, which a sampler executes ahead
(`/repo/src/worker/impl_coordinator_channel.rs:84-85`, `/repo/src/execution_plans/sampler.rs:133-150`; a sampler is
put below the root, `/repo/src/distributed_planner/network_boundary.rs:109-125`). -/
def executes (td : TaskData Obj) (id : Ident) : Bool :=
  (match td.final with
    | some (.ok p) => p.ids.contains id
    | _ => false) || (Obj.idsAll td.base.children).contains id

/-- One event. A node that is not executed records nothing. `BaselineMetrics::record_output` (DataFusion). -/
def stepEv (s : St Key) : Ev Key → St Key
  | .reg st => { s with worker := step insertHead s.worker st }
  | .record e id n =>
    match (s.worker.cell e).value with
    | some (.ok td) =>
      if executes td id then
        { s with rows := fun e' id' => if e' = e ∧ id' = id then s.rows e id + n else s.rows e' id' }
      else s
    | _ => s

/-- A history of events (DataFusion's metrics and the steps of `Model/Worker.lean`). -/
def runEv (s : St Key) (evs : List (Ev Key)) : St Key := evs.foldl stepEv s

/-- A freshly started worker. `/repo/src/worker/worker_service.rs`. -/
def St.init : St Key := ⟨State.init, fun _ _ => 0⟩

/-- `TaskStatus`, of which the service uses one value,
`/repo/src/protocol/grpc/observability/service.rs:98-102`. -/
inductive Status where
  | running
  deriving DecidableEq, Repr

/-- `TaskProgress`, `/repo/src/protocol/grpc/observability/service.rs:98-102`. -/
structure TaskProgress (Key : Type) where
  key : Key
  status : Status
  rows : Nat
  deriving DecidableEq, Repr

/-- What a report says about one cache entry, `/repo/src/protocol/grpc/observability/service.rs:91-103` with
`output_rows_from_plan` `:138-140`: nothing before a plan is set or if setting it failed, and otherwise the rows
recorded by the root of the plan that was set. -/
def progressOf (s : St Key) (k : Key) : Option (TaskProgress Key) :=
  match s.worker.cache k with
  | none => none
  | some e =>
    match (s.worker.cell e).value with
    | some (.ok td) => some ⟨k, .running, s.rows e td.base.id⟩
    | _ => none

/-- `get_task_progress`, `/repo/src/protocol/grpc/observability/service.rs:85-112`. The iterator of the cache visits
one key after the other while the worker goes on: each visit comes with the events since the one before. -/
def report (s : St Key) : List (List (Ev Key) × Key) → List (TaskProgress Key)
  | [] => []
  | (evs, k) :: rest =>
    (match progressOf (runEv s evs) k with
      | some tp => [tp]
      | none => []) ++ report (runEv s evs) rest

/-- Which registry entries have the same node object at a place, itself included. A plan that was encoded is decoded anew for every
entry, and nobody shares with it. A plan that was given to a task in the coordinator's process without encoding
(`/repo/src/common/maybe_encoded.rs:24-29`, `/repo/src/coordinator/query_coordinator.rs:156-163`) has the objects of the
coordinator's plan, so that all such tasks of the stage in this process, and of later executions of the same plan, share them. -/
abbrev Shared := Ident → Nat → List Nat

/-- What a report says about one cache entry if node objects are shared: the counter of the root is the one all entries that have
this object add to. `/repo/src/protocol/grpc/observability/service.rs:91-103`, `:138-140`. -/
def progressShared (sh : Shared) (s : St Key) (k : Key) : Option (TaskProgress Key) :=
  match s.worker.cache k with
  | none => none
  | some e =>
    match (s.worker.cell e).value with
    | some (.ok td) => some ⟨k, .running, ((sh td.base.id e).map fun e' => s.rows e' td.base.id).sum⟩
    | _ => none

/-- `get_cluster_workers`, `/repo/src/protocol/grpc/observability/service.rs:114-126`. -/
def clusterWorkers {Url Text : Type} (resolve : Except Err (List Url)) (text : Url → Text) :
    Except Err (List Text) :=
  match resolve with
  | .ok us => .ok (us.map text)
  | .error _ => .error (.internal "Failed to resolve workers")

end DD.Progress
