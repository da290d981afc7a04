import Verif.Model.Pool
import Verif.Model.Handlers
/-
Tasks of one stage that run in the coordinator's own process. The plan of a task is sent without encoding it when the task is routed
to the coordinator's own URL, so all such tasks of a stage execute the *same* network boundary objects, with one connection pool.
A task on another worker decodes a boundary of its own. Models
`/repo/src/coordinator/query_coordinator.rs:156-163,193-203,344-388` (the plan is passed as `MaybeEncoded::Decoded`; specialising
a plan leaves its boundaries as they are, they have no children), `/repo/src/common/maybe_encoded.rs:24-29` (`decode` of a decoded
plan is the plan) and `/repo/src/protocol/in_process/worker_client.rs:30-43`.

Not modelled: other state of shared nodes (metrics, DataFusion's own operators).
-/
namespace DD.InProcess

open Pool

/-- The boundary nodes that keep a connection pool: `network_shuffle.rs:101-107`, `network_broadcast.rs:121-125` and
`network_coalesce.rs:78-83`. -/
inductive Boundary where
  | fan (e : FanExec)
  | coalesce (e : CoalesceExec)
  deriving Repr, DecidableEq

/-- The remote pulls behind one output partition of a boundary (none when `execute` returns an error).
`/repo/src/execution_plans/network_shuffle.rs:216-251`, `network_broadcast.rs:240-275`, `network_coalesce.rs:262-338`. -/
def Boundary.pulls : Boundary → TaskCtx → Nat → List Pull
  | .fan e, ctx, q => e.execute ctx q
  | .coalesce e, ctx, q => match e.execute ctx q with
    | .ok l => l
    | .error _ => []

/-- Which object a task executes: the coordinator's, or the one it decoded.
`/repo/src/coordinator/query_coordinator.rs:193-203`, `/repo/src/common/maybe_encoded.rs:24-29`. -/
inductive Node where
  | shared
  | own (task : Nat)
  deriving Repr, DecidableEq

/-- `query_coordinator.rs:193-203`: in process when the task's URL is the coordinator's own. -/
def nodeOf {Url : Type} [DecidableEq Url] (self : Option Url) (urls : List Url) (t : Nat) : Node :=
  match self, urls[t]? with
  | some s, some u => if s = u then .shared else .own t
  | _, _ => .own t

/-- One boundary object: its pool and, for every stream the pool returned, the task that asked for it.
`/repo/src/worker/worker_connection_pool.rs:25-44`. -/
structure Copy where
  pool : Pool.State := {}
  owners : List Nat := []

/-- Something a task does to its boundary object.
`execute` and drop of its streams, `/repo/src/worker/worker_connection_pool.rs:46-145`. -/
structure Step where
  task : Nat
  op : Pool.Op
  deriving Repr, DecidableEq

/-- `/repo/src/worker/worker_connection_pool.rs:46-145`. -/
def Copy.step (srv : Server) (workers inputTasks : Nat) (c : Copy) (s : Step) : Copy :=
  match s.op with
  | .execute call => match execute srv workers inputTasks c.pool call with
    | .ok p => { pool := p, owners := c.owners ++ [s.task] }
    | .error _ => c
  | .poll k => { c with pool := poll c.pool k }

/-- All objects of one boundary after a history of the tasks of its stage, which may interleave in any way.
`/repo/src/worker/worker_connection_pool.rs:46-145`. -/
def run (srv : Server) (workers inputTasks : Nat) (node : Nat → Node) (steps : List Step) : Node → Copy :=
  steps.foldl (fun st s n => if n = node s.task then (st n).step srv workers inputTasks s else st n) fun _ => {}

end DD.InProcess
