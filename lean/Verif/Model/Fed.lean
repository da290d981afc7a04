/-
A query that feeds its tasks with work units, from the coordinator's driver to the leaves.

Puts together, for every task of the query, the feeding of `Model/WorkUnit.lean`, the connection between
coordinator and worker and its background task
(`/repo/src/coordinator/query_coordinator.rs:136-223`), the worker's side of that connection
(`/repo/src/worker/impl_coordinator_channel.rs:42, 85-97, 111-196`) and the driver that waits for all
background tasks (`/repo/src/coordinator/distributed.rs:198-246`,
`query_coordinator.rs:101-108`). Every order of the steps is possible.
-/
import Verif.Model.WorkUnit

namespace DD.Fed

open DD.Worker (upd)

variable {U : Type}

/-- One task of the query.
* `wu`: feeds, messages in flight, receivers and leaves.
* `lost`: the connection broke. Both sides learn of it: what is under way in either direction is gone,
  and neither side can complete its stream any more.
* `loopDone`: the worker's message loop has ended, `impl_coordinator_channel.rs:123-158`; the senders are
  dropped with it.
* `respDone`: the worker has ended the stream of its answers, `impl_coordinator_channel.rs:178-196`.
* `comm`: the result of the coordinator's task that holds the connection, `query_coordinator.rs:195-220`
  (`none` while it runs). -/
structure Task (U : Type) where
  wu : WU.State U
  lost : Bool
  loopDone : Bool
  respDone : Bool
  comm : Option Bool

/-- Where the driver is, `distributed.rs:198-246`. That the head stage's rows may contain an error is left
out: it only adds errors the client sees. -/
inductive Driver where
  | running   -- the head stage produces rows
  | draining  -- the rows have ended, the guard is dropped, background tasks are waited for
  | finished  -- `Ok(())`: the client's stream ends without an error
  | failed    -- a background task failed: the client's stream ends with its error
  | dropped   -- the client dropped its stream
  deriving DecidableEq

/-- The driver and the tasks of a query, `/repo/src/coordinator/distributed.rs:198-246`, `/repo/src/coordinator/query_coordinator.rs:136-223`. -/
structure State (U : Type) where
  driver : Driver
  tasks : Nat → Task U

/-- `/repo/src/coordinator/query_coordinator.rs:136-223`, `/repo/src/worker/impl_coordinator_channel.rs:42, 85-97, 111-196`, `/repo/src/coordinator/distributed.rs:198-246`. -/
inductive Step where
  /-- the feeding of task `t` moves on: a unit is pulled, a message sent or handled, a leaf reads -/
  | feeds (t : Nat) (st : WU.Step)
  /-- the worker of task `t` sees the end of the coordinator's messages -/
  | requestEnds (t : Nat)
  /-- the connection to the worker of task `t` breaks -/
  | lose (t : Nat)
  /-- the next message for task `t` does not decode on the worker -/
  | garble (t : Nat)
  /-- the worker of task `t` ends its answers -/
  | responseEnds (t : Nat)
  /-- the coordinator's connection task of `t` sees the end of the answers -/
  | commOk (t : Nat)
  /-- the coordinator's connection task of `t` sees that the connection broke -/
  | commErr (t : Nat)
  /-- the head stage's rows end -/
  | headEnds
  /-- every background task has returned -/
  | drained
  /-- the client drops its stream -/
  | drop

/-- Ending the feed task early and losing the stream are not steps of the feeding alone here.
The steps are those of `Model/WorkUnit.lean` (`/repo/src/coordinator/query_coordinator.rs:270-338`). -/
def ownStep : WU.Step → Bool
  | .abort => false
  | .close => false
  | _ => true

/-- The feeding of a task after one of its steps.
`/repo/src/coordinator/query_coordinator.rs:270-338`, see `Model/WorkUnit.lean`. -/
def feedStep (ns : List (WU.Node U)) (t : Task U) (st : WU.Step) : Task U :=
  { t with wu := WU.step ns (WU.declaredBy ns) t.wu st }

/-- The worker's loop ends, for whatever reason: `while let Some(Ok(msg)) = stream.next().await`,
`impl_coordinator_channel.rs:125`, makes no difference between the end of the stream and an error. -/
def endLoop (ns : List (WU.Node U)) (t : Task U) : Task U :=
  { feedStep ns t .close with loopDone := true }

/-- The background tasks of `t` have returned, `drain_pending_tasks`. `/repo/src/coordinator/query_coordinator.rs:101-108`. -/
def Task.returned (t : Task U) : Bool := t.comm.isSome && t.wu.phase != .running

/-- The background tasks of `t` have returned without an error. `/repo/src/coordinator/query_coordinator.rs:101-108`. -/
def Task.succeeded (t : Task U) : Bool := t.comm == some true && t.wu.phase == .finished

/-- One step of a query with `n` tasks, whose task `t` has the feeds `nodes t`; `collect` is the option
`collect_metrics` (`impl_coordinator_channel.rs:59, 92-95`). A step that is not enabled changes
nothing. -/
def step (n : Nat) (nodes : Nat → List (WU.Node U)) (collect : Bool) (s : State U) : Step → State U
  | .feeds t st =>
    if ownStep st then { s with tasks := upd s.tasks t (feedStep (nodes t) (s.tasks t) st) } else s
  -- `UnboundedReceiverStream::new(rx).chain(keep_stream_alive(..))`, `query_coordinator.rs:171-186`: the
  -- guard is dropped, no sender is left, and everything sent has been handled
  | .requestEnds t =>
    if s.driver ≠ .running ∧ (s.tasks t).wu.phase ≠ .running ∧ (s.tasks t).wu.wire.isEmpty = true ∧
        (s.tasks t).loopDone = false then
      { s with tasks := upd s.tasks t (endLoop (nodes t) (s.tasks t)) }
    else s
  | .lose t =>
    { s with tasks := upd s.tasks t { endLoop (nodes t) (s.tasks t) with lost := true } }
  | .garble t =>
    if (s.tasks t).wu.wire.isEmpty = false ∧ (s.tasks t).loopDone = false then
      { s with tasks := upd s.tasks t (endLoop (nodes t) (s.tasks t)) }
    else s
  -- the oneshot sender for the metrics keeps the answers open; without `collect_metrics` it is dropped
  -- as soon as the plan is set, `impl_coordinator_channel.rs:92-95, 159, 190-196`
  | .responseEnds t =>
    if collect = true ∧ (s.tasks t).loopDone = false then s
    else { s with tasks := upd s.tasks t { s.tasks t with respDone := true } }
  | .commOk t =>
    if (s.tasks t).comm = none ∧ (s.tasks t).respDone = true ∧ (s.tasks t).lost = false then
      { s with tasks := upd s.tasks t { s.tasks t with comm := some true } }
    else s
  | .commErr t =>
    if (s.tasks t).comm = none ∧ (s.tasks t).lost = true then
      { s with tasks := upd s.tasks t { s.tasks t with comm := some false } }
    else s
  | .headEnds => if s.driver = .running then { s with driver := .draining } else s
  -- `for res in join_set.join_all().await { res?; }`
  | .drained =>
    if s.driver = .draining ∧ (List.range n).all (fun t => (s.tasks t).returned) = true then
      { s with driver :=
          if (List.range n).all (fun t => (s.tasks t).succeeded) then .finished else .failed }
    else s
  -- the `JoinSet` is dropped: feed tasks and connection tasks are aborted
  | .drop =>
    if s.driver = .running ∨ s.driver = .draining then
      { driver := .dropped
        tasks := fun t =>
          { endLoop (nodes t) (feedStep (nodes t) (s.tasks t) .abort) with lost := true } }
    else s

/-- A query whose plans are all set. `/repo/src/coordinator/query_coordinator.rs:136-223`. -/
def init (nodes : Nat → List (WU.Node U)) : State U where
  driver := .running
  tasks := fun t =>
    { wu := WU.init (nodes t), lost := false, loopDone := false, respDone := false, comm := none }

/-- A history: any list of steps (`/repo/src/coordinator/distributed.rs:198-246`). -/
def run (n : Nat) (nodes : Nat → List (WU.Node U)) (collect : Bool) (steps : List Step) : State U :=
  steps.foldl (step n nodes collect) (init nodes)

end DD.Fed
