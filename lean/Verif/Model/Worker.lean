/-
The worker's task registry: the single-write multi-read cell, the coordinator channel that sets a
task's plan, the execute requests that read it, and the release of the entry.

Models `/repo/src/worker/single_write_multi_read.rs`, `impl_coordinator_channel.rs`,
`impl_execute_task.rs`, `task_data.rs` and the cache of `worker_service.rs`.
-/
import Verif.Model.Boundary

namespace DD

/-! ### SingleWriteMultiRead -/

namespace Swmr

/-- `SingleWriteMultiReadError`, `/repo/src/worker/single_write_multi_read.rs:23-28`. `NoValue` needs the
sender to be dropped while a reader borrows the cell that owns it, so it cannot be produced here. -/
inductive SwErr where
  | alreadyWritten
  | timeout
  deriving Repr, DecidableEq

/-- What one poll of `read` answers. `/repo/src/worker/single_write_multi_read.rs:72-90`. -/
inductive ReadPoll (T : Type) where
  | pending
  | ready (r : Except SwErr T)

/-- `SingleWriteMultiRead`, `/repo/src/worker/single_write_multi_read.rs:12-15`: the content of the
watch channel shared by its sender and all receivers. -/
structure Cell (T : Type) where
  value : Option T

/-- `new`, `/repo/src/worker/single_write_multi_read.rs:43-46`. -/
def Cell.new {T} : Cell T := ⟨none⟩

/-- `write`, `/repo/src/worker/single_write_multi_read.rs:50-63`. `send_modify` runs its closure under
the channel's lock, so the check and the assignment are one step. -/
def Cell.write {T} (c : Cell T) (x : T) : Cell T × Except SwErr Unit :=
  match c.value with
  | none => (⟨some x⟩, .ok ())
  | some _ => (c, .error .alreadyWritten)

/-- One poll of `read`, `/repo/src/worker/single_write_multi_read.rs:72-90`. `tokio::time::timeout`
polls the inner future before looking at the clock, `expired` says whether the deadline has passed. -/
def Cell.pollRead {T} (c : Cell T) (expired : Bool) : ReadPoll T :=
  match c.value with
  | some v => .ready (.ok v)
  | none => if expired then .ready (.error .timeout) else .pending

/-- A step of any of the concurrent users of one cell. `/repo/src/worker/single_write_multi_read.rs:30-90`. -/
inductive Step (T : Type) where
  | write (x : T)
  | read (expired : Bool)

/-- The cell after a sequence of steps. `/repo/src/worker/single_write_multi_read.rs:30-90`. -/
def Cell.after {T} (c : Cell T) : List (Step T) → Cell T
  | [] => c
  | .write x :: rest => (c.write x).1.after rest
  | .read _ :: rest => c.after rest

end Swmr

/-! ### The worker's task registry -/

namespace Worker

open Swmr

/-- The mutable parts of `TaskData`, `/repo/src/worker/task_data.rs:15-29`: the plan set by the
coordinator, the plan with the producer head installed (`OnceLock`), and the oneshot sender for the
metrics (named by the channel that created it). The struct is cloned freely but all clones share these
parts through `Arc`s, so one copy per written entry is kept. -/
structure TaskData (Plan : Type) where
  base : Plan
  final : Option (Except Err Plan)
  metricsTx : Option Nat

/-- `TaskData::plan`, `/repo/src/worker/task_data.rs:103-115`: `get_or_init` runs the closure only if
the lock is empty, and everyone gets what is stored. `insert` stands for
`ProducerHead::ensure_decoded` followed by `ProducerHead::insert`. -/
def TaskData.plan {Plan Head : Type} (insert : Head → Plan → Except Err Plan)
    (td : TaskData Plan) (h : Head) : TaskData Plan × Except Err Plan :=
  match td.final with
  | some r => (td, r)
  | none => ({ td with final := some (insert h td.base) }, insert h td.base)

/-- Where a `coordinator_channel` call stands. `/repo/src/worker/impl_coordinator_channel.rs:24-196`. -/
inductive ChanPhase where
  /-- the entry was fetched, the plan is being decoded (`impl_coordinator_channel.rs:33-100`) -/
  | gotEntry (e : Nat)
  /-- the plan was written, the background task drains messages (`:123-158`) -/
  | running (e : Nat)
  /-- the message loop ended and metrics were handled, `invalidate` is next (`:160-171`) -/
  | ended (e : Nat)
  /-- the background task finished -/
  | closed (e : Nat)
  /-- the call returned an error -/
  | failed (err : Err)
  /-- the plan had been written, then the process died -/
  | lost (e : Nat)
  deriving DecidableEq

/-- A `coordinator_channel` call, `/repo/src/worker/impl_coordinator_channel.rs:24-196`. -/
structure Chan (Key : Type) where
  key : Key
  phase : ChanPhase

/-- Where an `execute_task` call stands. `/repo/src/worker/impl_execute_task.rs:19-59`. -/
inductive ExecPhase (Plan : Type) where
  /-- holds the entry and awaits `read` (`impl_execute_task.rs:23-35`) -/
  | waiting (e : Nat)
  /-- the plan to run, or the error returned -/
  | done (r : Except Err Plan)

/-- An `execute_task` call, `/repo/src/worker/impl_execute_task.rs:19-59`. -/
structure Exec (Key Head Plan : Type) where
  key : Key
  head : Head
  phase : ExecPhase Plan

/-- The state of one worker. `cache` is the moka cache `task_data_entries` (`worker_service.rs:14`),
mapping a task key to the identity of an `Arc<SingleWriteMultiRead>`; `cell` holds these cells. -/
structure State (Key Plan Head : Type) where
  cache : Key → Option Nat
  next : Nat
  cell : Nat → Cell (Except Err (TaskData Plan))
  chan : Nat → Option (Chan Key)
  exec : Nat → Option (Exec Key Head Plan)
  /-- `TaskMetrics` messages sent by channel `c`, each with the plan whose metrics it carries -/
  metrics : Nat → List Plan

/-- A freshly started worker. `/repo/src/worker/worker_service.rs`. -/
def State.init {Key Plan Head : Type} : State Key Plan Head where
  cache := fun _ => none
  next := 0
  cell := fun _ => .new
  chan := fun _ => none
  exec := fun _ => none
  metrics := fun _ => []

/-- Everything that can happen on a worker, in any order.
`/repo/src/worker/impl_coordinator_channel.rs:24-196`, `impl_execute_task.rs:19-59`, and a crash of the process (external). -/
inductive Step (Key Plan Head : Type) where
  /-- a `coordinator_channel` request arrives and fetches the entry -/
  | openChannel (c : Nat) (k : Key)
  /-- decoding finished with a plan (and whether metrics are collected) or an error, and is written -/
  | setPlan (c : Nat) (r : Except Err (Plan × Bool))
  /-- the coordinator→worker stream of channel `c` ended (or broke) -/
  | eos (c : Nat)
  /-- the background task of channel `c` removes the entry -/
  | invalidate (c : Nat)
  /-- an `execute_task` request arrives and fetches the entry -/
  | openExec (x : Nat) (k : Key) (h : Head)
  /-- the execute request is polled; `expired`: its 10 s are over -/
  | pollExec (x : Nat) (expired : Bool)
  /-- the cache evicts an idle entry (`time_to_idle`) -/
  | evict (k : Key)
  /-- the worker process dies and is restarted -/
  | crash

variable {Key Plan Head : Type} [DecidableEq Key]

/-- Not a function of the code: every call has its own state (`impl_coordinator_channel.rs:24-196`). -/
def upd {A B : Type} [DecidableEq A] (f : A → B) (a : A) (b : B) : A → B :=
  fun x => if x = a then b else f x

/-- A process crash fails every call in flight. An external event; gRPC reports it to the callers. -/
def ChanPhase.afterCrash : ChanPhase → ChanPhase
  | .gotEntry _ => .failed (.exec "worker lost")
  | .running e => .lost e
  | .ended e => .lost e
  | .closed e => .closed e
  | .failed err => .failed err
  | .lost e => .lost e

/-- A process crash fails every call in flight. An external event; gRPC reports it to the callers. -/
def Exec.afterCrash (ex : Exec Key Head Plan) : Exec Key Head Plan :=
  match ex.phase with
  | .waiting _ => ⟨ex.key, ex.head, .done (.error (.exec "worker lost"))⟩
  | .done r => ⟨ex.key, ex.head, .done r⟩

/-- Metrics sent at the end of the coordinator→worker stream,
`/repo/src/worker/impl_coordinator_channel.rs:160-170` and `send_metrics_via_channel` `:201-218`: only if
the sender is still there and a plan was successfully installed. -/
def sendMetrics (td : TaskData Plan) (m : Nat → List Plan) : Nat → List Plan :=
  match td.metricsTx, td.final with
  | some c, some (.ok p) => upd m c (m c ++ [p])
  | _, _ => m

/-- `Cache::get_with(key, Default::default)`: atomic get-or-insert,
`impl_coordinator_channel.rs:33-36`, `impl_execute_task.rs:23-26`. -/
def getWith (s : State Key Plan Head) (k : Key) : State Key Plan Head × Nat :=
  match s.cache k with
  | some e => (s, e)
  | none => ({ s with cache := upd s.cache k (some s.next), next := s.next + 1 }, s.next)

/-- One step of the worker. Steps that do not apply to the current phase change nothing. Each case cites its lines. -/
def step (insert : Head → Plan → Except Err Plan) (s : State Key Plan Head) :
    Step Key Plan Head → State Key Plan Head
  | .openChannel c k =>
    match s.chan c with
    | some _ => s
    | none =>
      let g := getWith s k
      { g.1 with chan := upd g.1.chan c (some ⟨k, .gotEntry g.2⟩) }
  | .setPlan c r =>
    match s.chan c with
    | some ⟨k, .gotEntry e⟩ =>
      -- `impl_coordinator_channel.rs:84-106`
      let data : Except Err (TaskData Plan) := match r with
        | .ok (p, collect) => .ok ⟨p, none, if collect then some c else none⟩
        | .error er => .error er
      match (s.cell e).write data with
      | (_, .error _) =>
        { s with chan := upd s.chan c (some ⟨k, .failed (.exec "already written")⟩) }
      | (cell', .ok _) =>
        { s with
          cell := upd s.cell e cell'
          chan := upd s.chan c (some ⟨k, match r with
            | .ok _ => .running e
            | .error er => .failed er⟩) }
    | _ => s
  | .eos c =>
    match s.chan c with
    | some ⟨k, .running e⟩ =>
      -- `impl_coordinator_channel.rs:160-170`
      match (s.cell e).value with
      | some (.ok td) =>
        { s with
          cell := upd s.cell e ⟨some (.ok { td with metricsTx := none })⟩
          metrics := sendMetrics td s.metrics
          chan := upd s.chan c (some ⟨k, .ended e⟩) }
      | _ => s
    | _ => s
  | .invalidate c =>
    match s.chan c with
    | some ⟨k, .ended e⟩ =>
      -- `impl_coordinator_channel.rs:171`
      { s with cache := upd s.cache k none, chan := upd s.chan c (some ⟨k, .closed e⟩) }
    | _ => s
  | .openExec x k h =>
    match s.exec x with
    | some _ => s
    | none =>
      let g := getWith s k
      { g.1 with exec := upd g.1.exec x (some ⟨k, h, .waiting g.2⟩) }
  | .pollExec x expired =>
    match s.exec x with
    | some ⟨k, h, .waiting e⟩ =>
      -- `impl_execute_task.rs:30-38`
      match (s.cell e).pollRead expired with
      | .pending => s
      | .ready (.error _) =>
        { s with exec := upd s.exec x (some ⟨k, h, .done (.error (.exec "plan timeout"))⟩) }
      | .ready (.ok (.error er)) =>
        { s with exec := upd s.exec x (some ⟨k, h, .done (.error er)⟩) }
      | .ready (.ok (.ok td)) =>
        let r := td.plan insert h
        { s with
          cell := upd s.cell e ⟨some (.ok r.1)⟩
          exec := upd s.exec x (some ⟨k, h, .done r.2⟩) }
    | _ => s
  | .evict k => { s with cache := upd s.cache k none }
  | .crash =>
    { s with
      cache := fun _ => none
      chan := fun c => (s.chan c).map fun ch => ⟨ch.key, ch.phase.afterCrash⟩
      exec := fun x => (s.exec x).map Exec.afterCrash }

/-- The state after a history of steps. Any list of steps (`impl_coordinator_channel.rs:24-196`, `impl_execute_task.rs:19-59`). -/
def run (insert : Head → Plan → Except Err Plan) (s : State Key Plan Head)
    (steps : List (Step Key Plan Head)) : State Key Plan Head :=
  steps.foldl (step insert) s

end Worker
end DD
