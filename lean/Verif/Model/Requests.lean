/-
Requests of any content to a worker.

Models how a worker answers `execute_task` requests and the messages of a coordinator channel whatever is in them:
`WorkerService::execute_task` and `coordinator_channel` (`/repo/src/protocol/grpc/worker_service.rs:88-184`), `Worker::execute_task`
(`/repo/src/worker/impl_execute_task.rs:19-59`) and `TaskData::plan` (`/repo/src/worker/task_data.rs:103-115`). Decoding is that of
`Model/Codec.lean`. When entries appear and disappear is `Model/Worker.lean`; here a state says what reading the entry of a task
gives within the ten seconds a request waits.
-/
import Verif.Model.Codec

namespace DD.Requests
open DD.Codec

deriving instance DecidableEq for Uuid
deriving instance DecidableEq for TaskKey

/-- The plan of a task with its producer head. `exec` is `ExecutionPlan::execute` (DataFusion), which may depend on the partitions
executed before: exchanges, for example, hand out a partition once (`/repo/src/worker/worker_connection_pool.rs:96-105`). -/
structure Plan (S : Type) where
  parts : Nat
  exec : List Nat → Nat → Except Err S

/-- `TaskData`, `/repo/src/worker/task_data.rs:15-29`: the plan as it was sent, the plan with its head once a request has come, and the
partitions executed so far. -/
structure Task (Base S : Type) where
  base : Base
  final : Option (Except Err (Plan S)) := none
  executed : List Nat := []

/-- What a worker knows: per task nothing within ten seconds, an error, or the task
(`/repo/src/worker/impl_execute_task.rs:23-34`). -/
structure State (Base S : Type) where
  tasks : TaskKey → Option (Except Err (Task Base S))

/-- How a call ends. `panicked`: the call is torn down without an answer. `aborted`: the process is gone, as Rust's `handle_alloc_error`
does when there is not enough memory. -/
inductive Reply (S : Type) where
  | streams (ss : List (Nat × S))
  | failed (e : Err)
  | panicked
  | aborted

/-- The machine: whether arithmetic is checked (debug builds), and the bytes that can be allocated. Rust's std. -/
structure Machine where
  checked : Bool
  memory : Nat

/-- `2^64`, `usize::MAX + 1`. Rust's std. -/
def word : Nat := 18446744073709551616

/-- `request.target_partition_end - request.target_partition_start`, impl_execute_task.rs:44: `none` is a panic. -/
def Machine.minus (m : Machine) (hi lo : Nat) : Option Nat :=
  if lo ≤ hi then some (hi - lo) else if m.checked then none else some (hi + word - lo)

/-- `2^63`, `isize::MAX + 1`. Rust's std. -/
def tooMany : Nat := 9223372036854775808

/-- The size of a `SendableRecordBatchStream`, a fat pointer. Rust's std. -/
def streamSize : Nat := 16

/-- `Vec::with_capacity`, impl_execute_task.rs:45: more than `isize::MAX` bytes is a panic, more than there are ends the process. -/
def Machine.reserve {S : Type} (m : Machine) (n : Nat) : Option (Reply S) :=
  if tooMany ≤ n * streamSize then some .panicked else if m.memory < n * streamSize then some .aborted else none

/-- The loop over the partitions, impl_execute_task.rs:46-57: the partitions executed, also those of a request that fails later, and the
streams. -/
def executeAll {S : Type} (p : Plan S) : List Nat → List Nat → List Nat × Except Err (List (Nat × S))
  | done, [] => (done, .ok [])
  | done, i :: is =>
    if p.parts ≤ i then (done, .error (.exec "partition not available"))
    else match p.exec done i with
      | .error e => (done ++ [i], .error e)
      | .ok s =>
        let r := executeAll p (done ++ [i]) is
        (r.1, r.2.map ((i, s) :: ·))

/-- `start..end` (Rust). Used at impl_execute_task.rs:46. -/
def range (lo hi : Nat) : List Nat := (List.range (hi - lo)).map (lo + ·)

/-- `TaskData::plan`, task_data.rs:103-115. -/
def Task.plan {Base P S : Type} (insert : Head P → Base → Except Err (Plan S)) (t : Task Base S) (h : Head P) :
    Task Base S × Except Err (Plan S) :=
  match t.final with
  | some r => (t, r)
  | none => ({ t with final := some (insert h t.base) }, insert h t.base)

/-- `Worker::execute_task` on the entry of its task, impl_execute_task.rs:27-59. -/
def Task.execute {Base P S : Type} (m : Machine) (insert : Head P → Base → Except Err (Plan S)) (t : Task Base S) (r : Execute P) :
    Task Base S × Reply S :=
  match t.plan insert r.head with
  | (t, .error e) => (t, .failed e)
  | (t, .ok p) =>
    match m.minus r.hi r.lo with
    | none => (t, .panicked)
    | some n =>
      match m.reserve n with
      | some bad => (t, bad)
      | none =>
        let x := executeAll p t.executed (range r.lo r.hi)
        ({ t with executed := x.1 }, match x.2 with
          | .ok ss => .streams ss
          | .error e => .failed e)

/-- `WorkerService::execute_task`, worker_service.rs:133-147, and `Worker::execute_task`, impl_execute_task.rs:19-59, up to the first
poll of a stream. -/
def execute {Base P B S : Type} (m : Machine) (dec : B → Except Err P) (insert : Head P → Base → Except Err (Plan S))
    (st : State Base S) (r : ExecuteProto B) : State Base S × Reply S :=
  match decodeExecute dec r with
  | .error e => (st, .failed e)
  | .ok r =>
    match st.tasks r.key with
    | none => (st, .failed (.exec "timed-out while waiting for the plan to be set by the coordinator"))
    | some (.error e) => (st, .failed e)
    | some (.ok t) =>
      let x := t.execute m insert r
      (⟨fun k => if k = r.key then some (.ok x.1) else st.tasks k⟩, x.2)

/-- The first message of a coordinator channel, worker_service.rs:94-108. Messages are `none` when they have no content. -/
def openChannel (L : Lib) : List (Option ToWorkerProto) → Except Err (SetPlan L.Url)
  | [] => .error (.exec "Coordinator stream is empty")
  | none :: _ => .error (.exec "Missing field 'CoordinatorToWorkerMsg.inner'")
  | some (.setPlan p) :: _ => decodeSetPlan L p
  | some _ :: _ => .error (.exec "First Coordinator to Worker message must be SetPlanRequest")

/-- The messages the worker acts on after the first: the loop ends at the first one that does not decode
(`while let Some(Ok(msg))`, `/repo/src/worker/impl_coordinator_channel.rs:125-126`, with the decoding of worker_service.rs:110-115). -/
def messagesRead : List (Option ToWorkerProto) → List ToWorker
  | [] => []
  | m :: ms => match decodeToWorker m with
    | .ok x => x :: messagesRead ms
    | .error _ => []

end DD.Requests
