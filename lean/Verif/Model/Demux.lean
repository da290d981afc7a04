import Verif.Model.Boundary
/-
One worker connection on the consumer side: the background task that pulls the single gRPC stream of a producer task and
fans its messages out to one stream per partition. Models `/repo/src/protocol/grpc/worker_client.rs:89-320` and the drop
order of `/repo/src/protocol/grpc/on_drop_stream.rs:66-76`.

A schedule is an arbitrary list (or infinite sequence) of steps of the background task and of the partition streams.
External contracts: tokio `mpsc::unbounded_channel`, `Notify` (`notify_one` stores a permit, so a wake-up is never lost)
and `CancellationToken`; gRPC delivers the messages the server sent, in order, then ends or fails; DataFusion's
`SpawnedTask` aborts its task when dropped. One loop iteration of the task is one step. Not modelled: metrics, Arrow
decoding of a message (`FlightRecordBatchStream`), a message that has not arrived yet (the task step is simply not
scheduled).
-/
namespace DD.Demux

/-- Replace one component of a family.
Not a function of the code: update of an array indexed by partition (`/repo/src/protocol/grpc/worker_client.rs:128-158`). -/
def upd {β : Type} (f : Nat → β) (i : Nat) (x : β) : Nat → β := fun j => if j = i then x else f j

/-- What the gRPC stream yields: a message with its `FlightAppMetadata.partition` and `encoded_len()`, a message whose
metadata does not decode, or an error status. `worker_client.rs:204-222`. -/
inductive Wire (α : Type) where
  | msg (partition size : Nat) (a : α)
  | badMeta
  | err (e : Err)
  deriving Repr, DecidableEq

/-- `WorkerMsg`, the element type of the per-partition channels. `/repo/src/protocol/grpc/worker_client.rs:89-320`. -/
inductive Item (α : Type) where
  | ok (size : Nat) (a : α)
  | err (e : Err)
  deriving Repr, DecidableEq

/-- The size accounted for a message, `/repo/src/protocol/grpc/worker_client.rs:254-271`. -/
def Item.bytes {α} : Item α → Nat
  | .ok size _ => size
  | .err _ => 0

/-- What the consumer's stream yields for a message, `/repo/src/protocol/grpc/worker_client.rs:285-303`. -/
def Item.result {α} : Item α → Except Err α
  | .ok _ a => .ok a
  | .err e => .error e

/-- Where the background task of a connection is, `/repo/src/protocol/grpc/worker_client.rs:159-275`. -/
inductive Phase where
  | waiting   -- before the first poll, `worker_client.rs:160-176`
  | running   -- in the loop, `:188-272`
  | done      -- returned: the senders are dropped
  deriving Repr, DecidableEq

/-- One partition: the channel and the stream handed to the caller.
`/repo/src/protocol/grpc/worker_client.rs:128-158`, `:275-320`. -/
structure Chan (α : Type) where
  queue : List (Item α) := []
  /-- the wrapped stream (receiver and `Arc<SpawnedTask>`) still exists -/
  inner : Bool := true
  /-- the `on_drop` callback has run -/
  dropped : Bool := false
  /-- what `poll_next` returned so far -/
  out : List (Except Err α) := []
  /-- `poll_next` returned `None` -/
  eos : Bool := false
  deriving Repr

/-- The request: partitions `start .. start+n`, the byte budget, the outcome of the RPC and what its stream will yield.
`/repo/src/protocol/grpc/worker_client.rs:89-158`. -/
structure Cfg (α : Type) where
  start : Nat
  n : Nat
  budget : Nat
  connectErr : Option Err
  sent : List (Wire α)
  deriving Repr

/-- `RemoteWorkerConnection` and its background task, `/repo/src/protocol/grpc/worker_client.rs:89-320`. -/
structure State (α : Type) where
  phase : Phase := .waiting
  /-- the `execute_task` RPC was issued -/
  contacted : Bool := false
  /-- permit of `first_poll_notify` -/
  firstPoll : Bool := false
  /-- `cancel_token` -/
  cancelled : Bool := false
  /-- the background task was aborted because its last `Arc<SpawnedTask>` was dropped -/
  aborted : Bool := false
  /-- messages of the gRPC stream not pulled yet -/
  wire : List (Wire α)
  /-- `memory_reservation.size()` -/
  reserved : Nat := 0
  /-- strong count of `Arc<SpawnedTask>` -/
  holders : Nat
  /-- `not_consumed_streams` -/
  remaining : Nat
  chans : Nat → Chan α := fun _ => {}

/-- `worker_client.rs:135-160`, `:277-318`: one channel per partition of the range, the counters start at their number. -/
def init {α} (c : Cfg α) : State α := { wire := c.sent, holders := c.n, remaining := c.n }

/-- `o_tx.send`, `worker_client.rs:262-270`: fails iff the receiver is gone, then the reservation is undone. -/
def send {α} (s : State α) (i size : Nat) (a : α) : State α :=
  if (s.chans i).inner then
    { s with reserved := s.reserved + size
             chans := upd s.chans i { s.chans i with queue := (s.chans i).queue ++ [.ok size a] } }
  else s

/-- `fanout`, `worker_client.rs:550-554`: the error is sent to every partition; then the task returns. -/
def fanout {α} (s : State α) (e : Err) : State α :=
  { s with phase := .done
           chans := fun i => if (s.chans i).inner
             then { s.chans i with queue := (s.chans i).queue ++ [.err e] } else s.chans i }

/-- One step of the background task, `worker_client.rs:159-274`. -/
def taskStep {α} (c : Cfg α) (s : State α) : State α :=
  if s.aborted then s else
  match s.phase with
  | .done => s
  | .waiting =>
    if s.cancelled then { s with contacted := true, phase := .done }
    else if s.firstPoll then
      match c.connectErr with
      | some e => fanout { s with contacted := true } e
      | none => { s with contacted := true, phase := .running }
    else s
  | .running =>
    if s.cancelled then { s with phase := .done }
    else if s.reserved ≥ c.budget then s
    else match s.wire with
      | [] => { s with phase := .done }
      | .err e :: ws => fanout { s with wire := ws } e
      | .badMeta :: ws => fanout { s with wire := ws } (.internal "flight metadata")
      | .msg p size a :: ws =>
        if p < c.start then fanout { s with wire := ws } (.internal "partition out of range")
        else if p - c.start < c.n then send { s with wire := ws } (p - c.start) size a
        else fanout { s with wire := ws } (.internal "partition out of range")

/-- `poll_next` on the stream of partition `i`, `worker_client.rs:285-301`. -/
def pollStep {α} (c : Cfg α) (s : State α) (i : Nat) : State α :=
  if i < c.n ∧ (s.chans i).inner = true ∧ (s.chans i).eos = false then
    let s := { s with firstPoll := true }
    match (s.chans i).queue with
    | it :: q =>
      { s with reserved := s.reserved - it.bytes
               chans := upd s.chans i { s.chans i with queue := q, out := (s.chans i).out ++ [it.result] } }
    | [] =>
      if s.phase = .done ∨ s.aborted then { s with chans := upd s.chans i { s.chans i with eos := true } }
      else s
  else s

/-- First half of dropping the stream of partition `i`: `OnDropStream::drop` drops the wrapped stream *before* running the
callback (`on_drop_stream.rs:69-75`). That drops the receiver with everything buffered in it (the reservation is not
shrunk) and one `Arc<SpawnedTask>`; the last one aborts the task. -/
def dropInner {α} (c : Cfg α) (s : State α) (i : Nat) : State α :=
  if i < c.n ∧ (s.chans i).inner = true then
    { s with holders := s.holders - 1
             aborted := s.aborted || decide (s.holders - 1 = 0)
             chans := upd s.chans i { s.chans i with queue := [], inner := false } }
  else s

/-- Second half: the callback, `worker_client.rs:307-312`. -/
def dropCallback {α} (c : Cfg α) (s : State α) (i : Nat) : State α :=
  if i < c.n ∧ (s.chans i).inner = false ∧ (s.chans i).dropped = false then
    { s with remaining := s.remaining - 1
             cancelled := s.cancelled || decide (s.remaining - 1 = 0)
             chans := upd s.chans i { s.chans i with dropped := true } }
  else s

/-- A step of the background task or of a consumer, `/repo/src/protocol/grpc/worker_client.rs:160-320`. -/
inductive Step where
  | task
  | poll (i : Nat)
  | dropInner (i : Nat)
  | dropCallback (i : Nat)
  /-- the background task panics: its senders are dropped without any error -/
  | crash
  deriving Repr, DecidableEq

/-- `/repo/src/protocol/grpc/worker_client.rs:160-320`, see `taskStep`, `pollStep`, `dropInner` and `dropCallback`. -/
def step {α} (c : Cfg α) (s : State α) : Step → State α
  | .task => taskStep c s
  | .poll i => pollStep c s i
  | .dropInner i => dropInner c s i
  | .dropCallback i => dropCallback c s i
  | .crash => { s with phase := .done }

/-- A schedule: any list of steps (`/repo/src/protocol/grpc/worker_client.rs:160-320`). -/
def run {α} (c : Cfg α) (s : State α) (steps : List Step) : State α := steps.foldl (step c) s

/-- The state after the first `t` steps of an infinite schedule. `/repo/src/protocol/grpc/worker_client.rs:160-320`. -/
def runFor {α} (c : Cfg α) (σ : Nat → Step) : Nat → State α
  | 0 => init c
  | t + 1 => step c (runFor c σ t) (σ t)

end DD.Demux
