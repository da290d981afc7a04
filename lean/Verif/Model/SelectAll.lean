import Verif.Model.Demux
/-
The producer side of one worker connection: the partition streams of a task are merged into one gRPC stream.
Models `/repo/src/protocol/grpc/spawn_select_all.rs:14-63` and the tagging in
`/repo/src/protocol/grpc/worker_service.rs:159-184`.

Every partition stream has its own forwarding task and bounded queue. A schedule is an arbitrary list of steps.
Not modelled: memory accounting, and the forwarding tasks stopping early because the response was dropped (then nobody
reads the response any more).
-/
namespace DD.SelectAll

/-- One partition stream with its forwarding task. spawn_select_all.rs:14-52. -/
structure Src (α : Type) where
  /-- what the stream will still yield -/
  todo : List (Except Err α)
  /-- `tokio::sync::mpsc::channel(queue_size)` -/
  queue : List (Except Err α) := []
  /-- the forwarding task returned: its sender is dropped -/
  finished : Bool := false
  deriving Repr

/-- The streams and the shared queue, spawn_select_all.rs:14-63. -/
structure State (α : Type) where
  srcs : Nat → Src α
  /-- items the merged stream yielded, with the partition they were tagged with -/
  out : List (Nat × Except Err α) := []
  /-- the merged stream returned `None` -/
  eos : Bool := false

/-- Of a forwarding task, or a poll of the merged stream, spawn_select_all.rs:14-63. -/
inductive Step where
  | forward (i : Nat)
  | take (i : Nat)
  | finish
  /-- the forwarding task panics: its sender is dropped without an error -/
  | crash (i : Nat)
  deriving Repr, DecidableEq

/-- One iteration of the forwarding task, `spawn_select_all.rs:34-50`; sending into a full queue waits. -/
def forwardStep {α} (cap : Nat) (s : Src α) : Src α :=
  if s.finished then s
  else match s.todo with
    | [] => { s with finished := true }
    | x :: rest => if s.queue.length < cap then { s with todo := rest, queue := s.queue ++ [x] } else s

/-- `n` sources; `select_all` yields from any non-empty queue and ends when every queue is closed and drained,
`spawn_select_all.rs:54-62`. -/
def step {α} (n cap : Nat) (s : State α) : Step → State α
  | .forward i => if i < n then { s with srcs := Demux.upd s.srcs i (forwardStep cap (s.srcs i)) } else s
  | .take i =>
    if i < n then match (s.srcs i).queue with
      | x :: q => { s with srcs := Demux.upd s.srcs i { s.srcs i with queue := q }, out := s.out ++ [(i, x)] }
      | [] => s
    else s
  | .finish =>
    if (List.range n).all (fun i => (s.srcs i).finished && (s.srcs i).queue.isEmpty) then { s with eos := true } else s
  | .crash i => if i < n then { s with srcs := Demux.upd s.srcs i { s.srcs i with finished := true, todo := [] } } else s

/-- A schedule: any list of steps (`spawn_select_all.rs:14-63`). -/
def run {α} (n cap : Nat) (sources : Nat → List (Except Err α)) (steps : List Step) : State α :=
  steps.foldl (step n cap) { srcs := fun i => { todo := sources i } }

/-- What arrives at the client for an item of the merged stream: the partition is `partition_range.start + i`
(`worker_service.rs:160`), an error becomes the status that ends the RPC. -/
def wireOf {α} (size : α → Nat) (start : Nat) : Nat × Except Err α → Demux.Wire α
  | (i, .ok a) => .msg (start + i) (size a) a
  | (_, .error e) => .err e

end DD.SelectAll
