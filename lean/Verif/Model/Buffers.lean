/-
The buffers of a response and the memory they are accounted for.

Models `spawn_select_all` (`/repo/src/protocol/grpc/spawn_select_all.rs:14-63`) with its memory reservation. Unlike
`Model/SelectAll.lean` a forwarding task fetches a message, reserves memory for it and hands it to the queue in separate steps, so that it
holds a message while it waits for room; the response may be dropped at any time, and tasks end at any time after that.
-/
import Verif.Model.Demux

namespace DD.Buffers

open DD.Demux (upd)

/-- One partition stream with its forwarding task, spawn_select_all.rs:26-52. -/
structure Src (α : Type) where
  /-- what the stream will still yield -/
  todo : List (Except Err α)
  /-- the message the task waits to send -/
  hand : Option (Except Err α) := none
  /-- `tokio::sync::mpsc::channel(queue_size)` -/
  queue : List (Except Err α) := []
  /-- the task has ended, and its clone of the reservation is gone -/
  finished : Bool := false

/-- The response, spawn_select_all.rs:14-63. -/
structure State (α : Type) where
  srcs : Nat → Src α
  /-- what the response has yielded, with the partition -/
  out : List (Nat × Except Err α) := []
  /-- `MemoryReservation::size` -/
  reserved : Nat := 0
  /-- `MemoryReservation::shrink` was asked for more than is reserved: it panics -/
  panicked : Bool := false
  /-- the response is gone: its receivers are closed and its tasks are told to abort -/
  dropped : Bool := false

/-- Steps of the tasks, of who reads the response, and of the runtime, spawn_select_all.rs:33-62. -/
inductive Step where
  | fetch (i : Nat)
  | push (i : Nat)
  | take (i : Nat)
  /-- the stream panics, and the task with it -/
  | crash (i : Nat)
  /-- the client went away, or has read everything -/
  | drop
  /-- the runtime ends an aborted task -/
  | abort (i : Nat)

variable {α : Type}

/-- `get_memory_size` of a message, 0 for errors, for which nothing is reserved. spawn_select_all.rs:43-45, :55-57, :65-79. -/
def sizeOf' (size : α → Nat) : Except Err α → Nat
  | .ok a => size a
  | .error _ => 0

/-- One step of `n` tasks with queues of `cap` messages. spawn_select_all.rs:33-62. -/
def step (size : α → Nat) (n cap : Nat) (s : State α) : Step → State α
  | .fetch i =>
    let t := s.srcs i
    if i < n ∧ t.finished = false ∧ t.hand.isNone then
      -- `biased`: `closed()` first
      if s.dropped then { s with srcs := upd s.srcs i { t with finished := true } }
      else match t.todo with
        | [] => { s with srcs := upd s.srcs i { t with finished := true } }
        | x :: rest =>
          { s with srcs := upd s.srcs i { t with todo := rest, hand := some x }, reserved := s.reserved + sizeOf' size x }
    else s
  | .push i =>
    let t := s.srcs i
    if i < n ∧ t.finished = false then match t.hand with
      | none => s
      | some x =>
        if s.dropped then { s with srcs := upd s.srcs i { t with hand := none, finished := true } }
        else if t.queue.length < cap then { s with srcs := upd s.srcs i { t with hand := none, queue := t.queue ++ [x] } }
        else s
    else s
  | .take i =>
    let t := s.srcs i
    if i < n ∧ s.dropped = false then match t.queue with
      | [] => s
      | x :: q => { s with
          srcs := upd s.srcs i { t with queue := q }, out := s.out ++ [(i, x)], reserved := s.reserved - sizeOf' size x
          panicked := s.panicked || decide (s.reserved < sizeOf' size x) }
    else s
  | .crash i =>
    let t := s.srcs i
    if i < n ∧ t.finished = false ∧ t.hand.isNone then { s with srcs := upd s.srcs i { t with todo := [], finished := true } } else s
  | .drop => { s with dropped := true, srcs := fun i => { s.srcs i with queue := [] } }
  | .abort i => if s.dropped ∧ i < n then { s with srcs := upd s.srcs i { s.srcs i with hand := none, finished := true } } else s

/-- A schedule: any list of steps (spawn_select_all.rs:14-63). -/
def run (size : α → Nat) (n cap : Nat) (sources : Nat → List (Except Err α)) (steps : List Step) : State α :=
  steps.foldl (step size n cap) { srcs := fun i => { todo := sources i } }

/-- What the memory pool shows for the response: the reservation is shared by the response and its tasks, and is given back when the
last of them is gone. spawn_select_all.rs:24, :31, :54-62, and `MemoryReservation::drop` (DataFusion). -/
def usage (n : Nat) (s : State α) : Nat :=
  if s.dropped && (List.range n).all fun i => (s.srcs i).finished then 0 else s.reserved

end DD.Buffers
