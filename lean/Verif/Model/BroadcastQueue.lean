import Verif.Model.Boundary
/-
The in-memory broadcast queue of `BroadcastExec`. Models `/repo/src/execution_plans/broadcast.rs:167-313`.

Every access to shared memory (the entries mutex, the watch channel) is one atomic step, so a schedule is an arbitrary
list of steps of the producing task and of the consumers. External contract (tokio `watch` + `WatchStream::new`): a
stream yields the current value first, then the latest value whenever the version changed since the last yield; it ends
only when there is no unseen value and the sender was dropped.
-/
namespace DD.BQ

/-- What the producing task (`broadcast.rs:184-201`) still has to do. `items` are the results of the input stream; an
`Err` item is pushed and ends the loop, so it is the last one of the script. -/
structure Producer (α : Type) where
  todo : List α
  /-- an entry was appended but its length not yet announced (`push`, between lines 254 and 259) -/
  unannounced : Bool := false
  /-- `drop` of the queue: `closed` was announced (`broadcast.rs:263-269`) -/
  closedSent : Bool := false
  deriving Repr

/-- `BroadcastQueue`, `/repo/src/execution_plans/broadcast.rs:222-232`: the entries and the watch channel. -/
structure Shared (α : Type) where
  entries : List α := []
  watchLen : Nat := 0
  watchClosed : Bool := false
  version : Nat := 0
  senderAlive : Bool := true
  deriving Repr

/-- `BroadcastConsumer`, `broadcast.rs:272-278`, with `out` and `ended` recording what its `poll_next` returned. -/
structure Consumer (α : Type) where
  index : Nat := 0
  len : Nat := 0
  closed : Bool := false
  /-- version of the watch value last yielded to this consumer; `none` before the first yield -/
  seen : Option Nat := none
  out : List α := []
  ended : Bool := false
  deriving Repr

/-- The producing task, the queue and the consumers, `/repo/src/execution_plans/broadcast.rs:167-208`. -/
structure State (α : Type) where
  prod : Producer α
  sh : Shared α := {}
  cons : Nat → Consumer α := fun _ => {}

/-- `BroadcastQueue::new` and `new_consumer` (`broadcast.rs:229-250`) for every consumer, before the producing task is
spawned (`broadcast.rs:167-184`). -/
def init {α} (items : List α) : State α := { prod := { todo := items } }

/-- One atomic step of the producing task: append an entry (`push`, `broadcast.rs:252-257`), announce the new length
(`:258-260`), after the last item announce `closed` (`:265-268`), finally drop the sender. -/
def prodStep {α} (s : State α) : State α :=
  if s.prod.unannounced then
    { s with prod := { s.prod with unannounced := false }
             sh := { s.sh with watchLen := s.sh.entries.length, version := s.sh.version + 1 } }
  else match s.prod.todo with
    | x :: rest =>
      { s with prod := { s.prod with todo := rest, unannounced := true }
               sh := { s.sh with entries := s.sh.entries ++ [x] } }
    | [] =>
      if ¬ s.prod.closedSent then
        { s with prod := { s.prod with closedSent := true }
                 sh := { s.sh with watchClosed := true, version := s.sh.version + 1 } }
      else { s with sh := { s.sh with senderAlive := false } }

/-- The producing task panics or is aborted: unwinding drops the queue, which announces `closed` and drops the sender
(`broadcast.rs:263-269`); the rest of the input is never pushed. -/
def crashStep {α} (s : State α) : State α :=
  { s with prod := { todo := [], unannounced := false, closedSent := true }
           sh := { s.sh with watchClosed := true, version := s.sh.version + 1, senderAlive := false } }

/-- One iteration of the loop in `BroadcastConsumer::poll_next`, `broadcast.rs:285-312`. Returning (yield, end or
pending) or looping is one step either way: the next step starts a new iteration, in the same or in a later poll. -/
def consStep {α} (sh : Shared α) (c : Consumer α) : Consumer α :=
  if c.ended then c
  else
    let entry := if c.index < c.len then sh.entries[c.index]? else none
    match entry with
    | some v => { c with index := c.index + 1, out := c.out ++ [v] }
    | none =>
      if c.closed then { c with ended := true }
      else if c.seen ≠ some sh.version then
        { c with len := sh.watchLen, closed := sh.watchClosed, seen := some sh.version }
      else if ¬ sh.senderAlive then { c with closed := true }
      else c   -- Pending

/-- A step of the producing task (`broadcast.rs:182-197`), of a consumer (`broadcast.rs:281-313`), or a panic or abort of the producing task. -/
inductive Step where
  | prod
  | cons (i : Nat)
  | crash
  deriving Repr, DecidableEq

/-- One atomic step, see `prodStep`, `consStep` and `crashStep` (`/repo/src/execution_plans/broadcast.rs:167-313`). -/
def step {α} (s : State α) : Step → State α
  | .prod => prodStep s
  | .cons i => { s with cons := fun j => if j = i then consStep s.sh (s.cons i) else s.cons j }
  | .crash => crashStep s

/-- A schedule, that is any list of steps (`/repo/src/execution_plans/broadcast.rs:167-313`). -/
def run {α} (s : State α) (steps : List Step) : State α := steps.foldl step s

/-- The producing task pushed everything and dropped the queue. `/repo/src/execution_plans/broadcast.rs:182-197`, `:263-269`. -/
def finished {α} (s : State α) : Prop := s.prod.todo = [] ∧ s.prod.unannounced = false ∧ s.prod.closedSent = true

end DD.BQ
