/-
What the parties to a query see of a worker, and which of the events on a worker belong to the query
(**C82**).
-/
import Verif.Model.Worker

namespace DD.Worker

/-- What the coordinator can tell about one of its channels. -/
inductive Seen where
  | opening
  | running
  | ended
  | closed
  | failed (err : Err)
  | lost
  deriving DecidableEq

/-- Everything a coordinator sees of a channel; the identity of the entry behind it is not visible. -/
def ChanPhase.seen : ChanPhase → Seen
  | .gotEntry _ => .opening
  | .running _ => .running
  | .ended _ => .ended
  | .closed _ => .closed
  | .failed err => .failed err
  | .lost _ => .lost

/-- The answer to a request for the output of a task: `none` while it waits. -/
def ExecPhase.seen {Plan : Type} : ExecPhase Plan → Option (Except Err Plan)
  | .waiting _ => none
  | .done r => some r

variable {Key Plan Head : Type}

/-- Everything the parties to a query see of a worker: what became of each channel `c`, the metrics it
carried, and the answer to each request `x`. -/
structure View (Key Plan Head : Type) where
  chan : Nat → Option (Key × Seen)
  metrics : Nat → List Plan
  exec : Nat → Option (Key × Head × Option (Except Err Plan))

/-- What is seen of the channels `mc` and the requests `mx`. -/
def State.view (s : State Key Plan Head) (mc mx : Nat → Bool) : View Key Plan Head where
  chan c := if mc c then (s.chan c).map fun ch => (ch.key, ch.phase.seen) else none
  metrics c := if mc c then s.metrics c else []
  exec x := if mx x then (s.exec x).map fun ex => (ex.key, ex.head, ex.phase.seen) else none

/-- The events of a query: those about its tasks `own`, its channels `mc` and its requests `mx`. A crash of
the worker is an event of every query. -/
def Step.of (own : Key → Bool) (mc mx : Nat → Bool) : Step Key Plan Head → Bool
  | .openChannel _ k => own k
  | .setPlan c _ => mc c
  | .eos c => mc c
  | .invalidate c => mc c
  | .openExec _ k _ => own k
  | .pollExec x _ => mx x
  | .evict k => own k
  | .crash => true

/-- Channels and requests are told apart: those named `mc` and `mx` are the ones for the tasks `own`. -/
def Step.Fits (own : Key → Bool) (mc mx : Nat → Bool) : Step Key Plan Head → Prop
  | .openChannel c k => mc c = own k
  | .openExec x k _ => mx x = own k
  | _ => True

end DD.Worker
