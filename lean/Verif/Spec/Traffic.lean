import Verif.Model.Traffic
/-
What happens on a connection, said without its metrics.
-/
namespace DD.Traffic
open Demux

variable {α : Type}

/-- What a step took off the response of the worker, with the reading of the clock. -/
def took (c : Cfg α) (s : State α) (x : Step × Nat) : List (Wire α × Nat) :=
  if (Demux.step c s x.1).wire.length < s.wire.length then (s.wire.head?.map fun w => (w, x.2)).toList else []

/-- Everything that arrived in a schedule, in order, each with the reading of the clock when it did. -/
def arrivals (c : Cfg α) : State α → List (Step × Nat) → List (Wire α × Nat)
  | _, [] => []
  | s, x :: xs => took c s x ++ arrivals c (Demux.step c s x.1) xs

/-- The size of a message for one of the partitions that were asked for. -/
def sizeOf (c : Cfg α) : Wire α → Option Nat
  | .msg p size _ => if c.start ≤ p ∧ p < c.start + c.n then some size else none
  | _ => none

/-- How long a message was under way, if that is known: it says when it was created, and not after now. -/
def delay (created : α → Nat) : Wire α × Nat → Option Nat
  | (.msg _ _ a, now) => if 0 < created a ∧ created a ≤ now then some (now - created a) else none
  | _ => none

/-- The least, the greatest and the first of some times, their sum and their number. A time is shown as at least one nanosecond,
sums are kept in a machine word. -/
structure Describes (l : Latencies) (ds : List Nat) : Prop where
  any : ds ≠ []
  count : l.count = ds.length
  total : l.total = (ds.map fun d => max d 1).sum % 2 ^ 64
  first : ds.head?.map (fun d => max d 1) = some l.first
  most_ge : ∀ d ∈ ds, max d 1 ≤ l.most
  most_mem : ∃ d ∈ ds, max d 1 = l.most
  least_le : ∀ d ∈ ds, l.least ≤ max d 1
  least_mem : (∀ d ∈ ds, d < 2 ^ 64) → ∃ d ∈ ds, max d 1 = l.least

/-- The rows of the batches a stream has returned. -/
def rowsOf (size : α → Nat) (out : List (Except Err α)) : Nat :=
  (out.map fun | .ok a => size a | .error _ => 0).sum

/-- The time a tick took. -/
def Tick.nanos : Tick → Nat
  | .poll _ n _ => n
  | .drop _ => 0

/-- The future or stream a tick is about. -/
def Tick.of : Tick → Nat
  | .poll i _ _ => i
  | .drop i => i

/-- A poll that returned something. -/
def Tick.isReady : Tick → Bool
  | .poll _ _ r => r
  | .drop _ => false

/-- The future or stream was not dropped. -/
def Alive (l : List Tick) (i : Nat) : Prop := ∀ t ∈ l, t.of = i → ∃ n r, t = .poll i n r

/-- Nothing happens to a future or stream that was dropped. -/
def Proper (l : List Tick) : Prop := ∀ pre t post, l = pre ++ t :: post → Alive pre t.of

/-- The time of the polls of `i` since the last one that was ready: time that is being spent for the next item. -/
def unfinished (i : Nat) (l : List Tick) : Nat :=
  ((l.filter fun t => t.of = i).reverse.takeWhile fun t => !t.isReady).map Tick.nanos |>.sum

end DD.Traffic
