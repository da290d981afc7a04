/-
What the metrics written next to a node should say.
-/
import Verif.Model.MetricsDisplay

namespace DD.MetricsDisplay

open DD.Metrics

variable {V : Type}

/-- The contract of `MetricValue`: values of the same kind have the same name, are sorted and hidden alike, and can be aggregated;
the result is of the same kind. -/
structure Values.Lawful {K : Type} (vals : Values V) (kind : V → K) : Prop where
  same : ∀ a b, kind a = kind b →
    vals.name a = vals.name b ∧ vals.sortKey a = vals.sortKey b ∧ vals.timestamp a = vals.timestamp b
  empty : ∀ a, kind (vals.empty a) = kind a
  aggregate : ∀ a b, kind a = kind b → ∃ c, vals.aggregate a b = .ok c ∧ kind c = kind a

/-- `v` is the aggregation of the values `vs`, of which there is at least one. -/
def Total (vals : Values V) (vs : List V) (v : V) : Prop :=
  ∃ a rest, vs = a :: rest ∧ vs.foldlM vals.aggregate (vals.empty a) = .ok v

/-- The metric was reported by the task `some t`, or by no task. -/
def OfTask (m : Metric V) (t : Option Nat) : Prop :=
  taskLabel m = t.map toString ∧ ∀ n, t = some n → n < 2 ^ 64

/-- What is to be written for one name: the values of the tasks. -/
structure Line (V : Type) where
  name : String
  values : List (Option Nat × V)

/-- No task comes before all tasks. -/
def Before : Option Nat → Option Nat → Prop
  | none, some _ => True
  | some a, some b => a < b
  | _, none => False

open Classical in
/-- The values of the given name and task, in the order they were recorded. -/
noncomputable def recorded (vals : Values V) (ms : List (Metric V)) (name : String) (t : Option Nat) : List V :=
  (ms.filter fun m => decide (vals.name m.value = name ∧ OfTask m t)).map (·.value)

/-- The lines say what the metrics say: each name that is not a timestamp has one line; in it, each task that recorded something
under this name has one value, which is the aggregation of what it recorded; names and tasks are sorted. -/
structure Says (vals : Values V) (ms : List (Metric V)) (ls : List (Line V)) : Prop where
  values : ∀ name t v, (∃ l ∈ ls, l.name = name ∧ (t, v) ∈ l.values) ↔
    (∃ m ∈ ms, vals.name m.value = name ∧ vals.timestamp m.value = false ∧ OfTask m t) ∧ Total vals (recorded vals ms name t) v
  nonempty : ∀ l ∈ ls, l.values ≠ []
  tasks : ∀ l ∈ ls, l.values.Pairwise fun a b => Before a.1 b.1
  names : ls.Pairwise fun a b => ∀ m ∈ ms, ∀ n ∈ ms, vals.name m.value = a.name → vals.name n.value = b.name →
    vals.sortKey m.value < vals.sortKey n.value ∨ vals.sortKey m.value = vals.sortKey n.value ∧ a.name < b.name

/-- How a line is written: `name=value` if there are no tasks, `name={task:value, ...}` if there are. -/
def Line.text (vals : Values V) (l : Line V) : String :=
  match l.values with
  | [(none, v)] => l.name ++ "=" ++ vals.print v
  | vs => l.name ++ "={" ++ ", ".intercalate (vs.map fun x =>
      (match x.1 with | some t => toString t ++ ":" | none => "") ++ vals.print x.2) ++ "}"

def text (vals : Values V) (ls : List (Line V)) : String := ", ".intercalate (ls.map (Line.text vals))

/-- Metrics of one name are all of one kind; each is of some task or of none. -/
structure Regular {K : Type} (vals : Values V) (kind : V → K) (ms : List (Metric V)) : Prop where
  kinds : ∀ m ∈ ms, ∀ n ∈ ms, vals.name m.value = vals.name n.value → kind m.value = kind n.value
  labels : ∀ m ∈ ms, ∃ t, OfTask m t

/-- A name is used by tasks or by the coordinator, not both. -/
def Apart (vals : Values V) (ms : List (Metric V)) : Prop :=
  ∀ m ∈ ms, ∀ n ∈ ms, vals.name m.value = vals.name n.value → OfTask m none → OfTask n none

end DD.MetricsDisplay
