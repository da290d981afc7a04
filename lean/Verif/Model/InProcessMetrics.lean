/-
The metrics of tasks that run in the coordinator's own process.

A task routed to the coordinator's own URL gets its plan without encoding (`/repo/src/coordinator/query_coordinator.rs:156-163,193-203`,
`/repo/src/common/maybe_encoded.rs:24-29`), so what it records may end up in objects the coordinator's copy of the plan and the other
tasks in the process have, too. `/repo/src/execution_plans/metrics.rs:98-114` takes the metrics found in both places for the same ones.
-/
import Verif.Model.MetricsRewrite

namespace DD.Metrics

variable {V : Type}

/-- A set of metrics nodes record into (`ExecutionPlanMetricsSet`, DataFusion): the one of the coordinator's node at a position, or
one only the given task has. -/
inductive Obj where
  | coordinator (x : Path)
  | task (i : Nat) (x : Path)
  deriving DecidableEq

/-- Which tasks of a stage run in the coordinator's process (query_coordinator.rs:193-203), and at which positions such a task records
into the set of the coordinator's node. The latter are the nodes `task_specialized_plan` (query_coordinator.rs:344-391) leaves as they
are, and the leaves that scan files: the variants of a leaf are clones of one `FileScanConfig`
(`/repo/src/events/defaults/file_scan_config.rs:63-76`), whose `FileSource` has the metrics and is behind an `Arc`. -/
structure Sharing where
  inProcess : Nat → Bool
  kept : Path → Bool

/-- Where a task records what happens at a position: a plan that is encoded gets sets of its own when it is decoded,
maybe_encoded.rs:24-29. -/
def Sharing.obj (s : Sharing) (i : Nat) (x : Path) : Obj :=
  if s.inProcess i && s.kept x then .coordinator x else .task i x

/-- What is in a set when all tasks of a stage are done; `work i x` is what task `i` records at position `x`. The order in a shared
set is that of the tasks. `ExecutionPlanMetricsSet::register` (DataFusion). -/
def Sharing.content (s : Sharing) (tasks : Nat) (work : Nat → Path → List (Metric V)) : Obj → List (Metric V)
  | .task i x => if s.obj i x = .task i x then work i x else []
  | .coordinator x => (List.range tasks).flatMap fun i => if s.obj i x = .coordinator x then work i x else []

/-- What a task reports for the node at a position, `/repo/src/worker/impl_coordinator_channel.rs:208-212`: the content of its set. -/
def Sharing.recorded (s : Sharing) (tasks : Nat) (work : Nat → Path → List (Metric V)) (i : Nat) (x : Path) : List (Metric V) :=
  s.content tasks work (s.obj i x)

/-- What the coordinator's own copy of the node has, `/repo/src/execution_plans/metrics.rs:93`. -/
def Sharing.own (s : Sharing) (tasks : Nat) (work : Nat → Path → List (Metric V)) (x : Path) : List (Metric V) :=
  s.content tasks work (.coordinator x)

end DD.Metrics
