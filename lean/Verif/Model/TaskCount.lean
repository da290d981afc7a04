import Verif.Model.Boundary
/- Task count annotations. Models `/repo/src/events/desired_task_count.rs:102-131`. -/
namespace DD

/-- `TaskCountAnnotation`, `/repo/src/events/desired_task_count.rs` (enum used at lines 102-131). -/
inductive TaskCount where
  | desired (n : Nat)
  | maximum (n : Nat)
  deriving Repr, DecidableEq

namespace TaskCount

/-- `as_usize`, `/repo/src/events/desired_task_count.rs:109-114`. -/
def asUsize : TaskCount → Nat
  | desired n => n
  | maximum n => n

/-- `limit`, `/repo/src/events/desired_task_count.rs:116-121`. -/
def limit (a : TaskCount) (l : Nat) : TaskCount :=
  match a with
  | desired n => desired (min n l)
  | maximum n => maximum (min n l)

/-- `merge`, `/repo/src/events/desired_task_count.rs:123-130`. -/
def merge : TaskCount → TaskCount → TaskCount
  | desired a, desired b => desired (max a b)
  | desired _, maximum b => maximum b
  | maximum a, desired _ => maximum a
  | maximum a, maximum b => maximum (min a b)

end TaskCount

/-- Rust `Ord::clamp(lo, hi)`: panics when `lo > hi`. Rust's std. -/
def clampE (x lo hi : Nat) : Except Err Nat :=
  if hi < lo then .error (.panic "clamp min > max") else .ok (max lo (min x hi))

/-- `InjectNetworkBoundaryContext::max_tasks`, `/repo/src/distributed_planner/inject_network_boundaries.rs:176-181`.
`urls` is the resolver's answer. -/
def maxTasks (maxTasksPerStage : Nat) (urls : Except Err Nat) : Except Err Nat :=
  match maxTasksPerStage with
  | 0 => urls.map fun n => max n 1
  | v => .ok v

/-- The task count computed at run time for a stage, `/repo/src/coordinator/prepare_dynamic_plan.rs:60-69`:
`cost.cpu` (absent counts as 0), `div_ceil(bytes_per_partition.max(1))`, `div_ceil(partition_count)` (panics on zero
partitions), `clamp(1, max_tasks)`, merged into the stage's annotation. -/
def dynamicTaskCount (cpu : Option Nat) (bytesPerPartition partitions maxTasks : Nat) (annotation : TaskCount) :
    Except Err TaskCount :=
  if partitions = 0 then .error (.panic "div_ceil by zero")
  else
    (clampE (divCeil (divCeil (cpu.getD 0) (max bytesPerPartition 1)) partitions) 1 maxTasks).map
      fun c => annotation.merge (.desired c)

end DD
