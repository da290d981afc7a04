import Verif.Model.Learned
/-
Filters that hash joins learn while they run, for joins of tables that are partitioned alike on disk: no exchange is needed, and each
task of the join reads its own part of both tables in the same stage (`/repo/src/distributed_planner/inject_network_boundaries.rs:324-400`
puts exchanges only where the plan repartitions, broadcasts or merges). The filter object of a task is that of `Model/Learned`: the
coordinator's for tasks at its own URL, a copy for the others, with what the coordinator's holds when the plan is encoded. The sender
of a task encodes the plan after it has connected (`/repo/src/coordinator/query_coordinator.rs:190-213`), which may be after other
tasks have started.

Simplifications: as in `Model/Learned`; the build side is what the tasks read of it, all at once.
-/
namespace DD.Learned

open Tree InProcess

variable {Row Url : Type}

/-- A join in `tasks` tasks at `urls`, task `t` of which reads `build t` and `probe t` itself. The parts of a leaf are those its
handler gives to the tasks, `/repo/src/events/defaults/file_scan_config.rs:59-70`. -/
structure Local (Row Url : Type) where
  spec : JoinSpec Row
  tasks : Nat
  self : Option Url
  urls : List Url
  build : Nat → List Row
  probe : Nat → List Row

/-- Its objects, scans and histories: those of a join whose probe side is scanned in its own tasks.
`/repo/src/coordinator/query_coordinator.rs:193-203`. -/
def Local.scans (q : Local Row Url) : Query Row Url where
  spec := q.spec
  mode := .collect true fun i _ => i
  tasks := q.tasks
  scans := q.tasks
  self := q.self
  joinUrls := q.urls
  scanUrls := q.urls
  build := (List.range q.tasks).flatMap q.build
  probe := q.probe

/-- What the tasks return together, for the rows that were let pass: each joins its own rows. DataFusion's `HashJoinExec` in the
tasks of `/repo/src/worker/impl_execute_task.rs:44-58`. -/
def Local.result (q : Local Row Url) (got : List (Nat × Row)) : List Row :=
  (List.range q.tasks).flatMap fun t => joinRows q.spec (q.build t) ((got.filter fun x => x.1 = t).map (·.2))

end DD.Learned
