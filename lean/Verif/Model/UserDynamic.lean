/-
A query with user-placed boundaries in a session that chooses task counts while the query runs.

`create_distributed_plan` (`/repo/src/distributed_planner/distributed_query_planner.rs:112-136`) prepares such a plan as it always does,
and `DistributedExec::execute` (`/repo/src/coordinator/distributed.rs:220-224`) gives it to `prepare_dynamic_plan` like every other
plan: `inject_network_boundaries` goes over it although it has boundaries already. The boundaries it puts in get remote stages
(`/repo/src/coordinator/prepare_dynamic_plan.rs:117-133`). Those of the user keep their local ones, of which
`with_new_children` (`/repo/src/execution_plans/network_shuffle.rs:203-222`) replaces the plan.
-/
import Verif.Model.Create
import Verif.Model.Dynamic

namespace DD.Tree.Create

open DD.Tree DD.Tree.Rec

variable {Row : Type}

/-- A boundary whose input stage is local, `Stage::Local` (`/repo/src/stage.rs:74-78`), after `inject_network_boundaries`: one that
`prepare_network_boundaries` has numbered, from 1 (prepare_network_boundaries.rs:39-50). Those that were put in have number 0 in the
model (see `wrap`) and remote stages in the code. -/
def isLocal (k : Kind Row) : Bool := k.isNet && k.num != 0

/- Executing all nodes of all stages. -/
mutual
/-- `ExecutionPlan::execute` of the nodes of a plan, of which only the boundaries with local stages matter: network_shuffle.rs:226-229,
network_coalesce.rs:272-275, network_broadcast.rs:250-253 and `LocalStage::execute` (`/repo/src/stage.rs:94-105`). The stages below
boundaries with remote stages are executed by the workers; what fails there fails the query (**C32**, **C71**). -/
def executeLocal : Plan Row → Except Err Unit
  | .node k _ cs =>
    if isLocal k && !cs.isEmpty && decide (k.tasks > 1) then
      .error (.exec "Cannot execute a local stage with more than 1 task")
    else executeLocalAll cs
/-- `executeLocal` on every child. -/
def executeLocalAll : List (Plan Row) → Except Err Unit
  | [] => .ok ()
  | c :: cs => do
    executeLocal c
    executeLocalAll cs
end

/-- Running a planned query with user-placed boundaries and dynamic task counts, distributed.rs:216-240: the plan that runs, or the error.
`PlanReconstructor::reconstruct`, which may fail as well, is left out. -/
def runUserDynamic (env : Env Row) (p : Plan Row) : Except Err (Plan Row) := do
  let p ← inject env .root p
  executeLocal p
  .ok p

end DD.Tree.Create
