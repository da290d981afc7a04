/-
The network of streams a planned query opens: one stage per boundary, one stream per partition a task asks a producer task for.

Models how `/repo/src/execution_plans/network_shuffle.rs:221-251`, `network_broadcast.rs:245-275` and `network_coalesce.rs:267-334`
(`requests`), `/repo/src/worker/worker_connection_pool.rs:46-169` and `/repo/src/execution_plans/children_isolator_union.rs:313-351`
(`childCtx`) make one network out of a plan.
-/
import Verif.Model.Network
import Verif.Spec.Recursion

namespace DD.Net

open DD.Tree DD.Tree.Rec

variable {Row : Type}

/-- A boundary of a plan with the stage whose tasks run it, and, for each task that does, its number in that stage and the context
(number and count) it runs the boundary in: the two differ below isolated unions.
`/repo/src/execution_plans/children_isolator_union.rs:313-351` makes the contexts differ. -/
structure Site (Row : Type) where
  above : Nat
  kind : Kind Row
  runs : List (Nat × TaskCtx)

/-- The tasks of an input stage, `one plan is sent per task, `/repo/src/coordinator/prepare_static_plan.rs:24-47``. -/
def stageTasks (N : Nat) : List (Nat × TaskCtx) := (List.range N).map fun i => (i, ⟨i, N⟩)

/-- The tasks that run child `i` of a node: all, or below an isolated union those it is assigned to,
children_isolator_union.rs:313-351. -/
def runsBelow (k : Kind Row) (runs : List (Nat × TaskCtx)) (i : Nat) : List (Nat × TaskCtx) :=
  runs.filterMap fun r => (childCtx k r.2 i).map fun ctx => (r.1, ctx)

/- The boundaries of a plan that is run by the tasks `runs` of stage `above`, parents first. The first of them is the input of stage
number `next`, and so on; the head stage is number 0. (The code numbers stages inputs first; only the tree matters here.) -/
mutual
/-- `/repo/src/distributed_planner/prepare_network_boundaries.rs:14-55` numbers them. -/
def sites (above next : Nat) (runs : List (Nat × TaskCtx)) : Plan Row → List (Site Row)
  | .node k _ cs =>
    if k.isNet then ⟨above, k, runs⟩ :: sitesAll next (next + 1) (fun _ => stageTasks k.tasks) cs
    else sitesAll above next (runsBelow k runs) cs
/-- `sites` on every child (`prepare_network_boundaries.rs:14-55`). -/
def sitesAll (above next : Nat) (runs : Nat → List (Nat × TaskCtx)) : List (Plan Row) → List (Site Row)
  | [] => []
  | c :: cs => sites above next (runs 0) c
      ++ sitesAll above (next + (sites above next (runs 0) c).length) (fun i => runs (i + 1)) cs
end

/-- The boundaries of a whole query, whose head stage runs on the coordinator as one task.
`/repo/src/coordinator/distributed.rs:198-246`. -/
def planSites (p : Plan Row) : List (Site Row) := sites 0 1 [(0, ⟨0, 1⟩)] p

/-- The streams of the input stage of a boundary: each task that runs the boundary executes all its partitions, and each of these asks
for some partitions of some tasks of the input stage.
`network_shuffle.rs:221-251`, `network_broadcast.rs:245-275`, `network_coalesce.rs:267-334`. -/
def Site.streams (s : Site Row) : List Stream :=
  s.runs.flatMap fun r => (List.range s.kind.netParts).flatMap fun q => match requests s.kind r.2 q with
    | .ok pulls => pulls.map fun pull => ⟨pull.task, r.1, pull.partition⟩
    | .error _ => []

/-- The network of a query. What is not said by the plan (connections, buffers, what operators compute and read) is as in `b`.
`/repo/src/worker/worker_connection_pool.rs:46-145`, `/repo/src/worker/impl_execute_task.rs:19-59`. -/
def planNet {α σ : Type} (p : Plan Row) (b : Net Nat α σ) : Net Nat α σ := { b with
  stages := List.range ((planSites p).length + 1)
  root := 0
  parent := fun s => match (planSites p)[s - 1]? with
    | some x => x.above
    | none => 0
  depth := id
  streams := fun s => if s = 0 then [] else match (planSites p)[s - 1]? with
    | some x => x.streams
    | none => [] }

end DD.Net
