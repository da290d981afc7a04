/-
Task counts chosen while the query runs (`/repo/src/coordinator/prepare_dynamic_plan.rs`): every stage is costed, sized
and sent before the stage above it is built, with a sampler below its head.
-/
import Verif.Model.Planner

namespace DD.Tree

variable {Row : Type}

/-- A session that chooses task counts while the query runs (`dynamic_task_count`): `cpu` is the cpu cost of a stage,
`calculate_cost(&input_stage.plan)?.cpu` (prepare_dynamic_plan.rs:49), which depends on what the samplers of the stages
below reported; `bytes` is `dynamic_bytes_per_partition`. Any function is allowed, so any reports and any formula. -/
def Env.costing (env : Env Row) (cpu : Plan Row → Plan Row → Except Err (Option Nat)) (bytes : Nat) : Env Row :=
  { env with dynamic := some cpu, bytesPerPartition := bytes }

/-- `SamplerExec`, `/repo/src/execution_plans/sampler.rs`: hands its input on, partition by partition. The stream it
produces is modelled in `Verif.Model.Sampler`. -/
def samplerKind : Kind Row := .op (.det fun ds => ds.getD 0 []) none

/-- `ProducerHead::insert_sampler`, `/repo/src/distributed_planner/network_boundary.rs:108-125`. -/
def insertSampler : Plan Row → Plan Row
  | .node k tc [c] => if k.isHead then .node k tc [fresh samplerKind [c]] else .node k tc [c]
  | p => p

/- Samplers below the heads of all stages. The code inserts each sampler when it builds the boundary above it,
prepare_dynamic_plan.rs:83; nothing that comes after looks below a boundary, so one pass at the end does the same. -/
mutual
def sample : Plan Row → Plan Row
  | .node k tc cs => .node k tc (if k.isNet then (sampleAll cs).map insertSampler else sampleAll cs)
/-- `sample` on every child, `/repo/src/coordinator/prepare_dynamic_plan.rs:83`. -/
def sampleAll : List (Plan Row) → List (Plan Row)
  | [] => []
  | c :: cs => sample c :: sampleAll cs
end

/-- The dynamic branch of `create_distributed_plan`, distributed_query_planner.rs:151-157, followed by
`prepare_dynamic_plan`, prepare_dynamic_plan.rs:28-140, for a query without user-placed boundaries. The cost of every
stage is `env.dynamic`. The result is the plan for display; the plans that run are its parts. -/
def dynamicPlan (env : Env Row) (p : Plan Row) : Except Err (Plan Row) := do
  let p ← preparePlan env p
  let p ← inject env .root p
  let (p, _) ← prepare true (sample p) 1 1
  .ok p

end DD.Tree
