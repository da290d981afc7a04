/-
The identifiers under which workers keep the tasks of a run of a plan.

Models where the query id of a `TaskKey` comes from: `/repo/src/distributed_planner/prepare_network_boundaries.rs`,
`/repo/src/distributed_planner/inject_network_boundaries.rs`, `/repo/src/coordinator/distributed.rs`.
-/
import Verif.Model.Worker
import Verif.Model.MetricsRewrite

namespace DD.Runs

/-- The query id of run number `r` of a plan: of a plan made statically it was drawn when the query was planned
(`prepare_network_boundaries.rs:18`, `:43-49`) and every call of `DistributedExec::execute` uses it
(`/repo/src/coordinator/prepare_static_plan.rs:31-52`, `/repo/src/coordinator/query_coordinator.rs:73-77`, `:148-152`); a
plan whose task counts are decided while it runs gets a new one in every call (`distributed.rs:219-222`,
`inject_network_boundaries.rs:156`). Ids are drawn with `Uuid::new_v4`. -/
def queryId (dynamic : Bool) (planned : Nat) (drawn : Nat → Nat) (r : Nat) : Nat :=
  if dynamic then drawn r else planned

end DD.Runs
