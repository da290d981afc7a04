/-
Plan rewrites on workers.

Models `/repo/src/events/worker_plan_rewrite.rs:66-82` (`WorkerPlanRewriteHandlers::handle`) and the place where a worker calls it,
`/repo/src/worker/impl_coordinator_channel.rs:76-83`: the decoded plan of a stage is given to the handlers of the worker's session before
it is registered. In the plan a worker decodes, the input of a network boundary is a remote stage: the boundary has no children
(`children()` in `/repo/src/execution_plans/network_shuffle.rs:189-194`, `network_coalesce.rs:235-240`, `network_broadcast.rs:213-218`).

Simplifications. All workers have the same handlers, and one plan stands for the plans of all tasks of a stage: operators know the task
that runs them, so a handler that makes different plans for different tasks makes a plan of such operators. The head stage runs on the
coordinator and is not given to the handlers.
-/
import Verif.Model.Handlers
import Verif.Spec.Shape

namespace DD.Tree

variable {Row : Type}

/-- A `WorkerPlanRewriteHandler`, worker_plan_rewrite.rs:33-39. -/
abbrev RewriteHandler (Row : Type) := Plan Row → Except Err (Plan Row)

/-- `WorkerPlanRewriteHandlers::handle`, worker_plan_rewrite.rs:66-82: every handler gets the plan of the one before it. -/
def handleRewrite (hs : HandlerChain (RewriteHandler Row)) (p : Plan Row) : Except Err (Plan Row) :=
  hs.tryFold p fun p h => h p

/- The plan of a stage as a worker decodes it: the boundaries it ends at have no children. -/
mutual
/-- `/repo/src/worker/impl_coordinator_channel.rs:43-75`. -/
def decoded : Plan Row → Plan Row
  | .node k tc cs => .node k tc (if k.isNet then [] else decodedAll cs)
/-- `decoded` on every child. -/
def decodedAll : List (Plan Row) → List (Plan Row)
  | [] => []
  | c :: cs => decoded c :: decodedAll cs
end

/- The plans of the stages a stage reads, with their numbers. -/
mutual
/-- `/repo/src/stage.rs:74-117`. -/
def stageInputs : Plan Row → List (Nat × Plan Row)
  | .node k _ cs => if k.isNet then cs.map fun c => (k.num, c) else stageInputsAll cs
/-- `stageInputs` of every child. -/
def stageInputsAll : List (Plan Row) → List (Nat × Plan Row)
  | [] => []
  | c :: cs => stageInputs c ++ stageInputsAll cs
end

/- A decoded plan over the stages it reads: a boundary reads the stage whose number it has, whatever a handler did around it. -/
mutual
/-- `/repo/src/worker/worker_connection_pool.rs:46-145`: the `TaskKey` of a request has the number of the input stage. -/
def connect (f : Nat → Plan Row) : Plan Row → Plan Row
  | .node k tc cs => .node k tc (if k.isNet then [f k.num] else connectAll f cs)
/-- `connect` on every child. -/
def connectAll (f : Nat → Plan Row) : List (Plan Row) → List (Plan Row)
  | [] => []
  | c :: cs => connect f c :: connectAll f cs
end

/-- The stage with number `n`; any plan if there is none.
The task registry is asked by number, `/repo/src/worker/impl_execute_task.rs:23-35`. -/
def stageWith (l : List (Nat × Plan Row)) (n : Nat) : Plan Row :=
  match l.find? fun x => x.1 == n with
  | some x => x.2
  | none => .node (.leaf []) (.desired 1) []

/-- What the workers of one stage run: the plan the handlers return, impl_coordinator_channel.rs:76-83. -/
def rewriteStage (hs : HandlerChain (RewriteHandler Row)) (c : Plan Row) : Except Err (Plan Row) := do
  let s ← handleRewrite hs (decoded c)
  .ok (connect (stageWith (stageInputs c)) s)

/- The plan that runs: every stage that is sent to workers has been given to the handlers. -/
mutual
/-- `/repo/src/worker/impl_coordinator_channel.rs:76-83`, on the workers of every stage. -/
def rewriteStages (hs : HandlerChain (RewriteHandler Row)) : Plan Row → Except Err (Plan Row)
  | .node k tc cs => do
    let cs' ← rewriteStagesAll hs k.isNet cs
    .ok (.node k tc cs')
/-- `rewriteStages` on every child. -/
def rewriteStagesAll (hs : HandlerChain (RewriteHandler Row)) (net : Bool) : List (Plan Row) → Except Err (List (Plan Row))
  | [] => .ok []
  | c :: cs => do
    let c ← rewriteStages hs c
    let c ← (if net then rewriteStage hs c else .ok c)
    let cs ← rewriteStagesAll hs net cs
    .ok (c :: cs)
end

end DD.Tree
