/-
From the physical plan of a query to the plans its workers get.

Models `/repo/src/distributed_planner/distributed_query_planner.rs:84-174` (`create_distributed_plan`), with the
wrappers `DistributedExec` (`/repo/src/coordinator/distributed.rs`), `AnalyzeExec` (DataFusion) and
`DistributedAnalyzeExec` (`/repo/src/explain_analyze.rs`), and
`/repo/src/coordinator/prepare_static_plan.rs:20-63` (`prepare_static_plan`).

Simplifications:
* `push_fetch_into_network_coalesce` is modelled apart (`Model/Limit.lean`, **C12**): it changes neither the
  boundaries nor what is modelled of them here.
* Wrappers stand above the plans; nothing else is put above a `DistributedExec`.
* Automatic planning of a `DistributedAnalyzeExec` without boundaries (a dynamically planned `EXPLAIN ANALYZE` that is
  planned again) is not modelled; `create` returns an error there.
-/
import Verif.Model.Recursion

namespace DD.Tree.Create

open DD.Tree DD.Tree.Rec

variable {Row U : Type}

/-- A physical plan with the wrappers distributed planning looks at.
`DistributedExec` (`/repo/src/coordinator/distributed.rs:29-48`), `DistributedAnalyzeExec` (`/repo/src/explain_analyze.rs:26-30`), `AnalyzeExec` (DataFusion). -/
inductive Phys (Row : Type) where
  | plan (p : Plan Row)
  | distributed (p : Phys Row)
  | analyze (p : Phys Row)
  | distAnalyze (p : Phys Row)

/-- `plan.exists(|plan| plan.is_network_boundary())`, distributed_query_planner.rs:112, :131. The wrappers show their input
as child (distributed.rs:150-152, explain_analyze.rs:57-59). -/
def Phys.hasNet : Phys Row → Bool
  | .plan p => Tree.hasNet p
  | .distributed p | .analyze p | .distAnalyze p => p.hasNet

/-- A rewrite of the nodes below the wrappers.
`transform_down`/`transform_up` (DataFusion) as called by `distributed_query_planner.rs:84-174`. -/
def Phys.update (f : Plan Row → M (Plan Row)) : Phys Row → M (Phys Row)
  | .plan p => do .ok (.plan (← f p))
  | .distributed p => do .ok (.distributed (← p.update f))
  | .analyze p => do .ok (.analyze (← p.update f))
  | .distAnalyze p => do .ok (.distAnalyze (← p.update f))

/-- Errors of code without traversals.
Not a function of the code: `Except Err` as the `M` of `Model/Recursion.lean`, whose extra error is a traversal that stops (`/repo/src/common/recursion.rs`). -/
def lift {α : Type} : Except Err α → M α
  | .ok a => .ok a
  | .error e => .error (some e)

/-- The visitor that scales leaves up, distributed_query_planner.rs:114-128. -/
def scaleVisit (env : Env Row) (p : Plan Row) (t : Nat) (s : Unit) : M (Tr Row × Unit) :=
  if !p.children.isEmpty then .ok (⟨p, .cont⟩, s)
  else match env.scale p t with
    | none => .ok (⟨p, .cont⟩, s)
    | some (.error e) => .error (some e)
    | some (.ok p') => .ok (⟨p', .cont⟩, s)

/-- The traversal that scales leaves up, distributed_query_planner.rs:114-128. -/
def scaleLeaves (env : Env Row) (fuel : Nat) (p : Plan Row) : M (Plan Row) := do
  let (r, _) ← downTaskCount (scaleVisit env) fuel p 1 ()
  .ok r.data

/-- Plans with boundaries placed by the user, distributed_query_planner.rs:112-130. The wrappers run in one task, as
what is below them. -/
def prepareUser (env : Env Row) (fuel : Nat) (p : Plan Row) : M (Plan Row) := do
  let p ← scaleLeaves env fuel p
  let (p, _) ← lift (prepare false p 1 1)
  .ok p

/-- `create_distributed_plan`, distributed_query_planner.rs:84-174. `dynamic`: the task counts are decided during
execution. -/
def create (env : Env Row) (dynamic : Bool) (fuel : Nat) : Phys Row → M (Phys Row)
  | .distributed p => .ok (.distributed p)
  | .analyze p => do
    match ← create env dynamic fuel p with
    | .distributed q => .ok (.distAnalyze (.distributed q))
    | q => .ok (.analyze q)
  | p =>
    if p.hasNet then do
      let q ← p.update (prepareUser env fuel)
      if !q.hasNet then .ok q else .ok (.distributed q)
    else match p with
      | .plan p =>
        if dynamic then do
          let q ← lift (preparePlan env p)
          .ok (.distributed (.plan q))
        else do
          match ← lift (plan env p) with
          | none => .ok (.plan p)
          | some q => .ok (.distributed (.plan q))
      | _ => .error (some (.internal "not modelled"))

/-! ### Starting a query -/

/-- A `SetPlanRequest` on its way to a worker, query_coordinator.rs:143-157. -/
structure Sent (Row U : Type) where
  stage : Nat
  task : Nat
  count : Nat
  url : U
  plan : Plan Row

/-- `RemoteStage`, `/repo/src/stage.rs:73-117`: what the boundary keeps of its input stage. Its consumers ask
`workers[i]` for the output of task `i`. -/
structure Remote (U : Type) where
  num : Nat
  workers : List U

/-- The loop over the tasks of a stage, prepare_static_plan.rs:39-47, with `send_plan_task`
(query_coordinator.rs:130-157). -/
def sendTasks (fuel num tasks : Nat) (c : Plan Row) : Nat → List U → M (List (Sent Row U))
  | _, [] => .ok []
  | i, u :: us => do
    let p ← taskSpecialized fuel c ⟨i, tasks⟩
    let rest ← sendTasks fuel num tasks c (i + 1) us
    .ok (⟨num, i, tasks, u, p⟩ :: rest)

/-- One stage, prepare_static_plan.rs:34-47, with the check of `routed_urls` (query_coordinator.rs:409-415). `route` is the
answer of the routing handlers (**C43**, **C48**). -/
def sendStage (route : Plan Row → Nat → Except Err (List U)) (fuel num tasks : Nat) (c : Plan Row) :
    M (List (Sent Row U) × Remote U) := do
  let urls ← lift (route c tasks)
  if urls.length ≠ tasks then .error (some (.exec "number of tasks was not equal to number of urls"))
  else do
    let sent ← sendTasks fuel num tasks c 0 urls
    .ok (sent, ⟨num, urls⟩)

/- `prepare_static_plan`, prepare_static_plan.rs:20-63: `transform_up`. A boundary without children has a remote stage;
a boundary whose stage becomes remote loses its children (network_shuffle.rs, network_coalesce.rs and
network_broadcast.rs, `children`). The result is the plan of the head stage, what was sent, and the stages
as the boundaries know them, in the order of sending. -/
mutual
def start (route : Plan Row → Nat → Except Err (List U)) (fuel : Nat) :
    Plan Row → M (Plan Row × List (Sent Row U) × List (Remote U))
  | .node k tc cs => do
    let (cs, sent, rem) ← startAll route fuel cs
    if !k.isNet then .ok (.node k tc cs, sent, rem)
    else match cs with
      | [] => .error (some (.exec "Input stage from network boundary was not in Local state"))
      | c :: _ => do
        let (s, r) ← sendStage route fuel k.num k.tasks c
        .ok (.node k tc [], sent ++ s, rem ++ [r])
/-- `start` on every child, `/repo/src/coordinator/prepare_static_plan.rs:20-63`. -/
def startAll (route : Plan Row → Nat → Except Err (List U)) (fuel : Nat) :
    List (Plan Row) → M (List (Plan Row) × List (Sent Row U) × List (Remote U))
  | [] => .ok ([], [], [])
  | c :: cs => do
    let (c, s1, r1) ← start route fuel c
    let (cs, s2, r2) ← startAll route fuel cs
    .ok (c :: cs, s1 ++ s2, r1 ++ r2)
end

/-- The plan below `n` `DistributedExec`s: each starts, in turn, what the one outside it made of it.
`/repo/src/coordinator/distributed.rs:198-246`, `/repo/src/coordinator/prepare_static_plan.rs:20-63`. -/
def startTimes (route : Plan Row → Nat → Except Err (List U)) (fuel : Nat) : Nat → Plan Row → M (Plan Row)
  | 0, p => .ok p
  | n + 1, p => do
    let (h, _, _) ← start route fuel p
    startTimes route fuel n h

/-- Executing a physical plan up to the first batch: a `DistributedExec` starts the plan below it, then executes what it
got (distributed.rs:179-247, for statically planned queries), the other wrappers execute their input (`AnalyzeExec`,
explain_analyze.rs:83-118). So the outermost `DistributedExec` is the first one to start the plan; `n` counts them. The
result is the plan that runs in the coordinator. -/
def execute (route : Plan Row → Nat → Except Err (List U)) (fuel : Nat) (n : Nat) : Phys Row → M (Plan Row)
  | .plan p => startTimes route fuel n p
  | .distributed p => execute route fuel (n + 1) p
  | .analyze p | .distAnalyze p => execute route fuel n p

end DD.Tree.Create
