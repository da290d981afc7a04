/-
The planning passes.

Models `/repo/src/distributed_planner/`: `normalize_collect_joins.rs`, `insert_broadcast.rs`,
`insert_children_isolator_union.rs`, `inject_network_boundaries.rs`, `prepare_network_boundaries.rs`,
`partial_reduce_below_network_shuffles.rs`, `network_boundary.rs` (`ProducerHead`) and
`distributed_query_planner.rs`.

Not modelled: plan properties other than the partition count and the hash partitioning of a shuffle,
`AnalyzeExec`, the pointer-keyed map of task counts (annotations are stored in the nodes).
-/
import Verif.Model.PlanTree
import Mathlib.Data.Rat.Floor

namespace DD.Tree

variable {Row : Type}

/-- `CardinalityEffect` (DataFusion). -/
inductive Effect where
  | lower | equal | greater
  deriving DecidableEq, Repr

/-- What the planner asks the session for. `maxTasks` is the answer of
`InjectNetworkBoundaryContext::max_tasks` (see `DD.maxTasks`).
`/repo/src/distributed_planner/inject_network_boundaries.rs:163-218`. -/
structure Env (Row : Type) where
  /-- `DesiredTaskCountHandlers::handle` -/
  desired : Plan Row → Except Err (Option TaskCount)
  /-- `ScaleUpLeafNodeHandlers::handle` -/
  scale : Plan Row → Nat → Option (Except Err (Plan Row))
  /-- `ExecutionPlan::cardinality_effect` -/
  effect : Kind Row → Effect
  /-- `cardinality_task_count_factor`, an `f64`, as a rational -/
  factor : Rat
  broadcastJoins : Bool
  isolateUnions : Bool
  partialReduce : Bool
  maxTasks : Nat
  targetPartitions : Nat
  /-- Absent with static task counts. With `dynamic_task_count`, the cpu cost `calculate_cost` finds for a stage that
  is about to be sent, which depends on what the stages below it have reported so far
  (`/repo/src/coordinator/prepare_dynamic_plan.rs:51-63`). It is asked for the node the stage was made of and for the
  stage. The task counts in the plan given to the planner are never read, so they can tell equal nodes of the input
  apart: the answer is arbitrary for every stage of every run. -/
  dynamic : Option (Plan Row → Plan Row → Except Err (Option Nat)) := none
  /-- `dynamic_bytes_per_partition` -/
  bytesPerPartition : Nat := 1

/-! ### Passes before the boundaries are placed -/

/-- A fetch-less `CoalescePartitionsExec` is taken off, normalize_collect_joins.rs:134-140, :181-187. -/
def stripCoalesce : Plan Row → Plan Row
  | .node (.coalesce none) _ [x] => x
  | p => p

/-- A node as created by a pass; task counts are recorded later. The constructors called in `/repo/src/distributed_planner`. -/
def fresh (k : Kind Row) (cs : List (Plan Row)) : Plan Row := .node k (.desired 1) cs

/-- The rewrite of one node by `normalize_collect_joins`, normalize_collect_joins.rs:112-158, with
`collect_left_to_partitioned`, :164-204. `lp` and `rp` are the partition counts of the original children:
`transform_down` looks at a node before its children are rewritten, and the children it keeps are rewritten
afterwards. -/
def normalizeNode (env : Env Row) (lp rp : Nat) (k : Kind Row) (tc : TaskCount) (cs : List (Plan Row)) :
    Except Err (Plan Row) :=
  match k, cs with
  | .join .collect s, [l, r] =>
    if !s.jt.broadcastSafe && s.nullAware.isNone && !(lp == 1 && rp == 1) then
      if rp ≤ 1 then .error (.internal "Single-partition joins are safe")
      else .ok (.node (.join .partitioned s) tc
        [fresh (.hashRepart s.lk env.targetPartitions none) [stripCoalesce l],
         fresh (.hashRepart s.rk env.targetPartitions none) [r]])
    else .ok (.node k tc cs)
  | .join .nested s, [l, r] =>
    if env.broadcastJoins && !s.jt.broadcastSafe && s.jt != .full && !(lp == 1 && rp == 1) then
      .ok (.node (.join .nested s.swap) tc [r, stripCoalesce l])
    else .ok (.node k tc cs)
  | k, cs => .ok (.node k tc cs)

/- `normalize_collect_joins`, normalize_collect_joins.rs:105-160. -/
mutual
def normalize (env : Env Row) : Plan Row → Except Err (Plan Row)
  | .node k tc cs => do
    let cs' ← normalizeAll env cs
    normalizeNode env ((cs.map Plan.parts).getD 0 0) ((cs.map Plan.parts).getD 1 0) k tc cs'
/-- `normalize` on every child, normalize_collect_joins.rs:105-160. -/
def normalizeAll (env : Env Row) : List (Plan Row) → Except Err (List (Plan Row))
  | [] => .ok []
  | c :: cs => do
    let c ← normalize env c
    let cs ← normalizeAll env cs
    .ok (c :: cs)
end

/-- `can_broadcast_left_input`, insert_broadcast.rs:155-168. -/
def canBroadcast : Kind Row → Bool
  | .join .collect s => s.jt.broadcastSafe
  | .join .nested s => s.jt.broadcastSafe
  | .join .cross _ => true
  | _ => false

/-- The new build side, insert_broadcast.rs:132-143. -/
def broadcastBuild : Plan Row → Plan Row
  | .node (.coalesce f) _ [x] => fresh (.coalesce f) [fresh (.broadcast 1) [x]]
  | p => fresh (.coalesce none) [fresh (.broadcast 1) [p]]

/- `insert_broadcast_execs`, insert_broadcast.rs:117-153, when broadcast joins are enabled. -/
mutual
def insertBroadcast : Plan Row → Plan Row
  | .node k tc cs =>
    match insertBroadcastAll cs with
    | b :: rest => .node k tc (if canBroadcast k then broadcastBuild b :: rest else b :: rest)
    | [] => .node k tc []
/-- `insertBroadcast` on every child, insert_broadcast.rs:117-153. -/
def insertBroadcastAll : List (Plan Row) → List (Plan Row)
  | [] => []
  | c :: cs => insertBroadcast c :: insertBroadcastAll cs
end

/- `insert_children_isolator_unions`, insert_children_isolator_union.rs:17-36, when enabled;
`new_single_task` is `Union.Node.newSingleTask`. -/
mutual
def isolateUnions : Plan Row → Except Err (Plan Row)
  | .node k tc cs => do
    let cs' ← isolateUnionsAll cs
    match k with
    | .union => do
      let n ← Union.Node.newSingleTask (cs'.map Plan.parts)
      .ok (.node (.ciu n.weights n.map) tc cs')
    | k => .ok (.node k tc cs')
/-- `isolateUnions` on every child, insert_children_isolator_union.rs:17-36. -/
def isolateUnionsAll : List (Plan Row) → Except Err (List (Plan Row))
  | [] => .ok []
  | c :: cs => do
    let c ← isolateUnions c
    let cs ← isolateUnionsAll cs
    .ok (c :: cs)
end

/-! ### Placing network boundaries -/

/-- Joins that must run in one task, inject_network_boundaries.rs:264-307. -/
def pinned (env : Env Row) : Kind Row → Bool
  | .join .collect s => !env.broadcastJoins || s.nullAware.isSome || !s.jt.broadcastSafe
  | .join .nested s => !env.broadcastJoins || s.jt == .full || !s.jt.broadcastSafe
  | .join .cross _ => !env.broadcastJoins
  | _ => false

/-- The task count of a node, inject_network_boundaries.rs:247-326 and the limit at :333. `d` is the answer of
the desired task count handlers, `cs` are the processed children. -/
def annotate (env : Env Row) (k : Kind Row) (d : Option TaskCount) (cs : List (Plan Row)) : TaskCount :=
  TaskCount.limit
    (if cs.isEmpty then d.getD (.maximum 1)
     else match k with
      | .ciu .. => .desired ((cs.map (·.tc.asUsize)).sum)
      | k =>
        if pinned env k then .maximum 1
        else cs.foldl (fun t c => t.merge c.tc) (d.getD (.desired 1)))
    env.maxTasks

/-- The child weights of an isolated union, inject_network_boundaries.rs:489-493. -/
def weightOf (t : TaskCount) : Union.ChildWeight :=
  match t with
  | .desired n => .desired n
  | .maximum n => .maximum n

/- `propagate_task_count_until_network_boundaries`, inject_network_boundaries.rs:439-524. Of a scaled-up
subtree only the root's task count is kept, the others are never read again. -/
mutual
def propagate (env : Env Row) : Plan Row → TaskCount → Except Err (Plan Row)
  | .node k tc cs, t =>
    if cs.isEmpty then
      match env.scale (.node k tc cs) t.asUsize with
      | none => .ok (.node k t cs)
      | some (.error e) => .error e
      | some (.ok p) => .ok (p.withTc t)
    else if k.isNet then .ok (.node k t cs)
    else match k with
      | .ciu .. => do
        let n ← Union.Node.make Union.split (cs.map Plan.parts) (cs.map fun c => weightOf c.tc) t.asUsize
        let cs' ← propagateEach env cs (n.childTaskCounts.map .maximum)
        let n ← n.withNewChildren (cs'.map Plan.parts)
        .ok (.node (.ciu n.weights n.map) t cs')
      | k => do
        let cs' ← propagateEach env cs (cs.map fun _ => t)
        .ok (.node k t cs')
/-- `propagate` on every child, each with its own task count, inject_network_boundaries.rs:439-524. -/
def propagateEach (env : Env Row) : List (Plan Row) → List TaskCount → Except Err (List (Plan Row))
  | [], _ => .ok []
  | _ :: _, [] => .ok []
  | c :: cs, t :: ts => do
    let c ← propagate env c t
    let cs ← propagateEach env cs ts
    .ok (c :: cs)
end

/- `calculate_scale_factor`, inject_network_boundaries.rs:626-649. -/
mutual
def scaleFactor (env : Env Row) : Plan Row → Rat
  | .node k _ cs =>
    if k.isNet then 1
    else
      let sf := match scaleFactors env cs with
        | none => 1
        | some f => f
      match env.effect k with
      | .lower => sf / env.factor
      | .greater => sf * env.factor
      | .equal => sf
/-- The factors of the children, inject_network_boundaries.rs:626-649. -/
def scaleFactors (env : Env Row) : List (Plan Row) → Option Rat
  | [] => none
  | c :: cs => match scaleFactors env cs with
    | none => some (scaleFactor env c)
    | some f => some (max (scaleFactor env c) f)
end

/-- The task count of a stage: what was recorded for its root (`CardinalityBasedNetworkBoundaryBuilder`,
inject_network_boundaries.rs:607-624), or with dynamic task counts what its cost suggests
(`/repo/src/coordinator/prepare_dynamic_plan.rs:64-72`). -/
def stageCount (env : Env Row) (o q : Plan Row) : Except Err TaskCount :=
  match env.dynamic with
  | none => .ok (.desired q.tc.asUsize)
  | some cpu => do
    let c ← cpu o q
    dynamicTaskCount c env.bytesPerPartition q.parts env.maxTasks q.tc

/-- The task count wished for above a boundary other than a coalesce: inject_network_boundaries.rs:650-657, or
`/repo/src/coordinator/prepare_dynamic_plan.rs:107-115`. -/
def consumerCount (env : Env Row) (c : Plan Row) (t : TaskCount) : TaskCount :=
  match env.dynamic with
  | none => .desired (scaleFactor env c * t.asUsize).ceil.toNat
  | some _ => .desired 1

/-- `NetworkBoundaryBuilder::build`, inject_network_boundaries.rs:607-657 and
`/repo/src/coordinator/prepare_dynamic_plan.rs:36-133`: the propagated stage plan and the task count of the stage.
The sampler a dynamic stage gets is put in by `reconstruct`, see `Verif.Model.Dynamic`. -/
def build (env : Env Row) (o q : Plan Row) : Except Err (Plan Row × TaskCount) := do
  let t ← stageCount env o q
  let c ← propagate env q t
  .ok (c, t)

/-- Where a node stands below its parent: the parent is a `CoalescePartitionsExec` or
`SortPreservingMergeExec`, another node, or missing.
The argument `parent` of `_inject_network_boundaries`, inject_network_boundaries.rs:230-403. -/
inductive Parent where
  | gathers | other | root
  deriving DecidableEq, Repr

/-- The end of `_inject_network_boundaries`, inject_network_boundaries.rs:335-402: a boundary above the node if
one is needed. `o` is the node as the traversal found it. Stage numbers are assigned later, by `prepare`, so they
are 0 here. -/
def wrap (env : Env Row) (par : Parent) (o q : Plan Row) : Except Err (Plan Row) :=
  match q.kind, par with
  | .hashRepart h n _, _ => do
    let (c, t) ← build env o q
    .ok (.node (.shuffle h n t.asUsize 0) (consumerCount env c t) [c])
  | .broadcast _, _ => do
    let (c, t) ← build env o q
    .ok (.node (.netBroadcast c.parts t.asUsize 0) (consumerCount env c t) [c])
  | _, .gathers => do
    let (c, t) ← build env o q
    let e ← CoalesceExec.tryNew c.parts t.asUsize 1
    .ok (.node (.netCoalesce e.outPartitions t.asUsize 0) (.maximum 1) [c])
  | _, .root => propagate env q q.tc
  | _, .other => .ok q

/-- How a node's children see it. inject_network_boundaries.rs:230-403. -/
def Kind.asParent : Kind Row → Parent
  | .coalesce _ | .spm .. => .gathers
  | _ => .other

/- `_inject_network_boundaries`, inject_network_boundaries.rs:230-403. -/
mutual
def inject (env : Env Row) (par : Parent) : Plan Row → Except Err (Plan Row)
  | .node k tc cs => do
    let cs' ← injectAll env k.asParent cs
    let d ← env.desired (.node k tc cs)
    wrap env par (.node k tc cs) (.node k (annotate env k d cs') cs')
/-- `inject` on every child, inject_network_boundaries.rs:230-403. -/
def injectAll (env : Env Row) (par : Parent) : List (Plan Row) → Except Err (List (Plan Row))
  | [] => .ok []
  | c :: cs => do
    let c ← inject env par c
    let cs ← injectAll env par cs
    .ok (c :: cs)
end

/-! ### Preparing network boundaries -/

/-- `ProducerHead`, network_boundary.rs:39-48. -/
inductive Head (Row : Type) where
  | none
  | broadcast (outputPartitions : Nat)
  | repartition (h : Row → Nat) (n : Nat)

/-- `ProducerHead::insert`, network_boundary.rs:86-106. -/
def Head.insert (hd : Head Row) (p : Plan Row) : Except Err (Plan Row) :=
  match hd with
  | .none => .ok (strip p)
  | .broadcast n => do
    let b ← BroadcastExec.ofHead (strip p).parts n
    .ok (.node (.broadcast b.consumerTasks) p.tc [strip p])
  | .repartition h n => .ok (.node (.hashRepart h n Option.none) p.tc [strip p])

/-- `producer_head` of the three boundaries: network_shuffle.rs:158-165, network_coalesce.rs:209,
network_broadcast.rs:178-183. -/
def Kind.head : Kind Row → Nat → Head Row
  | .shuffle h p _ _, consumers => .repartition h (p * consumers)
  | .netBroadcast p _ _, consumers => .broadcast (p * consumers)
  | _, _ => .none

/-- `input_stage().task_count()` of a boundary. `/repo/src/stage.rs`. -/
def Kind.tasks : Kind Row → Nat
  | .shuffle _ _ n _ | .netCoalesce _ n _ | .netBroadcast _ n _ => n
  | _ => 0

/-- The stage number of a boundary's input stage. `/repo/src/stage.rs`. -/
def Kind.num : Kind Row → Nat
  | .shuffle _ _ _ i | .netCoalesce _ _ i | .netBroadcast _ _ i => i
  | _ => 0

/-- `with_input_stage` with the same number of tasks and a new stage number: network_shuffle.rs:151-156,
network_coalesce.rs:199-207 (see `CoalesceExec.withInputStage`), network_broadcast.rs:171-176. -/
def Kind.withStage : Kind Row → Nat → Kind Row
  | .shuffle h p n _, i => .shuffle h p n i
  | .netCoalesce p n _, i => .netCoalesce ((CoalesceExec.mk p n).withInputStage n).outPartitions n i
  | .netBroadcast p n _, i => .netBroadcast p n i
  | k, _ => k

/-- The task counts a node's children run with, when it runs with `t`: the rule shared by the traversals of
`/repo/src/common/recursion.rs:216-224, :247-256`. `n` is the number of children. -/
def childCounts (k : Kind Row) (t n : Nat) : List Nat :=
  match k with
  | .ciu ws m => (Union.Node.mk (List.replicate n 0) ws m 0).childTaskCounts
  | k => if k.isNet then List.replicate n k.tasks else List.replicate n t

/-- The body of `prepare_network_boundaries`, prepare_network_boundaries.rs:20-52, for one node whose children
are already prepared; `id` is the next stage number. A boundary without children has a remote stage. With `keep`,
a boundary between single tasks is kept: this is the body of `PlanReconstructor::reconstruct`,
`/repo/src/coordinator/prepare_dynamic_plan.rs:165-190`. -/
def prepareNode (keep : Bool) (p : Plan Row) (t id : Nat) : Except Err (Plan Row × Nat) :=
  match p with
  | .node k tc (c :: _) =>
    if !k.isNet then .ok (p, id)
    else if keep = false ∧ t = 1 ∧ k.tasks = 1 then .ok (c, id)
    else do
      let c ← (k.head t).insert c
      .ok (.node (k.withStage id) tc [c], id + 1)
  | p => .ok (p, id)

/- `prepare_network_boundaries`, prepare_network_boundaries.rs:14-55: `transform_up_with_task_count`. With `keep`,
`PlanReconstructor::reconstruct`; that one goes from the root down, which makes no difference, since what it puts in
place of the head of a stage contains no boundaries. -/
mutual
def prepare (keep : Bool) : Plan Row → Nat → Nat → Except Err (Plan Row × Nat)
  | .node k tc cs, t, id => do
    let (cs', id) ← prepareAll keep cs (childCounts k t cs.length) id
    prepareNode keep (.node k tc cs') t id
/-- `prepare` on every child, prepare_network_boundaries.rs:14-55. -/
def prepareAll (keep : Bool) : List (Plan Row) → List Nat → Nat → Except Err (List (Plan Row) × Nat)
  | [], _, id => .ok ([], id)
  | _ :: _, [], id => .ok ([], id)
  | c :: cs, t :: ts, id => do
    let (c, id) ← prepare keep c t id
    let (cs, id) ← prepareAll keep cs ts id
    .ok (c :: cs, id)
end

/-! ### After the boundaries are prepared -/

/-- The rewrite of one node by `partial_reduce_below_network_shuffles`,
partial_reduce_below_network_shuffles.rs:24-100. -/
def reduceNode (k : Kind Row) (tc : TaskCount) (cs : List (Plan Row)) : Plan Row :=
  match k.isNet, cs with
  | true, [.node (.hashRepart h n o) rt [.node (.op g (some r)) ot ys]] =>
    .node k tc [fresh (.op r none) [.node (.hashRepart h n o) rt [.node (.op g (some r)) ot ys]]]
  | _, cs => .node k tc cs

mutual
/-- `partial_reduce_below_network_shuffles`, partial_reduce_below_network_shuffles.rs:17-104. -/
def partialReduce : Plan Row → Plan Row
  | .node k tc cs => reduceNode k tc (partialReduceAll cs)
/-- `partialReduce` on every child, same file. -/
def partialReduceAll : List (Plan Row) → List (Plan Row)
  | [] => []
  | c :: cs => partialReduce c :: partialReduceAll cs
end

/- Whether a plan contains a network boundary. -/
mutual
/-- `plan.exists(is_network_boundary)`, distributed_query_planner.rs:112, :130, :163. -/
def hasNet : Plan Row → Bool
  | .node k _ cs => k.isNet || hasNetAny cs
/-- `hasNet` of some child. -/
def hasNetAny : List (Plan Row) → Bool
  | [] => false
  | c :: cs => hasNet c || hasNetAny cs
end

/-- The passes before the boundaries are placed, distributed_query_planner.rs:139-150. -/
def preparePlan (env : Env Row) (p : Plan Row) : Except Err (Plan Row) := do
  let p ← normalize env p
  let p := if p.parts > 1 then fresh (.coalesce none) [p] else p
  let p := if env.broadcastJoins then insertBroadcast p else p
  if env.isolateUnions then isolateUnions p else .ok p

/-- `create_distributed_plan`, distributed_query_planner.rs:84-174, for a query without user-placed boundaries and
with static task counts (`env.dynamic = none`), up to `push_fetch_into_network_coalesce`. `none`: the original plan is returned
and runs on a single node. -/
def plan (env : Env Row) (p : Plan Row) : Except Err (Option (Plan Row)) := do
  let p ← preparePlan env p
  let p ← inject env .root p
  let (p, _) ← prepare false p 1 1
  if !hasNet p then .ok none
  else .ok (some (if env.partialReduce then partialReduce p else p))

end DD.Tree
