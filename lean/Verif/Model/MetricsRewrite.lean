/-
Collecting the metrics of a query's tasks and showing them on the plan.

Models `/repo/src/metrics/task_metrics_collector.rs`, `/repo/src/metrics/task_metrics_rewriter.rs`,
`/repo/src/execution_plans/metrics.rs:90-118`, `/repo/src/worker/impl_coordinator_channel.rs:200-220`,
`/repo/src/coordinator/metrics_store.rs` and `/repo/src/coordinator/distributed.rs:84-112`.

The nodes of a plan are named by their positions (the indices of the children on the way from the root), the
wrapped plan by the list of its nodes with the metrics they are wrapped with.
-/
import Verif.Model.Recursion

namespace DD.Metrics

open DD.Tree DD.Tree.Rec

/-- The position of a node in a plan.
Not a value of the code, where metrics are matched with nodes by the order of visits (`/repo/src/common/recursion.rs:105-134`). -/
abbrev Path := List Nat

/-- `Metric` (DataFusion). -/
structure Metric (V : Type) where
  value : V
  partition : Option Nat
  labels : List (String × String)
  deriving DecidableEq, Repr

/-- `DistributedMetricsFormat`, task_metrics_rewriter.rs:20-29. -/
inductive Format where
  | aggregated | perTask
  deriving DecidableEq, Repr

variable {Row V : Type}

/-- `annotate_metrics_set_with_task_id`, task_metrics_rewriter.rs:124-140, for one metric. The label's name is
`/repo/src/metrics/mod.rs:17`. -/
def annotate (task : Nat) (m : Metric V) : Metric V :=
  { m with labels := m.labels ++ [("task_id", toString task)] }

/-- `to_rewrite_ctx` and `maybe_rewrite_node_metics`, task_metrics_rewriter.rs:32-37, :110-116. -/
def Format.rewrite (f : Format) (task : Nat) (ms : List (Metric V)) : List (Metric V) :=
  match f with
  | .aggregated => ms
  | .perTask => ms.map (annotate task)

/- `apply_with_dt_ctx`, `/repo/src/common/recursion.rs:105-134`, for visitors that look at the nodes and continue: the
positions of the nodes in the order they are visited (`Rec.applyCtx` is the same with the nodes themselves). -/
mutual
def visit : Plan Row → TaskCtx → M (List Path)
  | .node k _ cs, ctx => do
    let rest ← match k with
      | .ciu _ m => match m[ctx.index]? with
        | none => .error (some (.panic "index out of bounds"))
        | some es => visitEntries cs es
      | k => if k.isNet then .ok [] else visitAll 0 cs ctx
    .ok ([] :: rest)
/-- `visit` on every child, same lines. -/
def visitAll : Nat → List (Plan Row) → TaskCtx → M (List Path)
  | _, [], _ => .ok []
  | i, c :: cs, ctx => do
    let a ← visit c ctx
    let b ← visitAll (i + 1) cs ctx
    .ok (a.map (i :: ·) ++ b)
/-- `visit` on the children of the entries of one task of a `ChildrenIsolatorUnionExec`, recursion.rs:105-134. -/
def visitEntries (cs : List (Plan Row)) : List Union.Entry → M (List Path)
  | [] => .ok []
  | e :: es => do
    let a ← visitNth cs e.1 e.2
    let b ← visitEntries cs es
    .ok (a.map (e.1 :: ·) ++ b)
/-- `visit` on one child, recursion.rs:105-134. -/
def visitNth : List (Plan Row) → Nat → TaskCtx → M (List Path)
  | [], _, _ => .error (some (.panic "index out of bounds"))
  | c :: _, 0, ctx => visit c ctx
  | _ :: cs, i + 1, ctx => visitNth cs i ctx
end

/- `plan.apply` and `plan.transform_down` with `Jump` at network boundaries, task_metrics_collector.rs:10-20,
task_metrics_rewriter.rs:160-180, :266-280: the positions in the order they are visited. -/
mutual
def nodes : Plan Row → List Path
  | .node k _ cs => [] :: if k.isNet then [] else nodesAll 0 cs
/-- `nodes` on every child, task_metrics_rewriter.rs:160-180, :266-280. -/
def nodesAll : Nat → List (Plan Row) → List Path
  | _, [] => []
  | i, c :: cs => (nodes c).map (i :: ·) ++ nodesAll (i + 1) cs
end

/- The network boundaries of a plan in the order `transform_down` (and `apply`) meets them, task_metrics_rewriter.rs:68-92,
distributed.rs:92-104. -/
mutual
def boundaries : Plan Row → List (Plan Row)
  | .node k tc cs => (if k.isNet then [.node k tc cs] else []) ++ boundariesAll cs
/-- `boundaries` on every child, distributed.rs:92-104. -/
def boundariesAll : List (Plan Row) → List (Plan Row)
  | [] => []
  | c :: cs => boundaries c ++ boundariesAll cs
end

/-- `send_metrics_via_channel`, impl_coordinator_channel.rs:200-220: the metrics of the nodes the task runs, in the order
of the traversal. `recorded` is what the nodes of the plan recorded. -/
def report (w : Plan Row) (ctx : TaskCtx) (recorded : Path → List (Metric V)) : M (List (List (Metric V))) := do
  let xs ← visit w ctx
  .ok (xs.map recorded)

/-- `TaskKey`, `/repo/src/protocol/worker_channel.rs`. -/
structure Key where
  query : Nat
  stage : Nat
  task : Nat
  deriving DecidableEq, Repr

/-- `MetricsStore`, metrics_store.rs:9-31: the content of the watch channel. -/
abbrev Store (V : Type) := Key → Option (List (List (Metric V)))

/-- `MetricsStore::insert`, metrics_store.rs:20-24. -/
def Store.insert (s : Store V) (k : Key) (r : List (List (Metric V))) : Store V := fun k' => if k' = k then some r else s k'

/-- The map from node addresses to metrics, task_metrics_rewriter.rs:225. It is only read with `or_default` and
`unwrap_or_default`, so missing entries are empty ones. -/
abbrev NodeMap (V : Type) := Nat → List (Metric V)

/-- Entering the metrics of one task, task_metrics_rewriter.rs:245-263; `n` is `per_task_counter`. -/
def enterTask (f : Format) (addr : Path → Nat) (task : Nat) (ms : List (List (Metric V))) :
    Nat → List Path → NodeMap V → M (NodeMap V)
  | _, [], map => .ok map
  | n, x :: xs, map => match ms[n]? with
    | none => .error (some (.internal "not enough metrics provided to rewrite task"))
    | some m => enterTask f addr task ms (n + 1) xs
        (fun a => if a = addr x then map a ++ f.rewrite task m else map a)

/-- Phase 1 for the given tasks, task_metrics_rewriter.rs:227-264. Simplification: the nodes a task visits are determined
before its metrics are entered, so of two errors the other one may be reported. -/
def enterTasks (f : Format) (addr : Path → Nat) (query num tasks : Nat) (store : Store V) (p : Plan Row) :
    List Nat → NodeMap V → M (NodeMap V)
  | [], map => .ok map
  | i :: is, map => match store ⟨query, num, i⟩ with
    | none => .error (some (.internal "missing metrics for task"))
    | some ms => do
      let xs ← visit p ⟨i, tasks⟩
      let map ← enterTask f addr i ms 0 xs map
      enterTasks f addr query num tasks store p is map

/-- Phase 2, task_metrics_rewriter.rs:266-280. -/
def wrapNodes (addr : Path → Nat) : List Path → NodeMap V → List (Path × List (Metric V))
  | [], _ => []
  | x :: xs, map => (x, map (addr x)) :: wrapNodes addr xs (fun a => if a = addr x then [] else map a)

/-- `stage_metrics_rewriter`, task_metrics_rewriter.rs:212-284, for the stage with plan `p`. `addr` gives the addresses of
the nodes. -/
def stageRewrite (f : Format) (addr : Path → Nat) (query num tasks : Nat) (store : Store V) (p : Plan Row) :
    M (List (Path × List (Metric V))) := do
  let map ← enterTasks f addr query num tasks store p (List.range tasks) (fun _ => [])
  .ok (wrapNodes addr (nodes p) map)

/-- `rewrite_local_plan_with_metrics`, task_metrics_rewriter.rs:155-182; `n` is `idx`. -/
def localRewrite (f : Format) (task : Nat) (ms : List (List (Metric V))) : Nat → List Path → M (List (Path × List (Metric V)))
  | _, [] => .ok []
  | n, x :: xs => match ms[n]? with
    | none => .error (some (.internal "not enough metrics provided to rewrite plan"))
    | some m => do
      let rest ← localRewrite f task ms (n + 1) xs
      .ok ((x, f.rewrite task m) :: rest)

/-- The plan with metrics: the nodes of the head stage, and those of the stages below the boundaries.
What `rewrite_distributed_plan_with_metrics` returns, `/repo/src/metrics/task_metrics_rewriter.rs`; see `rewritePlan`. -/
structure Shown (V : Type) where
  head : List (Path × List (Metric V))
  stages : List (Nat × List (Path × List (Metric V)))

/-- The stages below the given boundaries, task_metrics_rewriter.rs:68-92. -/
def rewriteStages (f : Format) (addr : Nat → Path → Nat) (query : Nat) (store : Store V) :
    List (Plan Row) → M (List (Nat × List (Path × List (Metric V))))
  | [] => .ok []
  | b :: bs => match b.children with
    | c :: _ => do
      let s ← stageRewrite f (addr b.kind.num) query b.kind.num b.kind.tasks store c
      let rest ← rewriteStages f addr query store bs
      .ok ((b.kind.num, s) :: rest)
    | [] => .error (some (.plan "Stage was not in Local state"))

/-- `rewrite_distributed_plan_with_metrics`, task_metrics_rewriter.rs:44-98, after the wait, for an executed query whose
metrics are collected: `p` is `plan_for_viz`, `recorded` what the nodes of the head stage recorded. The head stage that
was executed has the nodes of `p` (`/repo/src/coordinator/prepare_static_plan.rs:24-62`: only the input stages of the
boundaries differ). -/
def rewritePlan (f : Format) (addr : Nat → Path → Nat) (query : Nat) (store : Store V) (p : Plan Row)
    (recorded : Path → List (Metric V)) : M (Shown V) := do
  let head ← localRewrite f 0 ((nodes p).map recorded) 0 (nodes p)
  let stages ← rewriteStages f addr query store (boundaries p)
  .ok ⟨head, stages⟩

/-- `MetricsWrapperExec::metrics`, `/repo/src/execution_plans/metrics.rs:90-118`: the metrics the node is wrapped with, and
those its own copy on the coordinator recorded which differ from them in value or partition. -/
def shownOf [DecidableEq V] (wrapped own : List (Metric V)) : List (Metric V) :=
  wrapped ++ own.filter fun m => !(wrapped.any fun w => w.value == m.value && w.partition == m.partition)

/-! ### Waiting for the metrics -/

/-- The keys waited for, distributed.rs:92-104. -/
def expectedKeys (query : Nat) (p : Plan Row) : List Key :=
  (boundaries p).flatMap fun b => (List.range b.kind.tasks).map fun i => ⟨query, b.kind.num, i⟩

/-- One poll of `wait_for_metrics`, distributed.rs:84-112: `none` for the store if metrics are not collected, `none` for
the plan if the query was not executed. `watch::Receiver::wait_for` looks at the current content of the channel. -/
def waitReady (query : Nat) (store : Option (Store V)) (p : Option (Plan Row)) : Bool :=
  match store, p with
  | some s, some p => (expectedKeys query p).isEmpty || (expectedKeys query p).all fun k => (s k).isSome
  | _, _ => true

end DD.Metrics
