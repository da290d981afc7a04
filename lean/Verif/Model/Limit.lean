/-
Limits above network coalesces.

Models `/repo/src/distributed_planner/push_fetch_into_network_coalesce.rs` and the functions of
`/repo/src/execution_plans/network_coalesce.rs` it calls (`with_fetch_on_input_stage`, `apply_fetch_through_projection`).

The plans of `Model/PlanTree` return lists that only stand for the rows with multiplicities. Which rows a limit keeps
depends on their order, and this on how streams are interleaved, so plans here are given by everything they may return
(`Spec/Limit`). Nodes the pass knows are modelled one by one, all others by a relation.
-/
import Verif.Model.Boundary

namespace DD.Limit

/-- What one task returns: the rows of each of its partitions. DataFusion's streams, collected. -/
abbrev Outcome (Row : Type) := Nat → List Row

/-- Plans, as far as the pass looks at them. `/repo/src/distributed_planner/push_fetch_into_network_coalesce.rs`. -/
inductive LPlan (Row : Type) where
  /-- any other operator, or a leaf. `fetch` is its `ExecutionPlan::fetch`, `canFetch` tells whether its `with_fetch`
  returns a plan, `parts` computes its partition count from those of its children, `ctxOf` tells in which context a task
  runs the children (`none`: not at all), and `rel` which results it may have, without its fetch, for results of its
  children -/
  | op (fetch : Option Nat) (canFetch : Bool) (parts : List Nat → Nat) (ctxOf : TaskCtx → Nat → Option TaskCtx)
      (rel : TaskCtx → List (Outcome Row) → Outcome Row → Prop) (children : List (LPlan Row))
  /-- a boundary other than a coalesce, with the tasks of its input stage -/
  | exchange (parts tasks : Nat) (rel : TaskCtx → (Nat → Outcome Row) → Outcome Row → Prop) (input : LPlan Row)
  /-- `NetworkCoalesceExec` -/
  | netCoalesce (parts tasks : Nat) (input : LPlan Row)
  /-- `GlobalLimitExec` (DataFusion) -/
  | globalLimit (skip : Nat) (fetch : Option Nat) (input : LPlan Row)
  /-- `LocalLimitExec` (DataFusion) -/
  | localLimit (fetch : Nat) (input : LPlan Row)
  /-- `CoalescePartitionsExec` (DataFusion) -/
  | coalesce (fetch : Option Nat) (input : LPlan Row)
  /-- `SortPreservingMergeExec` (DataFusion), merging by `le` -/
  | spm (le : Row → Row → Prop) (fetch : Option Nat) (input : LPlan Row)
  /-- `ProjectionExec` (DataFusion) -/
  | projection (f : Row → Row) (input : LPlan Row)

variable {Row : Type}

/-- `ExecutionPlan::fetch` (DataFusion). -/
def fetchOf : LPlan Row → Option Nat
  | .op f .. => f
  | .globalLimit _ f _ => f
  | .localLimit f _ => some f
  | .coalesce f _ => f
  | .spm _ f _ => f
  | .exchange .. | .netCoalesce .. | .projection .. => none

/-- `ExecutionPlan::with_fetch` (DataFusion). -/
def withFetch (n : Nat) : LPlan Row → Option (LPlan Row)
  | .op _ true parts ctxOf rel cs => some (.op (some n) true parts ctxOf rel cs)
  | .coalesce _ c => some (.coalesce (some n) c)
  | .spm le _ c => some (.spm le (some n) c)
  | _ => none

/-- `input.fetch().is_some_and(|existing| existing <= fetch)`. `/repo/src/execution_plans/network_coalesce.rs:173`, `:185`. -/
def enough (n : Nat) (p : LPlan Row) : Bool :=
  match fetchOf p with
  | some m => m ≤ n
  | none => false

/-- `plan.with_fetch(Some(fetch)).unwrap_or_else(|| LocalLimitExec::new(plan, fetch))`.
`/repo/src/execution_plans/network_coalesce.rs:176-178`, `:189-191`. -/
def limitTo (n : Nat) (p : LPlan Row) : LPlan Row := (withFetch n p).getD (.localLimit n p)

/-- `apply_fetch_through_projection`, network_coalesce.rs:172-195. -/
def applyFetch (n : Nat) (p : LPlan Row) : LPlan Row :=
  match p with
  | .projection f input => if enough n input then p else .projection f (limitTo n input)
  | p => if enough n p then p else limitTo n p

/-- `fetch_required_from_child`, push_fetch_into_network_coalesce.rs:96-105. `checked_add` fails above the largest `usize`,
`W`. -/
def fetchRequired (W : Nat) : LPlan Row → Option Nat
  | .globalLimit skip f _ => f.bind fun f => if f + skip ≤ W then some (f + skip) else none
  | p => fetchOf p

/-- `with_fetch_on_input_stage`, network_coalesce.rs:145-164, for the children that are network coalesces; while planning
all stages are local. -/
def pushChild (n : Nat) : LPlan Row → LPlan Row
  | .netCoalesce parts tasks c => .netCoalesce parts tasks (applyFetch n c)
  | p => p

/-- A node with its children rewritten.
`transform_down` (DataFusion) of `/repo/src/distributed_planner/push_fetch_into_network_coalesce.rs`. -/
def mapChildren (f : LPlan Row → LPlan Row) : LPlan Row → LPlan Row
  | .op fetch can parts ctxOf rel cs => .op fetch can parts ctxOf rel (cs.map f)
  | .exchange parts tasks rel c => .exchange parts tasks rel (f c)
  | .netCoalesce parts tasks c => .netCoalesce parts tasks (f c)
  | .globalLimit skip fetch c => .globalLimit skip fetch (f c)
  | .localLimit fetch c => .localLimit fetch (f c)
  | .coalesce fetch c => .coalesce fetch (f c)
  | .spm le fetch c => .spm le fetch (f c)
  | .projection g c => .projection g (f c)

/-- The closure of the pass, push_fetch_into_network_coalesce.rs:66-91. -/
def pushNode (W : Nat) (p : LPlan Row) : LPlan Row :=
  match fetchRequired W p with
  | none => p
  | some n => mapChildren (pushChild n) p

/-- `push_fetch_into_network_coalesce`, push_fetch_into_network_coalesce.rs:62-94: `transform_down`, which rewrites a
node and then goes into its new children. These may be deeper than the old ones, hence the fuel: with none left the plan is
returned as it is (`C12_terminates` shows that this does not happen). -/
def push (W : Nat) : Nat → LPlan Row → LPlan Row
  | 0, p => p
  | n + 1, p => mapChildren (push W n) (pushNode W p)

end DD.Limit
