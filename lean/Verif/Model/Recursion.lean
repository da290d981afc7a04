/-
Plan traversals that know the task count or the task context of the nodes they visit.

Models `/repo/src/common/recursion.rs` and `/repo/src/coordinator/query_coordinator.rs:344-391`
(`task_specialized_plan`), and the two DataFusion traversals they are built on (external contract:
`TreeNode::transform_down`, `TreeNode::transform_down_up` with `Transformed::transform_children`,
`Transformed::transform_parent` and `map_until_stop_and_collect`).

Visitors may replace nodes, also by larger subtrees, and the traversals then go into the new children, so a
traversal need not end. It is modelled with fuel: `.error none` means that the fuel was used up; every other
result does not depend on it. The visitors' captured variables are a state `S`.

Simplification: the `transformed` flag is dropped; it only decides whether unchanged children are put back.
-/
import Verif.Model.Planner

namespace DD.Tree.Rec

open DD.Tree

/-- `TreeNodeRecursion` (DataFusion). -/
inductive Tnr where
  | cont | jump | stop
  deriving DecidableEq, Repr

/-- `Transformed` (DataFusion), without its flag. -/
structure Tr (Row : Type) where
  data : Plan Row
  tnr : Tnr

/-- Results; `.error none` if the fuel is used up.
Not a type of the code: `/repo/src/common/recursion.rs` recurses on the plan, and the fuel bounds the depth. -/
abbrev M (α : Type) := Except (Option Err) α

variable {Row S : Type}

/-- `with_new_children`. DataFusion's `ExecutionPlan`. -/
def withChildren : Plan Row → List (Plan Row) → Plan Row
  | .node k tc _, cs => .node k tc cs

/-- `map_until_stop_and_collect` (DataFusion): applies `f` to the items until one returns `Stop`; the rest is kept. -/
def mapUntilStop (f : Plan Row → S → M (Tr Row × S)) : List (Plan Row) → Tnr → S → M (List (Plan Row) × Tnr × S)
  | [], tnr, s => .ok ([], tnr, s)
  | c :: cs, tnr, s =>
    if tnr = .stop then .ok (c :: cs, tnr, s)
    else do
      let (r, s) ← f c s
      let (cs, tnr, s) ← mapUntilStop f cs r.tnr s
      .ok (r.data :: cs, tnr, s)

/-- `TreeNode::transform_down` (DataFusion). -/
def transformDown (f : Plan Row → S → M (Tr Row × S)) : Nat → Plan Row → S → M (Tr Row × S)
  | 0, _, _ => .error none
  | n + 1, p, s => do
    let (r, s) ← f p s
    match r.tnr with
    | .stop => .ok (r, s)
    | .jump => .ok (⟨r.data, .cont⟩, s)
    | .cont => do
      let (cs, tnr, s) ← mapUntilStop (transformDown f n) r.data.children .cont s
      .ok (⟨withChildren r.data cs, tnr⟩, s)

/-- `TreeNode::transform_down_up` (DataFusion). -/
def transformDownUp (fd fu : Plan Row → S → M (Tr Row × S)) : Nat → Plan Row → S → M (Tr Row × S)
  | 0, _, _ => .error none
  | n + 1, p, s => do
    let (r, s) ← fd p s
    match r.tnr with
    | .stop => .ok (r, s)
    | .jump => fu r.data s
    | .cont => do
      let (cs, tnr, s) ← mapUntilStop (transformDownUp fd fu n) r.data.children .cont s
      match tnr with
      | .cont => fu (withChildren r.data cs) s
      | _ => .ok (⟨withChildren r.data cs, tnr⟩, s)

/-- The counts pushed for the children of a node that runs with `t` tasks, recursion.rs:216-225, :245-256. -/
def pushCounts (p : Plan Row) (t : Nat) : List Nat := childCounts p.kind t p.children.length

/-- The closure run on the way down, recursion.rs:214-227. The stack's top comes first in the list: the code extends a
vector with the reversed counts of the children. -/
def upEnter (p : Plan Row) : List Nat × S → M (Tr Row × List Nat × S)
  | ([], _) => .error (some (.panic "last on an empty stack"))
  | (t :: stk, s) => .ok (⟨p, .cont⟩, pushCounts p t ++ t :: stk, s)

/-- The closure run on the way up, recursion.rs:228-231. -/
def upLeave (f : Plan Row → Nat → S → M (Tr Row × S)) (p : Plan Row) : List Nat × S → M (Tr Row × List Nat × S)
  | ([], _) => .error (some (.panic "pop on an empty stack"))
  | (t :: stk, s) => do
    let (r, s) ← f p t s
    .ok (r, stk, s)

/-- `transform_up_with_task_count`, recursion.rs:208-233. -/
def upTaskCount (f : Plan Row → Nat → S → M (Tr Row × S)) (fuel : Nat) (p : Plan Row) (t : Nat) (s : S) :
    M (Tr Row × List Nat × S) :=
  transformDownUp upEnter (upLeave f) fuel p ([t], s)

/-- The closure run on the way down, recursion.rs:242-259. -/
def downEnter (f : Plan Row → Nat → S → M (Tr Row × S)) (p : Plan Row) : List Nat × S → M (Tr Row × List Nat × S)
  | ([], _) => .error (some (.panic "pop on an empty stack"))
  | (t :: stk, s) => do
    let (r, s) ← f p t s
    if r.tnr = .cont then .ok (r, pushCounts r.data t ++ stk, s) else .ok (r, stk, s)

/-- `transform_down_with_task_count`, recursion.rs:235-262. -/
def downTaskCount (f : Plan Row → Nat → S → M (Tr Row × S)) (fuel : Nat) (p : Plan Row) (t : Nat) (s : S) :
    M (Tr Row × List Nat × S) :=
  transformDownUp (downEnter f) (fun p s => .ok (⟨p, .cont⟩, s)) fuel p ([t], s)

/-- `child_ctxs[*child_idx] = Some(*child_ctx)`, recursion.rs:190-193. -/
def setCtx (l : M (List (Option TaskCtx))) (e : Union.Entry) : M (List (Option TaskCtx)) := do
  let l ← l
  if e.1 < l.length then .ok (l.set e.1 (some e.2)) else .error (some (.panic "index out of bounds"))

/-- The contexts pushed for the children of a node run in context `ctx`, recursion.rs:189-198: only the children of an
isolated union the task runs get one. -/
def pushCtxs (p : Plan Row) (ctx : TaskCtx) : M (List (Option TaskCtx)) :=
  match p.kind with
  | .ciu _ m => match m[ctx.index]? with
    | none => .error (some (.panic "index out of bounds"))
    | some es => es.foldl setCtx (.ok (List.replicate p.children.length none))
  | _ => .ok (List.replicate p.children.length (some ctx))

/-- The closure of `transform_down_with_dt_ctx`, recursion.rs:174-204. -/
def ctxEnter (f : Plan Row → TaskCtx → S → M (Tr Row × S)) (p : Plan Row) :
    List (Option TaskCtx) × S → M (Tr Row × List (Option TaskCtx) × S)
  | ([], _) => .error (some (.panic "pop on an empty stack"))
  | (none :: stk, s) => .ok (⟨p, .jump⟩, stk, s)
  | (some ctx :: stk, s) => do
    let (r, s) ← f p ctx s
    if r.tnr = .stop then .ok (r, stk, s)
    else if r.tnr ≠ .cont ∨ r.data.kind.isNet = true then .ok (⟨r.data, .jump⟩, stk, s)
    else do
      let ctxs ← pushCtxs r.data ctx
      .ok (r, ctxs ++ stk, s)

/-- `transform_down_with_dt_ctx`, recursion.rs:162-206. -/
def downCtx (f : Plan Row → TaskCtx → S → M (Tr Row × S)) (fuel : Nat) (p : Plan Row) (ctx : TaskCtx) (s : S) :
    M (Tr Row × List (Option TaskCtx) × S) :=
  transformDown (ctxEnter f) fuel p ([some ctx], s)

/- `apply_with_dt_ctx`, recursion.rs:105-134, for visitors that look at the nodes and continue: the nodes in the order
they are visited, with their contexts. -/
mutual
def applyCtx : Plan Row → TaskCtx → M (List (TaskCtx × Plan Row))
  | .node k tc cs, ctx => do
    let rest ← match k with
      | .ciu _ m => match m[ctx.index]? with
        | none => .error (some (.panic "index out of bounds"))
        | some es => applyEntries cs es
      | k => if k.isNet then .ok [] else applyAll cs ctx
    .ok ((ctx, .node k tc cs) :: rest)
/-- `applyCtx` on every child, recursion.rs:105-134. -/
def applyAll : List (Plan Row) → TaskCtx → M (List (TaskCtx × Plan Row))
  | [], _ => .ok []
  | c :: cs, ctx => do
    let a ← applyCtx c ctx
    let b ← applyAll cs ctx
    .ok (a ++ b)
/-- The children of a `ChildrenIsolatorUnionExec` that run in the given task, recursion.rs:105-134. -/
def applyEntries (cs : List (Plan Row)) : List Union.Entry → M (List (TaskCtx × Plan Row))
  | [] => .ok []
  | e :: es => do
    let a ← applyNth cs e.1 e.2
    let b ← applyEntries cs es
    .ok (a ++ b)
/-- One child, recursion.rs:105-134. -/
def applyNth : List (Plan Row) → Nat → TaskCtx → M (List (TaskCtx × Plan Row))
  | [], _, _ => .error (some (.panic "index out of bounds"))
  | c :: _, 0, ctx => applyCtx c ctx
  | _ :: cs, i + 1, ctx => applyNth cs i ctx
end

/- `apply_driver_path`, recursion.rs:136-160, for visitors that continue: the nodes in the order they are visited. -/
mutual
def driverPath : Plan Row → List (Plan Row)
  | .node (.join m s) tc (l :: r :: cs) => .node (.join m s) tc (l :: r :: cs) :: driverPath r
  | .node k tc cs => .node k tc cs :: driverPathAll cs
/-- `driverPath` on the children that are followed, recursion.rs:136-160. -/
def driverPathAll : List (Plan Row) → List (Plan Row)
  | [] => []
  | c :: cs => driverPath c ++ driverPathAll cs
end

/-! ### Task-specialised plans -/

/-- `ChildrenIsolatorUnionExec::to_task_specialized`, `/repo/src/execution_plans/children_isolator_union.rs:209-237`:
the children the task does not run become `EmptyExec`s with as many partitions. -/
def specialiseUnion (es : List Union.Entry) (cs : List (Plan Row)) : List (Plan Row) :=
  cs.mapIdx fun i c => if es.any (fun e => e.1 == i) then c
    else .node (.leaf (List.replicate c.parts [])) (.desired 1) []

/-- The visitor of `task_specialized_plan`, query_coordinator.rs:361-389, without work unit feeds (**C39** is about
them). The indices panic if the task is not one the node was made for. -/
def specialiseNode (p : Plan Row) (ctx : TaskCtx) (s : S) : M (Tr Row × S) :=
  match p with
  | .node (.ciu ws m) tc cs => match m[ctx.index]? with
    | none => .error (some (.panic "index out of bounds"))
    | some es => .ok (⟨.node (.ciu ws m) tc (specialiseUnion es cs), .cont⟩, s)
  | .node (.distLeaf _ vs) tc _ => match vs[ctx.index]? with
    | none => .error (some (.panic "index out of bounds"))
    | some v => .ok (⟨.node (.leaf v) tc [], .cont⟩, s)
  | p => .ok (⟨p, .cont⟩, s)

/-- `task_specialized_plan`, query_coordinator.rs:344-391. -/
def taskSpecialized (fuel : Nat) (p : Plan Row) (ctx : TaskCtx) : M (Plan Row) := do
  let (r, _) ← downCtx specialiseNode fuel p ctx ()
  .ok r.data

/-- `prepare_network_boundaries` as it is written, `/repo/src/distributed_planner/prepare_network_boundaries.rs:14-55`: a
bottom-up traversal whose visitor counts the stages. -/
def prepareTraversal (fuel : Nat) (p : Plan Row) (t : Nat) : M (Plan Row) := do
  let (r, _) ← upTaskCount (S := Nat)
    (fun p t id => match prepareNode false p t id with
      | .error e => .error (some e)
      | .ok (p, id) => .ok (⟨p, .cont⟩, id)) fuel p t 1
  .ok r.data

end DD.Tree.Rec
