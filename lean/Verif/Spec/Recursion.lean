/-
What task-aware traversals should do: the same traversals, written by recursion on the plan, with the task count
or the task context of a node handed down as an argument.
-/
import Verif.Model.Recursion
import Verif.Spec.Shape

namespace DD.Tree.Rec

open DD.Tree

variable {Row S : Type}

/- Every node with the task count it is run with, children before parents, left to right. -/
mutual
def postorder (T : Nat) : Plan Row → List (Nat × Plan Row)
  | .node k tc cs => postorderAll (childCount k T) cs ++ [(T, .node k tc cs)]
def postorderAll (count : Nat → Nat) : List (Plan Row) → List (Nat × Plan Row)
  | [] => []
  | c :: cs => postorder (count 0) c ++ postorderAll (fun i => count (i + 1)) cs
end

/- Every node with the task count it is run with, parents before children, left to right. -/
mutual
def preorder (T : Nat) : Plan Row → List (Nat × Plan Row)
  | .node k tc cs => (T, .node k tc cs) :: preorderAll (childCount k T) cs
def preorderAll (count : Nat → Nat) : List (Plan Row) → List (Nat × Plan Row)
  | [] => []
  | c :: cs => preorder (count 0) c ++ preorderAll (fun i => count (i + 1)) cs
end

/- Bottom-up rewriting: the children first, each with its own task count, then the node. A visitor that returns
`Stop` ends it: the parents are put together but not visited. -/
mutual
def up (f : Plan Row → Nat → S → M (Tr Row × S)) (T : Nat) (s : S) : Plan Row → M (Tr Row × S)
  | .node k tc cs => do
    let (cs, stopped, s) ← upAll f (childCount k T) s cs
    if stopped then .ok (⟨.node k tc cs, .stop⟩, s) else f (.node k tc cs) T s
def upAll (f : Plan Row → Nat → S → M (Tr Row × S)) (count : Nat → Nat) (s : S) :
    List (Plan Row) → M (List (Plan Row) × Bool × S)
  | [] => .ok ([], false, s)
  | c :: cs => do
    let (r, s) ← up f (count 0) s c
    if r.tnr = .stop then .ok (r.data :: cs, true, s)
    else do
      let (cs, stopped, s) ← upAll f (fun i => count (i + 1)) s cs
      .ok (r.data :: cs, stopped, s)
end

/-- `g` is applied to the children with their arguments, one after the other, until one stops. -/
def eachUntilStop {A : Type} (g : Plan Row → A → S → M (Tr Row × S)) (arg : Nat → A) (s : S) :
    List (Plan Row) → M (List (Plan Row) × Bool × S)
  | [] => .ok ([], false, s)
  | c :: cs => do
    let (r, s) ← g c (arg 0) s
    if r.tnr = .stop then .ok (r.data :: cs, true, s)
    else do
      let (cs, stopped, s) ← eachUntilStop g (fun i => arg (i + 1)) s cs
      .ok (r.data :: cs, stopped, s)

/-- Top-down rewriting: the node first, then the children of what it was rewritten to, each with its own task count.
`Jump` skips the children, `Stop` ends the traversal. -/
def down (f : Plan Row → Nat → S → M (Tr Row × S)) : Nat → Plan Row → Nat → S → M (Tr Row × S)
  | 0, _, _, _ => .error none
  | n + 1, p, T, s => do
    let (r, s) ← f p T s
    match r.tnr with
    | .stop => .ok (r, s)
    | .jump => .ok (⟨r.data, .cont⟩, s)
    | .cont => do
      let (cs, stopped, s) ← eachUntilStop (down f n) (childCount r.data.kind T) s r.data.children
      .ok (⟨withChildren r.data cs, if stopped then .stop else .cont⟩, s)

/-- `CtxAt ctx p ctx' x`: `x` is a node of `p`, and the task that runs `p` in context `ctx` runs `x` in context `ctx'`. -/
inductive CtxAt : TaskCtx → Plan Row → TaskCtx → Plan Row → Prop where
  | root {ctx p} : CtxAt ctx p ctx p
  | child {ctx k tc cs} {i : Nat} {c ctx' x} : k.isNet = false → (∀ ws m, k ≠ .ciu ws m) → cs[i]? = some c →
      CtxAt ctx c ctx' x → CtxAt ctx (.node k tc cs) ctx' x
  | branch {ctx ws m tc cs es} {i : Nat} {ctx₁ c ctx' x} : m[ctx.index]? = some es → (i, ctx₁) ∈ es → cs[i]? = some c →
      CtxAt ctx₁ c ctx' x → CtxAt ctx (.node (.ciu ws m) tc cs) ctx' x

/-- Every isolated union a task meets in `p` has an assignment for it, names only existing children, and no child
twice (the planner's assignments are like that, **C53**). -/
def CtxOk (ctx : TaskCtx) (p : Plan Row) : Prop :=
  ∀ ctx' ws m tc cs, CtxAt ctx p ctx' (.node (.ciu ws m) tc cs) →
    ∃ es, m[ctx'.index]? = some es ∧ (es.map (·.1)).Nodup ∧ ∀ e ∈ es, e.1 < cs.length

/-- The context in which a task that runs a node in context `ctx` runs its child `i`; `none` if it does not run it. A task
runs the children of an isolated union that are assigned to it, should one be named twice, in the last context named. -/
def childCtx (k : Kind Row) (ctx : TaskCtx) (i : Nat) : Option TaskCtx :=
  match k with
  | .ciu _ m => (((m.getD ctx.index []).filter fun e => e.1 == i).getLast?).map (·.2)
  | _ => some ctx

/-- An isolated union has an assignment for the task, naming existing children only. -/
def assigned (p : Plan Row) (ctx : TaskCtx) : Bool :=
  match p.kind with
  | .ciu _ m => decide (ctx.index < m.length) && (m.getD ctx.index []).all fun e => decide (e.1 < p.children.length)
  | _ => true

/-- Top-down rewriting of what one task runs: as `down`, but children the task does not run, and what is below a
boundary, are kept as they are. -/
def downIn (f : Plan Row → TaskCtx → S → M (Tr Row × S)) : Nat → Plan Row → Option TaskCtx → S → M (Tr Row × S)
  | 0, _, _, _ => .error none
  | _ + 1, p, none, s => .ok (⟨p, .cont⟩, s)
  | n + 1, p, some ctx, s => do
    let (r, s) ← f p ctx s
    match r.tnr with
    | .stop => .ok (r, s)
    | .jump => .ok (⟨r.data, .cont⟩, s)
    | .cont =>
      if r.data.kind.isNet then .ok (⟨r.data, .cont⟩, s)
      else if !assigned r.data ctx then .error (some (.panic "index out of bounds"))
      else do
        let (cs, stopped, s) ← eachUntilStop (downIn f n) (childCtx r.data.kind ctx) s r.data.children
        .ok (⟨withChildren r.data cs, if stopped then .stop else .cont⟩, s)

/- The nodes a task runs, with their contexts, parents before children, left to right. -/
mutual
def preorderIn (ctx : TaskCtx) : Plan Row → List (TaskCtx × Plan Row)
  | .node k tc cs => (ctx, .node k tc cs) :: if k.isNet then [] else preorderInAll (childCtx k ctx) cs
def preorderInAll (arg : Nat → Option TaskCtx) : List (Plan Row) → List (TaskCtx × Plan Row)
  | [] => []
  | c :: cs => (match arg 0 with
    | none => []
    | some ctx => preorderIn ctx c) ++ preorderInAll (fun i => arg (i + 1)) cs
end

/-- The nodes on the driver paths of a plan: those reached from the root without entering the build side of a join. -/
inductive DriverAt : Plan Row → Plan Row → Prop where
  | root {p} : DriverAt p p
  | probe {m s tc l r x} : DriverAt r x → DriverAt (.node (.join m s) tc [l, r]) x
  | child {k tc cs c x} : (∀ m s, k ≠ .join m s) → c ∈ cs → DriverAt c x → DriverAt (.node k tc cs) x

/-! ### What a task is sent -/

/-- A leaf without rows, with as many partitions as `p`. -/
def emptyLike (p : Plan Row) : Plan Row := .node (.leaf (List.replicate p.parts [])) (.desired 1) []

/- The part of a plan a task runs: of the leaves that were divided between tasks, the task's own share; of the branches of
isolated unions, those assigned to the task. The plans below boundaries belong to other stages. -/
mutual
def share (ctx : TaskCtx) : Plan Row → Plan Row
  | .node k tc cs => match k with
    | .distLeaf _ vs => .node (.leaf (vs.getD ctx.index [])) tc []
    | k => .node k tc (if k.isNet then cs else shareAll (childCtx k ctx) cs)
def shareAll (arg : Nat → Option TaskCtx) : List (Plan Row) → List (Plan Row)
  | [] => []
  | c :: cs => (match arg 0 with
    | none => emptyLike c
    | some ctx => share ctx c) :: shareAll (fun i => arg (i + 1)) cs
end

/-- Every leaf a task meets in `p` has a variant for the task, and variants with equally many partitions. -/
def LeavesOk (ctx : TaskCtx) (p : Plan Row) : Prop :=
  ∀ ctx' o vs tc cs, CtxAt ctx p ctx' (.node (.distLeaf o vs) tc cs) →
    cs = [] ∧ ctx'.index < vs.length ∧ ∃ P, ∀ v ∈ vs, v.length = P

/-- `x` is a node of `p` that belongs to the same stage as `p`. -/
inductive SameStage : Plan Row → Plan Row → Prop where
  | root {p} : SameStage p p
  | child {k tc cs c x} : k.isNet = false → c ∈ cs → SameStage c x → SameStage (.node k tc cs) x

end DD.Tree.Rec
