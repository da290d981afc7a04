/-
The shape of distributed plans: which nodes they have, with how many tasks each one runs, and what the
boundaries ask of the stages below them.
-/
import Verif.Model.Planner

namespace DD.Tree

variable {Row : Type}

/-- The task count child `i` of an isolated union is run with: the one in the contexts its tasks are started with
(the largest, should they differ; they do not in an assignment made by the planner, see `unionCount_eq`). -/
def unionCount (m : Union.TaskMap) (i : Nat) : Nat :=
  ((m.flatten.filter fun e => e.1 == i).map fun e => e.2.count).foldl max 0

/-- The task count child `i` of a node is run with, if the node itself is run with `T`: below a boundary, that of
the boundary's input stage; below an isolated union, that of its branch; otherwise that of the node. -/
def childCount (k : Kind Row) (T i : Nat) : Nat :=
  match k with
  | .ciu _ m => unionCount m i
  | .shuffle _ _ n _ | .netCoalesce _ n _ | .netBroadcast _ n _ => n
  | _ => T

/-- `At T p t x`: `x` is a node of `p` (given with the plan below it), and if `p` is run by `T` tasks, then `x` is
run by `t`. -/
inductive At : Nat → Plan Row → Nat → Plan Row → Prop where
  | root {T p} : At T p T p
  | child {T k tc cs i c t x} : cs[i]? = some c → At (childCount k T i) c t x → At T (.node k tc cs) t x

/-- Boundaries, `RepartitionExec` and `BroadcastExec` have one child (that of a boundary being the plan of its input
stage, which is local). -/
def Unary (x : Plan Row) : Prop := x.kind.isNet = true ∨ x.kind.isHead = true → x.children.length = 1

/- The numbers of the stages of a plan, inputs first. -/
mutual
def stageNums : Plan Row → List Nat
  | .node k _ cs => stageNumsAll cs ++ (if k.isNet then [k.num] else [])
def stageNumsAll : List (Plan Row) → List Nat
  | [] => []
  | c :: cs => stageNums c ++ stageNumsAll cs
end

/-- What task `ctx` of the consumer asks for when its partition `q` of a boundary is executed. -/
def requests (k : Kind Row) (ctx : TaskCtx) (q : Nat) : Except Err (List Pull) :=
  match k with
  | .shuffle _ p n _ | .netBroadcast p n _ => .ok ((FanExec.mk p n).execute ctx q)
  | .netCoalesce p n _ => (CoalesceExec.mk p n).execute ctx q
  | _ => .ok []

/-- The partition count of a boundary. -/
def Kind.netParts : Kind Row → Nat
  | .shuffle _ p _ _ | .netBroadcast p _ _ | .netCoalesce p _ _ => p
  | _ => 0

/-- Joins whose build side must not be replicated: collected hash joins and nested loop joins of a type other than
the five that split over the probe side (**C09**), null-aware ones, and all of them if broadcast joins are
switched off. -/
def MustNotReplicate (env : Env Row) : Kind Row → Prop
  | .join .collect s => env.broadcastJoins = false ∨ s.nullAware ≠ none
      ∨ s.jt ∉ [JoinType.inner, .right, .rightSemi, .rightAnti, .rightMark]
  | .join .nested s => env.broadcastJoins = false ∨ s.jt ∉ [JoinType.inner, .right, .rightSemi, .rightAnti, .rightMark]
  | .join .cross _ => env.broadcastJoins = false
  | _ => False

/-- A plan as DataFusion hands it over: no network boundaries, joins have inputs, repartitionings have one. -/
def Undistributed (p : Plan Row) : Prop :=
  ∀ t x, At 1 p t x → x.kind.isNet = false ∧ (x.children = [] → ∀ m s, x.kind ≠ .join m s)
    ∧ (x.kind.isHead = true → x.children.length = 1)

/-- What scale-up handlers return for a leaf contains neither boundaries nor joins nor isolated unions. -/
def ScalesLeaves (env : Env Row) : Prop :=
  ∀ p T p', env.scale p T = some (.ok p') → ∀ t x, At T p' t x → x.kind.isNet = false ∧ (∀ m s, x.kind ≠ .join m s)
    ∧ (x.kind.isHead = true → x.children.length = 1) ∧ ∀ ws m, x.kind ≠ .ciu ws m

/-- No `CoalescePartitionsExec` or `SortPreservingMergeExec` stands directly above a `RepartitionExec` that is not a
hash repartitioning. -/
def NotDealtAndGathered (p : Plan Row) : Prop :=
  ∀ t x, At 1 p t x → x.kind.asParent = .gathers → ∀ c ∈ x.children, ∀ n deal, c.kind ≠ .otherRepart n deal

/-- What scale-up handlers return is not itself a repartitioning or broadcast. -/
def ScalesToSources (env : Env Row) : Prop := ∀ p T p', env.scale p T = some (.ok p') → p'.kind.isHead = false

/-- The boundary `x` has an input that was built for `t` consumer tasks: below a shuffle, a hash repartitioning
into `t` times the boundary's partitions (possibly with a merge of partial states above it); below a broadcast, a
`BroadcastExec` whose output has `t` times the boundary's partitions; a coalesce shows its reader the partitions of
all `n` producer tasks, so it is built for one. -/
def BuiltFor (t : Nat) (x : Plan Row) : Prop :=
  match x.kind with
  | .shuffle h p _ _ => ∃ c, x.children = [c] ∧ ((∃ tc y, c = .node (.hashRepart h (p * t) none) tc [y])
      ∨ ∃ g r tc' tc y, c = .node (.op g r) tc' [.node (.hashRepart h (p * t) none) tc [y]])
  | .netBroadcast p _ _ => ∃ b tc y, x.children = [.node (.broadcast b) tc [y]] ∧ 0 < y.parts ∧ y.parts * b = p * t
  | .netCoalesce p n _ => t = 1 ∧ n ∣ p
  | _ => True

/-- The plan the worker runs for the producer tasks of boundary `k` read by `t` consumer tasks: the plan it was sent,
with the head the consumers ask for (`/repo/src/worker/task_data.rs:103-115`). -/
def workerPlan (k : Kind Row) (t : Nat) (c : Plan Row) : Except Err (Plan Row) := (k.head t).insert c

/-- `c` is an input the planner gives the boundary `k`: for a shuffle the hash repartitioning the boundary was made
for, for a broadcast a `BroadcastExec`, for a coalesce any plan that is not a repartitioning; with as many partitions
as the boundary, which is what they have for one producer task and one consumer task. -/
def InputOf (k : Kind Row) (c : Plan Row) : Prop :=
  match k with
  | .shuffle h p _ _ => ∃ o tc y, c = .node (.hashRepart h p o) tc [y]
  | .netBroadcast p _ _ => c.parts = p ∧ ∃ b tc y, c = .node (.broadcast b) tc [y]
  | _ => c.kind.isHead = false ∧ c.parts = k.netParts

end DD.Tree
