/-
Physical plans and what executing them returns.

The plan nodes this project creates or inspects are modelled one by one; every other DataFusion operator
is an `op`: a function from partition `q` of its inputs to its output partition `q`.

Models the `execute` methods of `/repo/src/execution_plans/` (row contents only; streaming, back pressure
and errors are modelled in the other files) and the head installed on a worker before a stage runs
(`/repo/src/worker/impl_execute_task.rs:19-59`, `/repo/src/worker/task_data.rs:103-115`).

Simplifications. A row is an element of an arbitrary type. The rows of one partition form a list, but where
the code interleaves streams (`select_all`, `CoalescePartitionsExec`) the list only stands for the set of
rows with multiplicities; no theorem about `run` reads the order. `Verif.Model.Stream` has the order. A hash partitioning is given by the
hash of its key columns, `Row → Nat`. Operators whose result is not determined by their input (limits, sorts with ties,
volatile functions) come with the choices they make in one execution, and theorems hold for all choices.
-/
import Verif.Model.TaskCount
import Verif.Model.Union

namespace DD.Tree

/-- DataFusion's `JoinType`. -/
inductive JoinType where
  | inner | left | right | full | leftSemi | rightSemi | leftAnti | rightAnti | leftMark | rightMark
  deriving DecidableEq, Repr

/-- `JoinType::swap` (DataFusion). -/
def JoinType.swap : JoinType → JoinType
  | .inner => .inner
  | .left => .right
  | .right => .left
  | .full => .full
  | .leftSemi => .rightSemi
  | .rightSemi => .leftSemi
  | .leftAnti => .rightAnti
  | .rightAnti => .leftAnti
  | .leftMark => .rightMark
  | .rightMark => .leftMark

/-- `is_left_broadcast_safe`, `/repo/src/distributed_planner/insert_broadcast.rs:170-180`. -/
def JoinType.broadcastSafe : JoinType → Bool
  | .inner | .right | .rightSemi | .rightAnti | .rightMark => true
  | _ => false

/-- How a join gets its build side: `HashJoinExec` in `CollectLeft` or `Partitioned` mode,
`NestedLoopJoinExec`, `CrossJoinExec`. DataFusion, as matched by `/repo/src/distributed_planner/insert_broadcast.rs:117-180`. -/
inductive JoinMode where
  | collect | partitioned | nested | cross
  deriving DecidableEq, Repr

/-- What a join computes. `on` decides whether two rows match (join keys and filter), `comb` builds an
output row from a left and a right row (absent: padded with nulls), `mark` appends the mark column, `lk`
and `rk` hash the join keys of a left and a right row. `nullAware` is the meaning of a null-aware join,
if it is one. DataFusion's joins. -/
structure JoinSpec (Row : Type) where
  jt : JoinType
  on : Row → Row → Bool
  comb : Option Row → Option Row → Row
  mark : Row → Bool → Row
  lk : Row → Nat
  rk : Row → Nat
  nullAware : Option (List Row → List Row → List Row) := none

section Join
variable {Row : Type} (s : JoinSpec Row)

/-- The matching pairs. DataFusion's joins. -/
def pairs (ls rs : List Row) : List Row :=
  ls.flatMap fun l => (rs.filter (s.on l)).map fun r => s.comb (some l) (some r)

/-- Left rows without a match, padded. DataFusion's joins. -/
def padLeft (ls rs : List Row) : List Row :=
  (ls.filter fun l => !rs.any (s.on l)).map fun l => s.comb (some l) none

/-- Right rows without a match, padded. DataFusion's joins. -/
def padRight (ls rs : List Row) : List Row :=
  (rs.filter fun r => !ls.any (s.on · r)).map fun r => s.comb none (some r)

/-- The result of a join of two whole inputs (SQL semantics, external contract of DataFusion's joins). -/
def joinRows (ls rs : List Row) : List Row :=
  match s.nullAware with
  | some f => f ls rs
  | none => match s.jt with
    | .inner => pairs s ls rs
    | .left => pairs s ls rs ++ padLeft s ls rs
    | .right => pairs s ls rs ++ padRight s ls rs
    | .full => pairs s ls rs ++ (padLeft s ls rs ++ padRight s ls rs)
    | .leftSemi => ls.filter fun l => rs.any (s.on l)
    | .rightSemi => rs.filter fun r => ls.any (s.on · r)
    | .leftAnti => ls.filter fun l => !rs.any (s.on l)
    | .rightAnti => rs.filter fun r => !ls.any (s.on · r)
    | .leftMark => ls.map fun l => s.mark l (rs.any (s.on l))
    | .rightMark => rs.map fun r => s.mark r (ls.any (s.on · r))

/-- `NestedLoopJoinExec::swap_inputs` (DataFusion): the sides are exchanged and, where both contribute
columns, a projection restores the column order. -/
def JoinSpec.swap : JoinSpec Row where
  jt := s.jt.swap
  on := fun a b => s.on b a
  comb := fun a b => s.comb b a
  mark := s.mark
  lk := s.rk
  rk := s.lk
  nullAware := s.nullAware.map fun f a b => f b a

/-- The probe side can be processed partition by partition without looking at the other partitions.
The join types of `is_left_broadcast_safe`, `/repo/src/distributed_planner/insert_broadcast.rs:170-180`, for nested loop and collected hash joins alike. -/
def JoinSpec.safe : Bool := s.jt.broadcastSafe && s.nullAware.isNone

end Join

/-- The rows are in order. `LexOrdering` of DataFusion. -/
def SortedBy {Row : Type} : Option (Row → Row → Bool) → List Row → Prop
  | none, _ => True
  | some le, l => l.Pairwise fun a b => le a b = true

/-- Every input is in the order asked for. `required_input_ordering` of DataFusion. -/
def InOrder {Row : Type} (needs : Nat → Option (Row → Row → Bool)) (as : List (List Row)) : Prop :=
  ∀ i, SortedBy (needs i) (as.getD i [])

/-- An operator DataFusion brings along. `exec` is what it returns in the execution that is looked at: for the rows of
one partition of each of its inputs, on a worker or in the head stage, in a task and for a partition. `may` is what it
may return. The two differ for operators that choose: a limit returns any rows it likes, as long as they are enough.

Some operators read the order of their inputs: merge joins, aggregations and windows over sorted input. `needs` are the
orders they rely on (`required_input_ordering`, or the order of an input an operator passes on), `order` is the order they
promise for their output (`output_ordering`), and `stream` is what they return for inputs as they arrive. It is `exec`
if the inputs are in order and anything at all if they are not. -/
structure Op (Row : Type) where
  exec : Bool → TaskCtx → Nat → List (List Row) → List Row
  may : List (List Row) → List Row → Prop
  ok : ∀ w ctx q as, may as (exec w ctx q as)
  needs : Nat → Option (Row → Row → Bool) := fun _ => none
  order : Option (Row → Row → Bool) := none
  stream : Bool → TaskCtx → Nat → List (List Row) → List Row := exec
  stream_ok : ∀ w ctx q as, InOrder needs as → stream w ctx q as = exec w ctx q as := by exact fun _ _ _ _ _ => rfl
  sorted : ∀ w ctx q as, InOrder needs as → SortedBy order (exec w ctx q as) := by exact fun _ _ _ _ _ => True.intro

/-- An operator without choice. DataFusion's operators. -/
def Op.det {Row : Type} (f : List (List Row) → List Row) : Op Row := { exec := fun _ _ _ => f, may := fun as x => x = f as, ok := fun _ _ _ _ => rfl }

/-- The node types. DataFusion's operators, and those of `/repo/src/execution_plans`. -/
inductive Kind (Row : Type) where
  /-- a leaf, given by the rows of its partitions -/
  | leaf (parts : List (List Row))
  /-- `DistributedLeafExec`, `/repo/src/execution_plans/distributed_leaf.rs:72-77` -/
  | distLeaf (original : List (List Row)) (variants : List (List (List Row)))
  /-- any operator that computes its output partition `q` from the partitions `q` of its inputs; `reduce`
  is the meaning of the matching `PartialReduce` aggregation if this is a `Partial` aggregation -/
  | op (g : Op Row) (reduce : Option (Op Row))
  | join (m : JoinMode) (s : JoinSpec Row)
  | union
  /-- `ChildrenIsolatorUnionExec`, `/repo/src/execution_plans/children_isolator_union.rs:87-102` -/
  | ciu (weights : List Union.ChildWeight) (map : Union.TaskMap)
  /-- `RepartitionExec` with hash partitioning; `keep` is the order it preserves, if it was made to
  (`with_preserve_order`) or reads a single partition -/
  | hashRepart (h : Row → Nat) (n : Nat) (keep : Option (Row → Row → Bool))
  /-- `RepartitionExec` with any other partitioning; `deal` distributes the rows of the input partitions -/
  | otherRepart (n : Nat) (deal : List (List Row) → Nat → List Row)
  /-- `CoalescePartitionsExec`; its fetch is the operator applied to the rows of all partitions -/
  | coalesce (fetch : Option (Op Row))
  /-- `SortPreservingMergeExec`; likewise, and the order it merges by -/
  | spm (fetch : Option (Op Row)) (le : Row → Row → Bool)
  /-- `BroadcastExec`, `/repo/src/execution_plans/broadcast.rs:83-100` -/
  | broadcast (consumers : Nat)
  /-- `NetworkShuffleExec`: hash partitioning of its output, tasks of its input stage, stage number -/
  | shuffle (h : Row → Nat) (parts tasks num : Nat)
  /-- `NetworkCoalesceExec`: partition count of its output, tasks of its input stage, stage number -/
  | netCoalesce (parts tasks num : Nat)
  /-- `NetworkBroadcastExec`: likewise -/
  | netBroadcast (parts tasks num : Nat)

/-- A plan. The planner records a task count for every node in a map keyed by the node's address
(`/repo/src/distributed_planner/inject_network_boundaries.rs:163-213`); here it is kept in the node. The plan
of a boundary's local input stage is its child, as in `children()` of the boundary nodes. -/
inductive Plan (Row : Type) where
  | node (k : Kind Row) (tc : TaskCount) (children : List (Plan Row))

namespace Plan
variable {Row : Type}

/-- Projection of `Plan`: `ExecutionPlan` (DataFusion) is a trait object, told apart by `downcast_ref`. -/
def kind : Plan Row → Kind Row
  | .node k _ _ => k
/-- Projection of `Plan`, see there. -/
def tc : Plan Row → TaskCount
  | .node _ t _ => t
/-- `ExecutionPlan::children` (DataFusion). -/
def children : Plan Row → List (Plan Row)
  | .node _ _ cs => cs
/-- `set_task_count`, `/repo/src/distributed_planner/inject_network_boundaries.rs:183-188`. -/
def withTc (t : TaskCount) : Plan Row → Plan Row
  | .node k _ cs => .node k t cs

end Plan

/-- `is_network_boundary`, `/repo/src/distributed_planner/network_boundary.rs:60-72`. -/
def Kind.isNet {Row : Type} : Kind Row → Bool
  | .shuffle .. | .netCoalesce .. | .netBroadcast .. => true
  | _ => false

/-- A node `ProducerHead::insert` replaces, `/repo/src/distributed_planner/network_boundary.rs:86-92`. -/
def Kind.isHead {Row : Type} : Kind Row → Bool
  | .hashRepart .. | .otherRepart .. | .broadcast .. => true
  | _ => false

/-- The first half of `ProducerHead::insert`, `/repo/src/distributed_planner/network_boundary.rs:86-92`: one head
`RepartitionExec` or `BroadcastExec` is taken off. -/
def strip {Row : Type} : Plan Row → Plan Row
  | .node k tc (c :: cs) => if k.isHead then c else .node k tc (c :: cs)
  | p => p

/-! ### Execution -/

/-- An executable node: its partition count, and the rows of one partition when it is executed by a task.
The flag tells whether the task runs on a worker (`true`, with a task-specialised plan) or in the head
stage on the coordinator. `ExecutionPlan::execute` (DataFusion), with the `DistributedTaskContext` of `/repo/src/stage.rs`. -/
structure Ran (Row : Type) where
  parts : Nat
  exec : Bool → TaskCtx → Nat → List Row

namespace Ran
variable {Row : Type}

/-- A node that cannot be executed; stands for a missing child.
Does not occur: `with_new_children` (`/repo/src/execution_plans`) checks the number of children. -/
def none : Ran Row := ⟨0, fun _ _ _ => []⟩

/-- Everything one task returns. All partitions of `ExecutionPlan::execute` (DataFusion). -/
def rows (r : Ran Row) (w : Bool) (ctx : TaskCtx) : List Row :=
  (List.range r.parts).flatMap (r.exec w ctx)

end Ran

section Run
variable {Row : Type}

/-- `UnionExec::execute` (DataFusion): the partitions of the children one after the other. -/
def unionExec (w : Bool) (ctx : TaskCtx) : List (Ran Row) → Nat → List Row
  | [], _ => []
  | c :: cs, q => if q < c.parts then c.exec w ctx q else unionExec w ctx cs (q - c.parts)

/-- The rows of the partition a `ChildrenIsolatorUnionExec` runs, see `Union.execIn`.
`/repo/src/execution_plans/children_isolator_union.rs:217-275`. -/
def ciuExec (w : Bool) (cs : List (Ran Row)) (es : List Union.Entry) (q : Nat) : List Row :=
  match Union.execIn (cs.map (·.parts)) es q with
  | .ok (some r) => (cs.getD r.child .none).exec w r.ctx r.partition
  | _ => []

/-- Partition count of a `ChildrenIsolatorUnionExec`, children_isolator_union.rs:168-188. -/
def ciuParts (map : Union.TaskMap) (parts : List Nat) : Nat :=
  (map.map fun es => (es.map fun e => parts.getD e.1 0).sum).foldl max 0

/-- A `CollectLeft` hash join, nested loop join or cross join: the build side is read from partition 0
of the left input; joins that emit unmatched build rows share state between the probe partitions of one
task and emit them once (DataFusion). Which partition those rows come out of is not modelled: the whole
result is put in the last one. -/
def collectExec (s : JoinSpec Row) (b p : Ran Row) (w : Bool) (ctx : TaskCtx) (q : Nat) : List Row :=
  if s.safe then joinRows s (b.exec w ctx 0) (p.exec w ctx q)
  else if q + 1 = p.parts then joinRows s (b.exec w ctx 0) (p.rows w ctx) else []

/-- The rows a coalesce or merge passes on. `fetch` of `CoalescePartitionsExec` and `SortPreservingMergeExec` (DataFusion). -/
def takeFetch (fetch : Option (Op Row)) (w : Bool) (ctx : TaskCtx) (l : List Row) : List Row :=
  match fetch with
  | none => l
  | some g => g.exec w ctx 0 [l]

/-- Rows of output partition `b` of a `RepartitionExec` with hash partitioning into `n` (DataFusion:
a row goes to partition `hash % n`). -/
def hashPart (h : Row → Nat) (n b : Nat) (l : List Row) : List Row := l.filter fun r => h r % n == b

/-- `NetworkShuffleExec::execute`, `/repo/src/execution_plans/network_shuffle.rs:221-251`: `bare` is the
input stage without its head, on which the worker installs a hash `RepartitionExec` into `parts * consumer tasks`
partitions (`producer_head`, network_shuffle.rs:158-165). -/
def shuffleExec (h : Row → Nat) (parts tasks : Nat) (bare : Ran Row) (ctx : TaskCtx) (q : Nat) : List Row :=
  ((FanExec.mk parts tasks).execute ctx q).flatMap fun pull =>
    hashPart h (FanExec.headPartitions ⟨parts, tasks⟩ ctx.count) pull.partition (bare.rows true ⟨pull.task, tasks⟩)

/-- `NetworkCoalesceExec::execute`, `/repo/src/execution_plans/network_coalesce.rs:267-342`. -/
def netCoalesceExec (parts tasks : Nat) (bare : Ran Row) (ctx : TaskCtx) (q : Nat) : List Row :=
  match (CoalesceExec.mk parts tasks).execute ctx q with
  | .error _ => []
  | .ok pulls => pulls.flatMap fun pull => bare.exec true ⟨pull.task, tasks⟩ pull.partition

/-- `NetworkBroadcastExec::execute`, `/repo/src/execution_plans/network_broadcast.rs:245-275`; the worker installs a
`BroadcastExec`, whose partition `v` replays input partition `v % input partitions`
(`/repo/src/execution_plans/broadcast.rs:158-166`, see `BroadcastExec.execute`). -/
def netBroadcastExec (parts tasks : Nat) (bare : Ran Row) (ctx : TaskCtx) (q : Nat) : List Row :=
  ((FanExec.mk parts tasks).execute ctx q).flatMap fun pull =>
    bare.exec true ⟨pull.task, tasks⟩ (pull.partition % bare.parts)

/-- One node over its executed children; each child comes with the same plan without its head.
The `execute` methods of `/repo/src/execution_plans`, cited at each case, and of DataFusion's operators. -/
def runKind (k : Kind Row) (cs : List (Ran Row × Ran Row)) : Ran Row :=
  let c0 := (cs.getD 0 (.none, .none)).1
  let c1 := (cs.getD 1 (.none, .none)).1
  let bare := (cs.getD 0 (.none, .none)).2
  match k with
  | .leaf ps => ⟨ps.length, fun _ _ q => ps.getD q []⟩
  -- `DistributedLeafExec::execute`, distributed_leaf.rs:180-199, and `to_task_specialized`, :138-140
  | .distLeaf o vs =>
    ⟨(vs.headD []).length, fun w ctx q =>
      if w || ctx.count != 1 then (vs.getD ctx.index []).getD q [] else o.getD q []⟩
  | .op g _ => ⟨c0.parts, fun w ctx q => g.exec w ctx q (cs.map fun c => c.1.exec w ctx q)⟩
  | .join .partitioned s => ⟨c0.parts, fun w ctx q => joinRows s (c0.exec w ctx q) (c1.exec w ctx q)⟩
  | .join _ s => ⟨c1.parts, collectExec s c0 c1⟩
  | .union => ⟨(cs.map (·.1.parts)).sum, fun w ctx => unionExec w ctx (cs.map (·.1))⟩
  | .ciu _ m => ⟨ciuParts m (cs.map (·.1.parts)), fun w ctx => ciuExec w (cs.map (·.1)) (m.getD ctx.index [])⟩
  | .hashRepart h n _ => ⟨n, fun w ctx q => hashPart h n q (c0.rows w ctx)⟩
  | .otherRepart n deal => ⟨n, fun w ctx q => deal ((List.range c0.parts).map (c0.exec w ctx)) q⟩
  | .coalesce f => ⟨1, fun w ctx q => if q = 0 then takeFetch f w ctx (c0.rows w ctx) else []⟩
  | .spm f _ => ⟨1, fun w ctx q => if q = 0 then takeFetch f w ctx (c0.rows w ctx) else []⟩
  | .broadcast n => ⟨c0.parts * n, fun w ctx q => c0.exec w ctx (q % c0.parts)⟩
  | .shuffle h p n _ => ⟨p, fun _ ctx q => shuffleExec h p n bare ctx q⟩
  | .netCoalesce p n _ => ⟨p, fun _ ctx q => netCoalesceExec p n bare ctx q⟩
  | .netBroadcast p n _ => ⟨p, fun _ ctx q => netBroadcastExec p n bare ctx q⟩

/- A plan as it is executed, and the same plan without its head. -/
mutual
/-- `ExecutionPlan::execute` (DataFusion) calls that of the children; `/repo/src/distributed_planner/network_boundary.rs:86-106` replaces the head. -/
def runBoth : Plan Row → Ran Row × Ran Row
  | .node k _ cs =>
    let rs := runAll cs
    (runKind k rs, if k.isHead then (rs.getD 0 (.none, .none)).1 else runKind k rs)
/-- `runBoth` on every child. -/
def runAll : List (Plan Row) → List (Ran Row × Ran Row)
  | [] => []
  | c :: cs => runBoth c :: runAll cs
end

/-- What executing a plan means. `ExecutionPlan::execute` (DataFusion). -/
def run (p : Plan Row) : Ran Row := (runBoth p).1

/-- `plan.output_partitioning().partition_count()`. DataFusion; the boundaries' are cited at `runKind`. -/
def Plan.parts (p : Plan Row) : Nat := (run p).parts

/-- The result of a plan run on a single node, without any distribution: the rows of all its partitions.
`execute_stream` of DataFusion. -/
def singleNode (p : Plan Row) : List Row := (run p).rows false ⟨0, 1⟩

/-- What `DistributedExec::execute` returns, `/repo/src/coordinator/distributed.rs:179-247`: partition 0 of the head
stage, run on the coordinator as a single task; every other partition is refused (:184-192). -/
def distributed (p : Plan Row) : List Row := (run p).exec false ⟨0, 1⟩ 0

end Run

end DD.Tree
