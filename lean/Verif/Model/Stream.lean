/-
What executing a plan returns, in the order in which it returns it.

`run` in `Verif.Model.PlanTree` has one result for every partition and leaves its order open. Here a partition may
return its rows in many orders: as they come out of the streams it reads at the same time. Every operator gets the rows of its
inputs as they arrive and returns its `stream`, which is what it should return only if the inputs are in the order the
operator relies on.

Models the order of rows in `/repo/src/execution_plans/network_shuffle.rs:221-251` (`select_all` over the producer tasks),
`network_broadcast.rs:245-275` (likewise), `network_coalesce.rs:267-342` (one producer partition is one partition),
`/repo/src/execution_plans/broadcast.rs:158-166` (a partition is replayed in its order),
`/repo/src/distributed_planner/network_boundary.rs:86-106` (the `RepartitionExec` a worker installs does not preserve any order),
`children_isolator_union.rs:190-275` and `distributed_leaf.rs:180-199`. The order of the other nodes is DataFusion's
(external contracts): `CoalescePartitionsExec` and `RepartitionExec` pass on what arrives first, `SortPreservingMergeExec` and
`RepartitionExec`s made to preserve an order merge, `UnionExec` passes on, joins emit the matches of a probe row after
those of the probe rows before it if no unmatched build rows follow.

That the transport keeps the order of the batches of one partition is claimed and proved elsewhere (C07, C09).
-/
import Verif.Model.PlanTree
import Verif.Model.Merge

namespace DD.Tree

open DD.Limit

variable {Row : Type}

/-- Streams read at the same time: in any order, or merged if an order is to be kept.
`select_all` of `futures` (external), or `SortPreservingMergeExec` and `RepartitionExec` with `preserve_order` (DataFusion). -/
def Mixed (keep : Option (Row → Row → Bool)) (ls : List (List Row)) (l : List Row) : Prop :=
  match keep with
  | none => Interleaved ls l
  | some le => Merged (fun a b => le a b = true) ls l

/-- The rows a coalesce or merge passes on, if `l` arrives.
`CoalescePartitionsExec` and `SortPreservingMergeExec` (DataFusion). -/
def streamFetch (fetch : Option (Op Row)) (w : Bool) (ctx : TaskCtx) (l : List Row) : List Row :=
  match fetch with
  | none => l
  | some g => g.stream w ctx 0 [l]

/-- The matches of the probe rows `ps`, one probe row after the other. DataFusion's joins. -/
def Probed (s : JoinSpec Row) (build ps l : List Row) : Prop :=
  ∃ ms : List (List Row), ms.length = ps.length
    ∧ (∀ (i : Nat) p m, ps[i]? = some p → ms[i]? = some m → m.Perm (joinRows s build [p])) ∧ l = ms.flatten

/-- The build rows a partition of a join sees. DataFusion's joins. -/
def buildRows (m : JoinMode) (b : Ran Row) (w : Bool) (ctx : TaskCtx) (q : Nat) : List Row :=
  b.exec w ctx (if m = .partitioned then q else 0)

/-- Partition `q` of one node over its executed children may return `l`. The counterpart of `runKind`.
The `execute` methods cited in the header, and those of DataFusion's operators. -/
def Emits (k : Kind Row) (cs : List (Ran Row × Ran Row)) (w : Bool) (ctx : TaskCtx) (q : Nat) (l : List Row) : Prop :=
  let c0 := (cs.getD 0 (.none, .none)).1
  let c1 := (cs.getD 1 (.none, .none)).1
  let bare := (cs.getD 0 (.none, .none)).2
  match k with
  | .op g _ => l = g.stream w ctx q (cs.map fun c => c.1.exec w ctx q)
  | .join m s => l.Perm ((runKind (.join m s) cs).exec w ctx q)
      ∧ (s.safe = true → Probed s (buildRows m c0 w ctx q) (c1.exec w ctx q) l)
  | .hashRepart h n keep => Mixed keep ((List.range c0.parts).map fun i => hashPart h n q (c0.exec w ctx i)) l
  | .otherRepart n deal => l.Perm ((runKind (.otherRepart n deal) cs).exec w ctx q)
  | .coalesce f => if q = 0 then ∃ m, Interleaved ((List.range c0.parts).map (c0.exec w ctx)) m ∧ l = streamFetch f w ctx m else l = []
  | .spm f le => if q = 0 then ∃ m, Mixed (some le) ((List.range c0.parts).map (c0.exec w ctx)) m ∧ l = streamFetch f w ctx m
      else l = []
  -- every producer task has its own repartitioning, which reads the partitions of the task at the same time
  | .shuffle h p n _ => Interleaved (((FanExec.mk p n).execute ctx q).flatMap fun pull => (List.range bare.parts).map fun i =>
      hashPart h (FanExec.headPartitions ⟨p, n⟩ ctx.count) pull.partition (bare.exec true ⟨pull.task, n⟩ i)) l
  | .netBroadcast p n _ => Interleaved (((FanExec.mk p n).execute ctx q).map fun pull =>
      bare.exec true ⟨pull.task, n⟩ (pull.partition % bare.parts)) l
  | k => l = (runKind k cs).exec w ctx q

/- `Runs p r`: `r` is one execution of `p`, with the same plan without its head. The counterpart of `runBoth`. -/
mutual
/-- `ExecutionPlan::execute` (DataFusion) calls that of the children. -/
def Runs : Plan Row → Ran Row × Ran Row → Prop
  | .node k _ cs, r => ∃ rs, RunsAll cs rs ∧ r.1.parts = (runKind k rs).parts
      ∧ (∀ w ctx q, Emits k rs w ctx q (r.1.exec w ctx q))
      ∧ r.2 = if k.isHead then (rs.getD 0 (.none, .none)).1 else r.1
/-- `Runs` of every child. -/
def RunsAll : List (Plan Row) → List (Ran Row × Ran Row) → Prop
  | [], rs => rs = []
  | c :: cs, rs => ∃ r rest, rs = r :: rest ∧ Runs c r ∧ RunsAll cs rest
end

/-- The client may receive the rows `l`, in this order: partition 0 of the head stage.
`/repo/src/coordinator/distributed.rs:198-246`. -/
def Delivers (p : Plan Row) (l : List Row) : Prop := ∃ r, Runs p r ∧ l = r.1.exec false ⟨0, 1⟩ 0

end DD.Tree
