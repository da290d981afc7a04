/-
Executing a plan when things go wrong: workers die, connections break, operators and leaves fail, consumers stop reading.

`Verif.Model.Stream` says what the streams of a plan return if nothing fails. Here every stream is described by what has been
seen of it: the batches and errors it returned, and whether it ended. What is seen over a network boundary is what the models
of the transport let through: the worker merges the partitions of a task into one response (`Verif.Model.SelectAll`), the
consumer takes it apart again (`Verif.Model.Demux`), broadcasts go through the queue of `Verif.Model.BroadcastQueue`, and
the tasks of a stage are read with `select_all`.

DataFusion's operators are described by one external contract: what they have returned is right for every way their inputs
might have gone on (`Att.Continues`) in the order they rely on (`Fits`). So they pass on errors, unless they have stopped reading before.
-/
import Verif.Model.Stream
import Verif.Model.SelectAll
import Verif.Model.BroadcastQueue

namespace DD.Faulty

open DD.Limit DD.Tree

variable {Row : Type}

/-- What was seen of a stream of record batches.
`SendableRecordBatchStream` (DataFusion) as polled by its consumer; batches are rows. -/
structure Seen (Row : Type) where
  items : List (Except Err (List Row))
  /-- `poll_next` returned `None` -/
  ended : Bool

/-- The rows before the first error. Nobody reads on after an error. The convention of DataFusion's streams. -/
def rowsOf : List (Except Err (List Row)) → List Row
  | [] => []
  | .error _ :: _ => []
  | .ok b :: rest => b ++ rowsOf rest

/-- The rows seen before the first error (DataFusion's streams). -/
def Seen.rows (s : Seen Row) : List Row := rowsOf s.items

/-- The stream ended, and without an error. `poll_next` returned `None` (DataFusion's streams). -/
def Seen.Clean (s : Seen Row) : Prop := s.ended = true ∧ ∀ e, Except.error e ∉ s.items

/-- A stream that would return the rows `l` if nothing failed may be seen as `s`. DataFusion's streams. -/
def Seen.Of (s : Seen Row) (l : List Row) : Prop := s.rows <+: l ∧ (s.Clean → s.rows = l)

/-- A stream that has failed. DataFusion's streams. -/
def Seen.failed (e : Err) : Seen Row := ⟨[.error e], true⟩

/-- `EmptyRecordBatchStream`. DataFusion, used at `/repo/src/execution_plans/network_coalesce.rs:314-316`. -/
def Seen.empty : Seen Row := ⟨[], true⟩

/-- What was seen of the streams of a plan, in every task. A stream nobody asked for has no items and has not ended.
The calls of `ExecutionPlan::execute` (DataFusion) and the streams they returned. -/
structure Att (Row : Type) where
  parts : Nat
  seen : Bool → TaskCtx → Nat → Seen Row

/-- Nothing was asked for (DataFusion's `ExecutionPlan::execute` was not called). -/
def Att.none : Att Row := ⟨0, fun _ _ _ => .empty⟩

/-- The execution `r` is one way in which what was seen might have gone on.
Relates what is seen to `Model/PlanTree.lean` (DataFusion's streams). -/
def Att.Continues (a : Att Row) (r : Ran Row) : Prop := r.parts = a.parts ∧ ∀ w ctx q, (a.seen w ctx q).Of (r.exec w ctx q)

/-- A stream passed on as it is, and perhaps not read to its end.
DataFusion's streams; dropping a stream early is allowed everywhere. -/
def Passed (s out : Seen Row) : Prop := out.items <+: s.items ∧ (out.ended = true → s.ended = true ∧ out.items = s.items)

/-- `futures::stream::select_all` (external): the items of all streams, as they come; it ends when all have ended. Used in
`/repo/src/execution_plans/network_shuffle.rs:246-249` and `network_broadcast.rs:270-273`. -/
def Selected (ss : List (Seen Row)) (out : Seen Row) : Prop :=
  ∃ ps : List (List (Except Err (List Row))), ps.length = ss.length
    ∧ (∀ (i : Nat) p s, ps[i]? = some p → ss[i]? = some s → p <+: s.items ∧ (out.ended = true → s.ended = true ∧ p = s.items))
    ∧ Interleaved ps out.items

/-- The results the task that fills a broadcast queue pushes: it stops at the first error,
`/repo/src/execution_plans/broadcast.rs:187-199`. -/
def pushed : List (Except Err (List Row)) → List (Except Err (List Row))
  | [] => []
  | .error e :: _ => [.error e]
  | .ok b :: rest => .ok b :: pushed rest

/-- One consumer of the broadcast queue filled from the stream `s`, `broadcast.rs:167-214`. The queue is finished only when the
input has ended or failed. With `panics`, the task that fills the queue may panic. -/
def Replayed (panics : Bool) (s out : Seen Row) : Prop :=
  (∃ e, out = .failed e) ∨ ∃ (steps : List BQ.Step) (i : Nat), (panics = false → BQ.Step.crash ∉ steps)
    ∧ (BQ.finished (BQ.run (BQ.init (pushed s.items)) steps) → s.ended = true ∨ ∃ e, Except.error e ∈ s.items)
    ∧ out = ⟨((BQ.run (BQ.init (pushed s.items)) steps).cons i).out, ((BQ.run (BQ.init (pushed s.items)) steps).cons i).ended⟩

/-- What the client receives of a response (gRPC, external): what the merged stream of the server yielded, and then either the
end of the stream, only if the merged stream ended, or a transport error, for example because the worker died. -/
def Arrives (size : List Row → Nat) (start : Nat) (srv : SelectAll.State (List Row)) (sent : List (Demux.Wire (List Row))) : Prop :=
  (srv.eos = true ∧ sent = srv.out.map (SelectAll.wireOf size start)) ∨
  (∃ e k, sent = (srv.out.take k).map (SelectAll.wireOf size start) ++ [.err e])

/-- What a consumer sees of the partition it pulls from a task with the partition streams `src`.
`WorkerConnectionPool::execute`, `/repo/src/worker/worker_connection_pool.rs:46-169`: one connection for a range of partitions, to
this process (`/repo/src/protocol/in_process/worker_client.rs:42-50`) or over gRPC
(`/repo/src/protocol/grpc/worker_service.rs:134-184`, `worker_client.rs:89-320`). Asking for streams may fail. With `panics`,
the tasks at both ends may panic. -/
inductive Carried (panics : Bool) (src : Nat → Seen Row) (pull : Pull) : Seen Row → Prop where
  | failed (e : Err) : Carried panics src pull (.failed e)
  | inProcess {out} : Passed (src pull.partition) out → Carried panics src pull out
  | grpc (cap : Nat) (size : List Row → Nat) (ssteps : List SelectAll.Step) (c : Demux.Cfg (List Row)) (csteps : List Demux.Step) :
      c.start = pull.lo → c.n = pull.hi - pull.lo → pull.lo ≤ pull.partition → pull.partition < pull.hi →
      (panics = false → (∀ i, SelectAll.Step.crash i ∉ ssteps) ∧ Demux.Step.crash ∉ csteps) →
      ((SelectAll.run c.n cap (fun i => (src (c.start + i)).items) ssteps).eos = true → ∀ i < c.n, (src (c.start + i)).ended = true) →
      Arrives size c.start (SelectAll.run c.n cap (fun i => (src (c.start + i)).items) ssteps) c.sent →
      Carried panics src pull ⟨((Demux.run c (Demux.init c) csteps).chans (pull.partition - pull.lo)).out,
        ((Demux.run c (Demux.init c) csteps).chans (pull.partition - pull.lo)).eos⟩

/-- The children may have gone on to be `rs`. Relates what is seen to `Model/PlanTree.lean` (DataFusion's streams). -/
def Goes (as : List (Att Row × Att Row)) (rs : List (Ran Row × Ran Row)) : Prop :=
  rs.length = as.length ∧ ∀ (i : Nat) a r, as[i]? = some a → rs[i]? = some r → a.1.Continues r.1 ∧ a.2.Continues r.2

/-- A node gets its inputs in the order it relies on (`required_input_ordering`). DataFusion. -/
def Fits (k : Kind Row) (rs : List (Ran Row × Ran Row)) (w : Bool) (ctx : TaskCtx) (q : Nat) : Prop :=
  match k with
  | .op g _ => InOrder g.needs (rs.map fun c => c.1.exec w ctx q)
  | .spm _ le => ∀ i, SortedBy (some le) ((rs.getD 0 (.none, .none)).1.exec w ctx i)
  | _ => True

/-- What may be seen of partition `q` of one node over its children. The counterpart of `Emits`. Partitions a node refuses
fail; that they may also be empty, as they are in `runKind`, allows more than the code does.
The code is cited at `Emits`, `Model/Stream.lean` (`/repo/src/execution_plans`). -/
def Shows (panics : Bool) (k : Kind Row) (as : List (Att Row × Att Row)) (w : Bool) (ctx : TaskCtx) (q : Nat) (out : Seen Row) : Prop :=
  let a0 := (as.getD 0 (.none, .none)).1
  let bare := (as.getD 0 (.none, .none)).2
  match k with
  -- children_isolator_union.rs:190-275: the stream of one child, or an empty one
  | .ciu _ m => match Union.execIn (as.map (·.1.parts)) (m.getD ctx.index []) q with
    | .ok (some r) => Passed ((as.getD r.child (.none, .none)).1.seen w r.ctx r.partition) out
    | .ok none => Passed .empty out
    | .error e => out = .failed e ∨ out = .empty
  | .broadcast _ => Replayed panics (a0.seen w ctx (q % a0.parts)) out
  -- every producer task repartitions (DataFusion's `RepartitionExec`, under its contract) and sends
  | .shuffle h p n _ => ∃ (src : Nat → Nat → Seen Row) (got : List (Seen Row)),
      (∀ t v r, bare.Continues r → ∃ l, Interleaved ((List.range r.parts).map fun i =>
        hashPart h (FanExec.headPartitions ⟨p, n⟩ ctx.count) v (r.exec true ⟨t, n⟩ i)) l ∧ (src t v).Of l) ∧
      List.Forall₂ (fun pull s => Carried panics (src pull.task) pull s) ((FanExec.mk p n).execute ctx q) got
      ∧ Selected got out
  | .netCoalesce p n _ => match (CoalesceExec.mk p n).execute ctx q with
    | .error e => out = .failed e ∨ out = .empty
    | .ok [] => Passed .empty out
    | .ok (pull :: _) => Carried panics (bare.seen true ⟨pull.task, n⟩) pull out
  | .netBroadcast p n _ => ∃ (src : Nat → Nat → Seen Row) (got : List (Seen Row)),
      (∀ t v, Replayed panics (bare.seen true ⟨t, n⟩ (v % bare.parts)) (src t v)) ∧
      List.Forall₂ (fun pull s => Carried panics (src pull.task) pull s) ((FanExec.mk p n).execute ctx q) got
      ∧ Selected got out
  -- DataFusion's nodes
  | k => ∀ rs, Goes as rs → Fits k rs w ctx q → ∃ l, Emits k rs w ctx q l ∧ out.Of l

/- `Attempts panics p a`: `a` may be seen of `p`, and of the same plan without its head. The counterpart of `Runs`. -/
mutual
/-- `ExecutionPlan::execute` (DataFusion) of a whole plan. -/
def Attempts (panics : Bool) : Plan Row → Att Row × Att Row → Prop
  | .node k tc cs, a => ∃ as, AttemptsAll panics cs as ∧ a.1.parts = (Plan.node k tc cs).parts
      ∧ (∀ w ctx q, Shows panics k as w ctx q (a.1.seen w ctx q))
      ∧ a.2 = if k.isHead then (as.getD 0 (.none, .none)).1 else a.1
/-- `Attempts` for every child. -/
def AttemptsAll (panics : Bool) : List (Plan Row) → List (Att Row × Att Row) → Prop
  | [], as => as = []
  | c :: cs, as => ∃ a rest, as = a :: rest ∧ Attempts panics c a ∧ AttemptsAll panics cs rest
end

/-- What the client may see: partition 0 of the head stage. `/repo/src/coordinator/distributed.rs:198-246`. -/
def ClientSees (panics : Bool) (p : Plan Row) (s : Seen Row) : Prop := ∃ a, Attempts panics p a ∧ s = a.1.seen false ⟨0, 1⟩ 0

end DD.Faulty
