/-
What is seen of the rows of a query while its tasks run at the same time, connected by the streams of `Verif.Model.Network`.

`Verif.Model.Faulty` describes what is seen of a plan when every connection is looked at by itself; here the connections are those of one
running query, in one of its states; any of them may have failed, and messages may be errors. DataFusion's operators are described by the same external contract (`Shows`): what they have returned
is right for every way their inputs might go on.
-/
import Verif.Model.PlanNetwork
import Verif.Model.Faulty

namespace DD.Net

open DD.Limit DD.Tree DD.Tree.Rec DD.Faulty

variable {Row α σ : Type} (rows : α → Except Err (List Row)) (st : State Nat α σ)

/-- What the reader of a stream has got from it; `rows` are the rows of a message, if it is not an error.
What `poll_next` returned, `/repo/src/protocol/grpc/worker_client.rs:275-320`. -/
def seenOf (s : Nat) (d : Stream) : Seen Row := ⟨(st.got s d).map rows, st.eof s d && !st.gone s d⟩

/-- What the writer of a stream has computed for it. A writer whose reader has gone or whose connection has failed need not come to the end.
The stream returned by `execute_task`, `/repo/src/worker/impl_execute_task.rs:19-59`. -/
def sentOf (s : Nat) (d : Stream) : Seen Row := ⟨(st.made s d).map rows, st.done s d && !st.gone s d && !st.failed s d.reader d.writer⟩

/-- The error that is read when a connection fails is one.
`fanout`, `/repo/src/protocol/grpc/worker_client.rs:550-554`, sends a `DataFusionError`. -/
def Reports {σ : Type} (n : Net Nat α σ) : Prop := ∀ s r w, ∃ e, rows (n.error s r w) = .error e

/-- The rows the tasks of the input stage of boundary `k` send for a pull of one of its `consumers`, if the plan of that stage (without its
head) is executed as `r`: the worker installs a `RepartitionExec`, a `BroadcastExec` or nothing,
`/repo/src/distributed_planner/network_boundary.rs:86-106`, `/repo/src/execution_plans/network_shuffle.rs:158-165`. -/
def Sends (k : Kind Row) (consumers : Nat) (r : Ran Row) (pull : Pull) (l : List Row) : Prop :=
  match k with
  | .shuffle h p n _ => Interleaved ((List.range r.parts).map fun i =>
      hashPart h (FanExec.headPartitions ⟨p, n⟩ consumers) pull.partition (r.exec true ⟨pull.task, n⟩ i)) l
  | .netBroadcast _ n _ => l = r.exec true ⟨pull.task, n⟩ (pull.partition % r.parts)
  | .netCoalesce _ n _ => l = r.exec true ⟨pull.task, n⟩ pull.partition
  | _ => False

/-- What partition `q` of a boundary, the input of stage `s`, has returned in context `ctx`: nothing, or some of what the task that runs it
has got from the streams it asked for, `/repo/src/execution_plans/network_shuffle.rs:221-251`, `network_broadcast.rs:245-275` and
`network_coalesce.rs:267-334`. -/
def Pulled (s : Nat) (k : Kind Row) (runs : List (Nat × TaskCtx)) (ctx : TaskCtx) (q : Nat) (out : Seen Row) : Prop :=
  out = ⟨[], false⟩ ∨ ∃ t pulls, (t, ctx) ∈ runs ∧ q < k.netParts ∧ requests k ctx q = .ok pulls
    ∧ Selected (pulls.map fun pull => seenOf rows st s ⟨pull.task, t, pull.partition⟩) out

/-- The tasks of the input stage of a boundary, of whose plan without its head `bare` was seen, compute for their streams what they should.
`/repo/src/worker/impl_execute_task.rs:19-59` over the plan of `/repo/src/worker/task_data.rs:103-115`. -/
def Computes (s : Nat) (k : Kind Row) (runs : List (Nat × TaskCtx)) (bare : Att Row) : Prop :=
  ∀ t ctx q pulls pull, (t, ctx) ∈ runs → q < k.netParts → requests k ctx q = .ok pulls → pull ∈ pulls → ∀ r, bare.Continues r →
    ∃ l, Sends k ctx.count r pull l ∧ (sentOf rows st s ⟨pull.task, t, pull.partition⟩).Of l

/- `Observed above next runs p a`: in the state `st` of the query, `a` was seen of `p` and of `p` without its head, where `p` is run by the
tasks `runs` of stage `above`, and its boundaries have the numbers from `next` on, as in `sites`. -/
mutual
/-- The calls of `execute` of `/repo/src/execution_plans`, as in `Attempts` (`Model/Faulty.lean`). -/
def Observed (above next : Nat) (runs : List (Nat × TaskCtx)) : Plan Row → Att Row × Att Row → Prop
  | .node k tc cs, a =>
    if k.isNet then ∃ as, ObservedAll next (next + 1) (fun _ => stageTasks k.tasks) cs as ∧ a.1.parts = k.netParts
      ∧ (∀ w ctx q, Pulled rows st next k runs ctx q (a.1.seen w ctx q))
      ∧ Computes rows st next k runs (as.getD 0 (.none, .none)).2 ∧ a.2 = a.1
    else ∃ as, ObservedAll above next (runsBelow k runs) cs as ∧ a.1.parts = (Plan.node k tc cs).parts
      ∧ (∀ w ctx q, Shows false k as w ctx q (a.1.seen w ctx q))
      ∧ a.2 = if k.isHead then (as.getD 0 (.none, .none)).1 else a.1
/-- `Observed` on every child (`/repo/src/execution_plans`). -/
def ObservedAll (above next : Nat) (runs : Nat → List (Nat × TaskCtx)) : List (Plan Row) → List (Att Row × Att Row) → Prop
  | [], as => as = []
  | c :: cs, as => ∃ a rest, as = a :: rest ∧ Observed above next (runs 0) c a
      ∧ ObservedAll above (next + (sites above next (runs 0) c).length) (fun i => runs (i + 1)) cs rest
end

/-- What the client has received in the state `st` of the query: partition 0 of the head stage, which runs on the coordinator,
`/repo/src/coordinator/distributed.rs:179-247`. -/
def ClientGot (p : Plan Row) (s : Seen Row) : Prop :=
  ∃ a, Observed rows st 0 1 [(0, ⟨0, 1⟩)] p a ∧ s = a.1.seen false ⟨0, 1⟩ 0

end DD.Net
