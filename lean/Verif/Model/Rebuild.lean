/-
Exchanges that are rebuilt.

Rules that walk over a plan rebuild its nodes: with other children, with another input stage, with a limit. Models what becomes of an
exchange: `with_new_children`, `with_input_stage`, `try_new` and `with_fetch_on_input_stage` of
`/repo/src/execution_plans/network_shuffle.rs:108-222`, `network_coalesce.rs:85-260` and `network_broadcast.rs:126-238`.
-/
import Verif.Model.Boundary

namespace DD.Rebuild

/-- The three exchanges, `/repo/src/execution_plans/mod.rs`. -/
inductive Kind where
  | coalesce | shuffle | broadcast
  deriving DecidableEq, Repr

/-- An exchange: the partitions it declares for each consumer task, the partitions and tasks of the plan below, and whether the stage has
been sent to workers. `NetworkShuffleExec` (network_shuffle.rs:100-106), `NetworkCoalesceExec` (network_coalesce.rs:78-83),
`NetworkBroadcastExec` (network_broadcast.rs:120-125). The partitions of a `BroadcastExec` are those of its input. Of a remote stage,
`parts` is what its workers execute. -/
structure Exchange where
  sort : Kind
  declared : Nat
  parts : Nat
  tasks : Nat
  remote : Bool
  deriving DecidableEq, Repr

/-- `try_new`: network_shuffle.rs:120-142, network_coalesce.rs:118-142, network_broadcast.rs:144-164. -/
def tryNew (s : Kind) (parts producers consumers : Nat) : Except Err Exchange :=
  match s with
  | .coalesce => (CoalesceExec.tryNew parts producers consumers).map fun e => ⟨.coalesce, e.outPartitions, parts, producers, false⟩
  | s => .ok ⟨s, parts, parts, producers, false⟩

/-- `with_new_children`, which is the same for all: network_shuffle.rs:203-219, network_coalesce.rs:242-258,
network_broadcast.rs:220-236, with `require_one_child` (`/repo/src/common/children_helpers.rs:6-18`). The children are given by their
number of partitions. -/
def Exchange.withNewChildren (x : Exchange) (children : List Nat) : Except Err Exchange :=
  if x.remote then
    if children = [] then .ok x else .error (.notImpl "NetworkBoundary cannot accept children")
  else match children with
    | [c] => .ok { x with parts := c }
    | _ => .error (.plan "Expected exactly 1 children")

/-- `with_input_stage`: network_shuffle.rs:150-155, network_coalesce.rs:199-208, network_broadcast.rs:167-172. -/
def Exchange.withInputStage (x : Exchange) (parts tasks : Nat) (remote : Bool) : Exchange :=
  match x.sort with
  | .coalesce => { x with
      declared := (CoalesceExec.withInputStage ⟨x.declared, x.tasks⟩ tasks).outPartitions, parts := parts, tasks := tasks
      remote := remote }
  | _ => { x with parts := parts, tasks := tasks, remote := remote }

/-- What a rule may do to an exchange; `fetch` is `with_fetch_on_input_stage`, network_coalesce.rs:144-160, under DataFusion's contract
that a limit on a partition keeps the number of partitions. -/
inductive Op where
  | children (cs : List Nat)
  | stage (parts tasks : Nat) (remote : Bool)
  | fetch (n : Nat)

/-- One of them: network_coalesce.rs:144-260, network_shuffle.rs:150-219, network_broadcast.rs:167-236. -/
def Exchange.apply (x : Exchange) : Op → Except Err Exchange
  | .children cs => x.withNewChildren cs
  | .stage p n r => .ok (x.withInputStage p n r)
  | .fetch _ => .ok x

/-- One after the other (see `Exchange.apply`, network_coalesce.rs:144-260). -/
def Exchange.applyAll (x : Exchange) : List Op → Except Err Exchange
  | [] => .ok x
  | o :: os => match x.apply o with
    | .ok y => y.applyAll os
    | .error e => .error e

/-- What partition `q` of consumer task `i` of `T` reads when the stage has been sent: producer task and partition of what the worker
executes, that is the plan below for `coalesce` (network_coalesce.rs:267-342), the buckets of the hash repartitioning for `shuffle`
(network_shuffle.rs:221-251), and for `broadcast` the partition of the plan below that is replayed (network_broadcast.rs:245-275 with
`/repo/src/execution_plans/broadcast.rs:158-164`). -/
def Exchange.reads (x : Exchange) (ctx : TaskCtx) (q : Nat) : Except Err (List (Nat × Nat)) :=
  match x.sort with
  | .coalesce => (CoalesceExec.execute ⟨x.declared, x.tasks⟩ ctx q).map fun ps => ps.map fun r => (r.task, r.partition)
  | .shuffle => .ok ((FanExec.execute ⟨x.declared, x.tasks⟩ ctx q).map fun r => (r.task, r.partition))
  | .broadcast =>
    if x.parts = 0 then .error (.panic "% 0")
    else .ok ((FanExec.execute ⟨x.declared, x.tasks⟩ ctx q).map fun r => (r.task, r.partition % x.parts))

end DD.Rebuild
