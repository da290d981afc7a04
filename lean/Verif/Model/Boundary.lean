/-
Network boundaries: which remote partition streams each consumer task pulls.

Models `/repo/src/execution_plans/network_coalesce.rs`, `network_shuffle.rs`, `network_broadcast.rs`
and `broadcast.rs` (partition arithmetic only; the streams themselves are modelled in
`Model/BroadcastQueue.lean` and `Model/Connection.lean`).
-/
namespace DD

/-- Errors a modelled call can return. Messages are dropped, only the failing site is kept.
The macros are DataFusion's (`plan_err!` and so on, e.g. `/repo/src/execution_plans/network_shuffle.rs:122-127`); `panic` stands for `unwrap`, indexing and overflow. -/
inductive Err where
  | plan (site : String)      -- plan_err!
  | exec (site : String)      -- exec_err!
  | internal (site : String)  -- internal_err!
  | notImpl (site : String)   -- not_impl_err!
  | panic (site : String)     -- a Rust panic (index out of bounds, division by zero, ...)
  | user (code : Nat)         -- an error coming from user code / an input stream
  deriving Repr, DecidableEq

/-- `DistributedTaskContext`, `/repo/src/stage.rs:209-213`. -/
structure TaskCtx where
  index : Nat
  count : Nat
  deriving Repr, DecidableEq

/-- Rust's `usize::div_ceil`; the divisor is non-zero at every modelled call site.
Used at `/repo/src/execution_plans/network_coalesce.rs:288-293`. -/
def divCeil (a b : Nat) : Nat := (a + b - 1) / b

/-- One remote pull: `WorkerConnectionPool::execute(remote_stage, lo..hi, task, partition, ..)`,
`/repo/src/worker/worker_connection_pool.rs:46-54`. The whole range `lo..hi` is requested from producer
task `task`, and the stream of `partition` is consumed. -/
structure Pull where
  task : Nat
  partition : Nat
  lo : Nat
  hi : Nat
  deriving Repr, DecidableEq

/-! ### NetworkCoalesceExec -/

/-- `TaskGroup`, `/repo/src/execution_plans/network_coalesce.rs:361-373`. -/
structure TaskGroup where
  start : Nat
  len : Nat
  maxLen : Nat
  deriving Repr, DecidableEq

/-- `task_group`, `/repo/src/execution_plans/network_coalesce.rs:376-400`. -/
def taskGroup (inputTasks taskIndex taskCount : Nat) : TaskGroup :=
  if taskCount = 0 then ⟨0, 0, 0⟩
  else
    let base := inputTasks / taskCount
    let extra := inputTasks % taskCount
    { start := taskIndex * base + min taskIndex extra
      len := base + (if taskIndex < extra then 1 else 0)
      maxLen := base + (if 0 < extra then 1 else 0) }

/-- The parts of `NetworkCoalesceExec` that decide routing: the advertised partition count
(`properties.partitioning.partition_count()`) and the input stage's task count.
`/repo/src/execution_plans/network_coalesce.rs:78-83`. -/
structure CoalesceExec where
  outPartitions : Nat
  inputTasks : Nat
  deriving Repr, DecidableEq

/-- `NetworkCoalesceExec::try_from_stage` + `try_new`,
`/repo/src/execution_plans/network_coalesce.rs:86-142`. `p` is the partition count of the input plan.
Range partitionings (rejected by `scale_partitioning`) are not represented here. -/
def CoalesceExec.tryNew (p producerTasks consumerTasks : Nat) : Except Err CoalesceExec :=
  if consumerTasks = 0 then .error (.plan "NetworkCoalesceExec::try_new")
  else
    let maxInput := max (divCeil producerTasks consumerTasks) 1
    .ok { outPartitions := p * maxInput, inputTasks := producerTasks }

/-- `NetworkCoalesceExec::with_input_stage`, `/repo/src/execution_plans/network_coalesce.rs:199-207`. -/
def CoalesceExec.withInputStage (e : CoalesceExec) (newTasks : Nat) : CoalesceExec :=
  { outPartitions := e.outPartitions * newTasks / max e.inputTasks 1, inputTasks := newTasks }

/-- `NetworkCoalesceExec::execute` on a remote input stage,
`/repo/src/execution_plans/network_coalesce.rs:267-342`. Returns the remote streams the resulting stream
is made of: none for the empty padding stream, one otherwise. -/
def CoalesceExec.execute (e : CoalesceExec) (ctx : TaskCtx) (partition : Nat) : Except Err (List Pull) :=
  if ctx.index ≥ ctx.count then .error (.exec "NetworkCoalesceExec invalid task context")
  else
    let ppt := e.outPartitions / max (divCeil e.inputTasks ctx.count) 1
    if ppt = 0 then .error (.exec "NetworkCoalesceExec has 0 partitions per input task")
    else
      let group := taskGroup e.inputTasks ctx.index ctx.count
      let offset := partition / ppt
      let target := partition % ppt
      if offset ≥ group.len then .ok []
      else if offset ≥ group.maxLen then .error (.internal "NetworkCoalesceExec offset >= max_len")
      else .ok [{ task := group.start + offset, partition := target, lo := 0, hi := ppt }]

/-! ### NetworkShuffleExec and NetworkBroadcastExec -/

/-- The parts of `NetworkShuffleExec` / `NetworkBroadcastExec` that decide routing.
`/repo/src/execution_plans/network_shuffle.rs:100-108`, `network_broadcast.rs:121-125`. -/
structure FanExec where
  outPartitions : Nat
  inputTasks : Nat
  deriving Repr, DecidableEq

/-- `NetworkShuffleExec::execute` (`/repo/src/execution_plans/network_shuffle.rs:221-251`) and
`NetworkBroadcastExec::execute` (`/repo/src/execution_plans/network_broadcast.rs:245-275`) on a remote
input stage: both use the same offset scheme. The resulting stream interleaves (`select_all`) the returned
pulls in any order. -/
def FanExec.execute (e : FanExec) (ctx : TaskCtx) (partition : Nat) : List Pull :=
  let off := e.outPartitions * ctx.index
  (List.range e.inputTasks).map fun j =>
    { task := j, partition := off + partition, lo := off, hi := off + e.outPartitions }

/-- Partition count of the producer's head for a shuffle: `NetworkShuffleExec::producer_head`,
`/repo/src/execution_plans/network_shuffle.rs:158-165` with `scale_partitioning`
(`/repo/src/execution_plans/common.rs:18-30`). -/
def FanExec.headPartitions (e : FanExec) (consumerTasks : Nat) : Nat := e.outPartitions * consumerTasks

/-! ### BroadcastExec -/

/-- `BroadcastExec::new`, `/repo/src/execution_plans/broadcast.rs:83-100`: `inputPartitions` queues, each one
created with `consumerTasks` consumers. -/
structure BroadcastExec where
  inputPartitions : Nat
  consumerTasks : Nat
  deriving Repr, DecidableEq

/-- Output partition count, `/repo/src/execution_plans/broadcast.rs:85`. -/
def BroadcastExec.outPartitions (b : BroadcastExec) : Nat := b.inputPartitions * b.consumerTasks

/-- `ProducerHead::BroadcastExec{output_partitions}.insert(input)`,
`/repo/src/distributed_planner/network_boundary.rs:96-99` (`output_partitions / partitions` panics on zero
input partitions). -/
def BroadcastExec.ofHead (inputPartitions outputPartitions : Nat) : Except Err BroadcastExec :=
  if inputPartitions = 0 then .error (.panic "division by zero partitions")
  else .ok { inputPartitions, consumerTasks := outputPartitions / inputPartitions }

/-- State of `BroadcastExec::queues` relevant to routing: how many consumers are still in each real
partition's `SegQueue` (`none`: queue not initialised yet), `/repo/src/execution_plans/broadcast.rs:167-208`. -/
abbrev BroadcastSt := Nat → Option Nat

/-- No queue is initialised, `/repo/src/execution_plans/broadcast.rs:80-89`. -/
def BroadcastSt.init : BroadcastSt := fun _ => none

/-- `BroadcastExec::execute`, `/repo/src/execution_plans/broadcast.rs:158-215`: which input partition the
returned stream replays. `% 0` and an out-of-bounds index panic; the failure of `input.execute` is not
represented (it is stored and returned to every caller). -/
def BroadcastExec.execute (b : BroadcastExec) (st : BroadcastSt) (partition : Nat) :
    BroadcastSt × Except Err Nat :=
  if b.inputPartitions = 0 then (st, .error (.panic "% 0"))
  else
    let real := partition % b.inputPartitions
    match (st real).getD b.consumerTasks with
    | 0 => (fun r => if r = real then some 0 else st r, .error (.internal "Too many consumers"))
    | n + 1 => (fun r => if r = real then some n else st r, .ok real)

/-- A sequence of `execute` calls on one `BroadcastExec`, in arrival order.
`/repo/src/execution_plans/broadcast.rs:158-215`, called once per request. -/
def BroadcastExec.run (b : BroadcastExec) : BroadcastSt → List Nat → BroadcastSt × List (Except Err Nat)
  | st, [] => (st, [])
  | st, p :: ps =>
    let (st', r) := b.execute st p
    let (st'', rs) := b.run st' ps
    (st'', r :: rs)

end DD
