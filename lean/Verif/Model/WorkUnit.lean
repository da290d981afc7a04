/-
Work unit feeds: from the coordinator-side feeds, through the coordinator→worker stream, to the
worker-side receivers.

Models `coordinator_to_worker_task` (`/repo/src/coordinator/query_coordinator.rs:270-338`), the message
loop of `/repo/src/worker/impl_coordinator_channel.rs:123-158`, and
`/repo/src/work_unit_feed/remote_work_unit_feed.rs`.
-/
import Verif.Model.Boundary
import Verif.Model.Worker

namespace DD.WU

open DD.Worker (upd)

/-- A receiver/sender pair is keyed by feed id and local partition,
`/repo/src/work_unit_feed/remote_work_unit_feed.rs:20-21`. -/
abbrev Key := Nat × Nat

/-- A node with a work unit feed, as seen by the coordinator for one task: the feed id, the node's
partition count, the task index of the node's context, and the sequences produced by
`wuf.feed(feed_idx)` for every *global* partition index (each item may be an error).
`/repo/src/coordinator/query_coordinator.rs:270-338`. -/
structure Node (U : Type) where
  id : Nat
  partitions : Nat
  taskIndex : Nat
  feed : Nat → List (Except Err U)

/-- `(start_partition..end_partition).enumerate()`, `query_coordinator.rs:291-307`: local partition `p`
streams the feed of global partition `partitions * task_index + p`. -/
def Node.localFeed {U} (n : Node U) (p : Nat) : List (Except Err U) :=
  if p < n.partitions then n.feed (n.partitions * n.taskIndex + p) else []

/-- `CoordinatorToWorkerMsg`, restricted to work units; a unit is tagged with feed id and local
partition. `/repo/src/work_unit_feed/remote_work_unit_feed.rs:62-82`. -/
inductive Msg (U : Type) where
  | batch (units : List (Key × U))
  | eos

/-- How far the coordinator's sending task is. `/repo/src/coordinator/query_coordinator.rs:270-338`. -/
inductive Phase where
  | running
  /-- every feed was drained -/
  | finished
  /-- a feed produced an error, or the task was aborted with the query -/
  | failed
  deriving DecidableEq

/-- Everything between the feeds and the leaf nodes of one task.
`query_coordinator.rs:270-338`, `impl_coordinator_channel.rs:123-158`, `remote_work_unit_feed.rs:20-60`. -/
structure State (U : Type) where
  /-- what each feed has still to produce, per feed id and local partition -/
  remaining : Key → List (Except Err U)
  /-- the chunk being collected for each feed id (`ready_chunks`), oldest first -/
  chunk : Nat → List (Nat × Except Err U)
  phase : Phase
  /-- messages in flight -/
  wire : List (Msg U)
  /-- the receiving end of the coordinator's message channel still exists -/
  connected : Bool
  /-- the worker's `work_unit_senders` map still exists -/
  sendersAlive : Bool
  /-- keys removed from the map because their receiver was gone -/
  rxDropped : Key → Bool
  /-- units queued for each receiver -/
  queue : Key → List U
  /-- units the leaf has pulled from each receiver -/
  got : Key → List U
  /-- the receiver has observed the end of its feed -/
  sawEnd : Key → Bool

/-- `build_work_unit_batch_msg`, `/repo/src/work_unit_feed/remote_work_unit_feed.rs:62-82`: the first
error in the chunk fails the whole message. -/
def buildBatch {U} (id : Nat) : List (Nat × Except Err U) → Except Err (List (Key × U))
  | [] => .ok []
  | (_, .error e) :: _ => .error e
  | (p, .ok u) :: rest =>
    match buildBatch id rest with
    | .ok us => .ok (((id, p), u) :: us)
    | .error e => .error e

/-- Steps of the coordinator's task, of the worker's message loop and of the leaf nodes.
`query_coordinator.rs:270-338`, `impl_coordinator_channel.rs:123-158`, `remote_work_unit_feed.rs:119-165`. -/
inductive Step where
  /-- `select_all` yields the next item of partition `p` of feed `id` into the current chunk -/
  | pull (id p : Nat)
  /-- the chunk of feed `id` is turned into a message and sent -/
  | flush (id : Nat)
  /-- the sending task ends, dropping its guard -/
  | finish
  /-- the sending task is aborted (the query was dropped), dropping its guard -/
  | abort
  /-- the worker handles the next message -/
  | deliver
  /-- the coordinator→worker stream ends or breaks -/
  | close
  /-- the leaf polls its receiver -/
  | recv (k : Key)
  /-- the leaf drops its receiver -/
  | dropRx (k : Key)

variable {U : Type}

/-- Handling of one work unit, `impl_coordinator_channel.rs:132-147`: units for unknown keys are
skipped, a failed send removes the sender. -/
def deliverUnit (declared : Key → Bool) (rxDropped : Key → Bool) (q : Key → List U) (u : Key × U) :
    Key → List U :=
  if declared u.1 && !rxDropped u.1 then upd q u.1 (q u.1 ++ [u.2]) else q

/-- `tx.send`: after the stream is gone the message is lost. `query_coordinator.rs:270-338`. -/
def sendMsg (s : State U) (m : Msg U) : List (Msg U) :=
  if s.connected then s.wire ++ [m] else s.wire

/-- One step. Feeds are pulled and flushed only while the sending task runs. Each case cites its lines. -/
def step (nodes : List (Node U)) (declared : Key → Bool) (s : State U) : Step → State U
  | .pull id p =>
    match s.phase, s.remaining (id, p) with
    | .running, x :: rest =>
      { s with
        remaining := upd s.remaining (id, p) rest
        chunk := upd s.chunk id (s.chunk id ++ [(p, x)]) }
    | _, _ => s
  | .flush id =>
    match s.phase, s.chunk id with
    | .running, c :: cs =>
      match buildBatch id (c :: cs) with
      | .ok us =>
        if s.connected then { s with chunk := upd s.chunk id [], wire := sendMsg s (.batch us) }
        -- the send fails: the feed's future stops and drops its streams
        else { s with
          chunk := upd s.chunk id []
          remaining := fun k => if k.1 = id then [] else s.remaining k }
      -- `?` returns from the feed's future, `try_join_all` drops the others, the guard sends EOS
      | .error _ => { s with phase := .failed, wire := sendMsg s .eos }
    | _, _ => s
  | .finish =>
    match s.phase with
    | .running =>
      if (nodes.all fun n => (s.chunk n.id).isEmpty &&
          (List.range n.partitions).all fun p => (s.remaining (n.id, p)).isEmpty) then
        { s with phase := .finished, wire := sendMsg s .eos }
      else s
    | _ => s
  | .abort =>
    match s.phase with
    | .running => { s with phase := .failed, wire := sendMsg s .eos }
    | _ => s
  | .deliver =>
    match s.wire with
    | [] => s
    | .eos :: rest => { s with wire := rest, sendersAlive := false }
    | .batch us :: rest =>
      if s.sendersAlive then
        { s with wire := rest, queue := us.foldl (deliverUnit declared s.rxDropped) s.queue }
      else { s with wire := rest }
  | .close => { s with wire := [], connected := false, sendersAlive := false }
  | .recv k =>
    if s.rxDropped k || !declared k then s
    else match s.queue k with
    | u :: rest => { s with queue := upd s.queue k rest, got := upd s.got k (s.got k ++ [u]) }
    | [] => if s.sendersAlive then s else { s with sawEnd := upd s.sawEnd k true }
  | .dropRx k => { s with rxDropped := upd s.rxDropped k true, queue := upd s.queue k [] }

/-- Which `(id, partition)` pairs the task declares: `task_specialized_plan` pushes one declaration per
node (`query_coordinator.rs:360-364`), `RemoteWorkUnitFeedRegistry::add` registers `0..partitions`
(`remote_work_unit_feed.rs:48-59`). -/
def declaredBy (nodes : List (Node U)) (k : Key) : Bool :=
  nodes.any fun n => n.id == k.1 && decide (k.2 < n.partitions)

/-- The units of feed `k` over all nodes (ids are unique, so at most one node contributes). `query_coordinator.rs:280-310`. -/
def feedOf (nodes : List (Node U)) (k : Key) : List (Except Err U) :=
  match nodes.find? fun n => n.id == k.1 with
  | some n => n.localFeed k.2
  | none => []

/-- The state when the task starts. `query_coordinator.rs:270-290`, `impl_coordinator_channel.rs:33-75`. -/
def init (nodes : List (Node U)) : State U where
  remaining := feedOf nodes
  chunk := fun _ => []
  phase := .running
  wire := []
  connected := true
  sendersAlive := true
  rxDropped := fun _ => false
  queue := fun _ => []
  got := fun _ => []
  sawEnd := fun _ => false

/-- A schedule: any list of steps (`query_coordinator.rs:270-338`, `impl_coordinator_channel.rs:123-158`). -/
def run (nodes : List (Node U)) (steps : List Step) : State U :=
  steps.foldl (step nodes (declaredBy nodes)) (init nodes)

/-! ### The worker-side registry of receivers -/

/-- `RemoteWorkUnitFeedRegistry::add`, `/repo/src/work_unit_feed/remote_work_unit_feed.rs:48-59`, for
one declaration. The registry maps a key to `Some rx` (true: not yet taken). -/
def Registry.add (r : Key → Option Bool) (id partitions : Nat) : Key → Option Bool := fun k =>
  if k.1 = id ∧ k.2 < partitions then
    match r k with
    | some b => some b
    | none => some true
  else r k

/-- All declarations of a `SetPlanRequest`, `impl_coordinator_channel.rs:38-41`. -/
def Registry.ofDecls (decls : List (Nat × Nat)) : Key → Option Bool :=
  decls.foldl (fun r d => Registry.add r d.1 d.2) (fun _ => none)

/-- `RemoteFeedProvider::feed`, `/repo/src/work_unit_feed/remote_work_unit_feed.rs:119-165`, as far as
obtaining the receiver: `true` if handed out. -/
def Registry.feed (r : Key → Option Bool) (k : Key) : (Key → Option Bool) × Except Err Unit :=
  match r k with
  | none => (r, .error (.exec "missing feed"))
  | some false => (r, .error (.exec "already consumed"))
  | some true => (upd r k (some false), .ok ())

/-- A sequence of feed requests: the registry afterwards. `/repo/src/work_unit_feed/remote_work_unit_feed.rs:119-165`. -/
def Registry.after (r : Key → Option Bool) (reqs : List Key) : Key → Option Bool :=
  reqs.foldl (fun r k => (Registry.feed r k).1) r

end DD.WU
