import Verif.Model.Boundary
/-
The connection pool behind a network boundary. Models `/repo/src/worker/worker_connection_pool.rs:25-141`.

A history is an arbitrary list of `execute` calls and first polls of the streams they returned. A remote stream is
identified by the producer task and the position of its partition. Not modelled: metrics; `JoinError` is an error response.
-/
namespace DD.Pool

/-- The arguments of one `WorkerConnectionPool::execute` call that matter here, `worker_connection_pool.rs:46-54`. -/
structure Call where
  lo : Nat
  hi : Nat
  task : Nat
  partition : Nat
  deriving Repr, DecidableEq

/-- A remote partition stream. worker_connection_pool.rs:25-44. -/
structure Stream where
  task : Nat
  partition : Nat
  deriving Repr, DecidableEq

/-- How the worker of a task answers a request for partitions `lo..hi`: an error, or its partition streams in order.
`WorkerChannel::execute_task` as called at worker_connection_pool.rs:80-106. -/
abbrev Server := Nat → Nat → Nat → Except Err (List Stream)

/-- One initialised slot of `lazy_stream_groups`: the shared result; streams are taken out of their `Mutex<Option<_>>`.
worker_connection_pool.rs:25-44. -/
abbrev Group := Except Err (List (Option Stream))

/-- `WorkerConnectionPool`, worker_connection_pool.rs:25-44, and the streams it has returned. -/
structure State where
  /-- `lazy_stream_groups`, one `OnceLock` per input task -/
  groups : Nat → Option Group := fun _ => none
  /-- requests sent to workers: (task, lo, hi) -/
  requests : List (Nat × Nat × Nat) := []
  /-- the streams returned by the successful `execute` calls so far, by call -/
  handles : List Call := []
  /-- outcome of the first poll of the k-th returned stream -/
  outcome : Nat → Option (Except Err Stream) := fun _ => none

/-- `execute`, `worker_connection_pool.rs:55-119`: bounds checks, then `get_or_init`, which sends the request with the
*first* caller's range. Returns the error of the call itself, if any. -/
def execute (srv : Server) (workers inputTasks : Nat) (s : State) (c : Call) : Except Err State :=
  if c.task ≥ workers then .error (.internal "input_stage.workers out of range")
  else if c.task ≥ inputTasks then .error (.internal "task index not found")
  else
    let s := match s.groups c.task with
      | some _ => s
      | none =>
        { s with groups := fun t => if t = c.task then some ((srv c.task c.lo c.hi).map (List.map some)) else s.groups t
                 requests := s.requests ++ [(c.task, c.lo, c.hi)] }
    .ok { s with handles := s.handles ++ [c] }

/-- First poll of the `k`-th returned stream, `worker_connection_pool.rs:121-135`: index the group with the *caller's*
range start, then take the stream out of its slot. `target_partition - target_partitions.start` underflows (a panic) when
the partition is below the range. -/
def poll (s : State) (k : Nat) : State :=
  match s.handles[k]?, s.outcome k with
  | some c, none =>
    let done (r : Except Err Stream) (groups : Nat → Option Group) : State :=
      { s with groups := groups, outcome := fun j => if j = k then some r else s.outcome j }
    if c.partition < c.lo then done (.error (.panic "partition - start")) s.groups
    else match s.groups c.task with
      | none => s     -- unreachable: the group was initialised by `execute`
      | some (.error e) => done (.error e) s.groups
      | some (.ok slots) =>
        match slots[c.partition - c.lo]? with
        | none => done (.error (.internal "no stream for partition")) s.groups
        | some none => done (.error (.internal "already consumed")) s.groups
        | some (some st) =>
          done (.ok st) (fun t => if t = c.task then some (.ok (slots.set (c.partition - c.lo) none)) else s.groups t)
  | _, _ => s

/-- A call of `execute`, or the first poll of a stream it returned, worker_connection_pool.rs:46-145. -/
inductive Op where
  | execute (c : Call)
  | poll (k : Nat)
  deriving Repr, DecidableEq

/-- worker_connection_pool.rs:46-145. -/
def step (srv : Server) (workers inputTasks : Nat) (s : State) : Op → State
  | .execute c => match execute srv workers inputTasks s c with
    | .ok s' => s'
    | .error _ => s
  | .poll k => poll s k

/-- A history of calls and polls, worker_connection_pool.rs:46-145. -/
def run (srv : Server) (workers inputTasks : Nat) (ops : List Op) : State :=
  ops.foldl (step srv workers inputTasks) {}

end DD.Pool
