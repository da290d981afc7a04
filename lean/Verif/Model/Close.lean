/-
The life of a distributed query on the coordinator, as seen by the coordinator-to-worker channels.

Models `/repo/src/coordinator/distributed.rs:198-246` (the driver task of `DistributedExec::execute`) and
`/repo/src/coordinator/query_coordinator.rs:95-108, 136-223, 270-338, 428-438` (`end_query_guard`,
`drain_pending_tasks`, `send_plan_task`, `coordinator_to_worker_task`, `keep_stream_alive`,
`NotifyGuard`).
-/
namespace DD.Close

/-- One coordinator-to-worker channel, query_coordinator.rs:162-189.
* `tx`: some `UnboundedSender` of the channel is alive. It is created by `send_plan_task` and lives in
  the task spawned by `coordinator_to_worker_task` (query_coordinator.rs:326-336).
* `waiting`: the tail `keep_stream_alive` holds an `OwnedNotified`. It is created with the stream
  (query_coordinator.rs:428-430), and tokio's `notify_waiters` reaches every such future that exists at
  the time of the call, polled or not.
* `notified`: that future has completed.
* `open`: the task that talks to the worker (query_coordinator.rs:195-220) has not finished. -/
structure Chan where
  tx : Bool
  waiting : Bool
  notified : Bool
  open_ : Bool
  deriving Repr, DecidableEq

/-- The stream of requests towards the worker ends: all messages sent and no sender left, then the tail
completed (`UnboundedReceiverStream::new(rx).map(..).chain(keep_stream_alive(..))`). Messages already
queued are finitely many and are not modelled here (see `Model/WorkUnit.lean`).
`/repo/src/coordinator/query_coordinator.rs:178-189`, `:428-430`. -/
def Chan.ended (c : Chan) : Bool := !c.tx && c.notified

/-- Where the driver task is. `/repo/src/coordinator/distributed.rs:198-246`. -/
inductive Phase where
  | notStarted   -- spawned, not polled yet
  | preparing    -- guard created, `prepare_static_plan` / `prepare_dynamic_plan` running
  | streaming    -- head stage executing
  | draining     -- `drop(tx); drop(guard);` done, in `drain_pending_tasks`
  | finished     -- returned `Ok(())`: the result stream ends
  | failed       -- returned `Err`: the result stream ends with an error
  | dropped      -- the result stream was dropped, which aborts the driver
  deriving Repr, DecidableEq

/-- The driver task (`/repo/src/coordinator/distributed.rs:198-246`) and the channels it opened (`/repo/src/coordinator/query_coordinator.rs:136-223`). -/
structure State where
  phase : Phase
  chans : List Chan
  deriving Repr, DecidableEq

/-- Before `DistributedExec::execute` spawned its task, `/repo/src/coordinator/distributed.rs:198`. -/
def State.init : State := ⟨.notStarted, []⟩

/-- `NotifyGuard::drop` calls `notify_waiters`, query_coordinator.rs:434-438. -/
def notifyAll (cs : List Chan) : List Chan :=
  cs.map fun c => { c with notified := c.notified || c.waiting }

/-- `QueryCoordinator` dropped with its `JoinSet`: every background task is aborted, which drops the
senders and the client futures. (Abort is asynchronous in tokio; here it is one step.) -/
def abortAll (cs : List Chan) : List Chan :=
  cs.map fun c => { c with tx := false, open_ := false }

/-- Leaving the driver early, by `?`, panic or abort: the guard and the coordinator are dropped.
`/repo/src/coordinator/distributed.rs:198-246`, `/repo/src/coordinator/query_coordinator.rs:434-438`. -/
def leave (p : Phase) (s : State) : State := ⟨p, abortAll (notifyAll s.chans)⟩

/-- `/repo/src/coordinator/distributed.rs:198-246`, `/repo/src/coordinator/query_coordinator.rs:95-108, 136-223, 270-338`. -/
inductive Step where
  | start                 -- first poll: `end_query_guard()`
  | open_                 -- `send_plan_task` + `coordinator_to_worker_task` succeed
  | openFails (i : Bool)  -- one of them fails: before (`false`) or after (`true`) the channel exists
  | prepared              -- planning done
  | error                 -- `?` on planning or on executing the head stage
  | streamEnds            -- the head stage's stream ended, or nobody receives any more
  | feedEnds (c : Nat)    -- the feed task of channel `c` returns (feeds exhausted or failed)
  | responseEnds (c : Nat)-- the worker closed its side after the end of the requests
  | connectionFails (c : Nat)
  | drained (ok : Bool)   -- `join_all` returned; `ok` iff every task returned `Ok`
  | drop                  -- the user drops the result stream
  deriving Repr, DecidableEq

/-- Changes one channel of the list; not a function of the code, used by `step` for the per-channel tasks of `/repo/src/coordinator/query_coordinator.rs:195-220`. -/
def modify (cs : List Chan) (i : Nat) (f : Chan → Chan) : List Chan :=
  match cs[i]? with
  | some c => cs.set i (f c)
  | none => cs

/-- A new channel, query_coordinator.rs:162-189. -/
def newChan : Chan := { tx := true, waiting := true, notified := false, open_ := true }

/-- One step; a step that is not enabled changes nothing.
`/repo/src/coordinator/distributed.rs:198-246`, `/repo/src/coordinator/query_coordinator.rs:95-108, 136-223, 270-338`. -/
def step (s : State) : Step → State
  | .start => if s.phase = .notStarted then { s with phase := .preparing } else s
  | .open_ => if s.phase = .preparing then { s with chans := s.chans ++ [newChan] } else s
  | .openFails made =>
    if s.phase = .preparing then
      leave .failed (if made then { s with chans := s.chans ++ [newChan] } else s)
    else s
  | .prepared => if s.phase = .preparing then { s with phase := .streaming } else s
  | .error => if s.phase = .preparing ∨ s.phase = .streaming then leave .failed s else s
  | .streamEnds =>
    if s.phase = .streaming then { phase := .draining, chans := notifyAll s.chans } else s
  | .feedEnds c => { s with chans := modify s.chans c fun x => { x with tx := false } }
  | .responseEnds c =>
    { s with chans := modify s.chans c fun x => if x.ended then { x with open_ := false } else x }
  | .connectionFails c => { s with chans := modify s.chans c fun x => { x with open_ := false } }
  | .drained ok =>
    if s.phase = .draining ∧ s.chans.all (fun c => !c.tx && !c.open_) then
      { s with phase := if ok then .finished else .failed }
    else s
  | .drop =>
    if s.phase = .finished ∨ s.phase = .failed ∨ s.phase = .dropped then s else leave .dropped s

/-- A history: any list of steps (`/repo/src/coordinator/distributed.rs:198-246`). -/
def run (s : State) (l : List Step) : State := l.foldl step s

end DD.Close
