/-
The metrics a query shows about sending its plans to the workers.

Models `/repo/src/coordinator/latency_metric.rs` (`LatencyMetric`), `/repo/src/coordinator/query_coordinator.rs:440-477`
(`CoordinatorToWorkerMetrics`), their use at `/repo/src/coordinator/query_coordinator.rs:191-220` (the task that `send_plan_task` spawns
for every channel), `:99-108` (`drain_pending_tasks`) and the counter of `/repo/src/protocol/grpc/worker_client.rs:80-85`.

The metrics are written by tasks that run at the same time: a history is any sequence of their steps. Each step does one atomic access,
or several between which nobody else looks.
-/
namespace DD.SendMetrics

/-- The word size of the counters (`AtomicU64`, `AtomicUsize`), `/repo/src/coordinator/latency_metric.rs:11-17`. -/
def word : Nat := 2 ^ 64

/-- Where the task of one channel is, `/repo/src/coordinator/query_coordinator.rs:195-220`. -/
inductive Task where
  | spawned   -- not polled yet
  | started   -- waits for a client, or for the answer to the plan
  | sent      -- passes messages on
  | ended     -- returned, failed or aborted: its clone of the metrics is dropped
  deriving Repr, DecidableEq

/-- `CoordinatorToWorkerMetrics` with its clones (query_coordinator.rs:191, :440-447) and `LatencyMetric` (latency_metric.rs:11-17).
`coordinator`: the `QueryCoordinator`, which holds the first clone, is alive. `shownMax` and `shownAvg` are the `Time`s `max` and `avg`, in
nanoseconds; `bytes` is the sum of the `plan_bytes_sent` of all channels. -/
structure State where
  coordinator : Bool := true
  tasks : List Task := []
  local_ : Nat := 0
  remote : Nat := 0
  bytes : Nat := 0
  maxMicros : Nat := 0
  sumMicros : Nat := 0
  countMicros : Nat := 0
  shownMax : Nat := 0
  shownAvg : Nat := 0
  deriving Repr, DecidableEq

/-- Some clone of the metrics is alive. `Arc<LatencyMetric>`, query_coordinator.rs:445. -/
def State.held (s : State) : Bool := s.coordinator || s.tasks.any (· != .ended)

/-- `Time::add_duration(Duration::from_micros(..))` (DataFusion): at least one nanosecond is added. Called at latency_metric.rs:21-27. -/
def addMicros (shown micros : Nat) : Nat := (shown + max (micros * 1000 % word) 1) % word

/-- `LatencyMetric::drop`, latency_metric.rs:19-29, when the last clone is gone. -/
def State.release (s : State) : State :=
  if s.held then s
  else { s with shownMax := addMicros s.shownMax s.maxMicros
                shownAvg := addMicros s.shownAvg (s.sumMicros / max s.countMicros 1) }

/-- `/repo/src/coordinator/query_coordinator.rs:99-108`, `:191-220`. -/
inductive Step where
  | spawn                                    -- `send_plan_task` spawns the task of a channel
  | start (i : Nat) (inProcess : Bool)       -- its first poll
  | sent (i micros : Nat) (bytes : Option Nat) -- the worker answered; `bytes` of the plan if it was encoded
  | ends (i : Nat)                           -- the task returns, fails or is aborted
  | drained                                  -- `drain_pending_tasks` returned, which drops the coordinator
  | abandoned                                -- the coordinator is dropped before: the query failed or was dropped
  deriving Repr, DecidableEq

/-- `LatencyMetric::record`, latency_metric.rs:55-60. -/
def State.record (s : State) (micros : Nat) : State :=
  { s with maxMicros := max s.maxMicros (micros % word)
           sumMicros := (s.sumMicros + micros % word) % word
           countMicros := (s.countMicros + 1) % word }

/-- One step; `none` if it cannot happen in this state.
`/repo/src/coordinator/query_coordinator.rs:99-108`, `:191-220`, `/repo/src/protocol/grpc/worker_client.rs:80-85`. -/
def step (s : State) : Step → Option State
  | .spawn => if s.coordinator then some { s with tasks := s.tasks ++ [.spawned] } else none
  | .start i inProcess =>
    if s.tasks[i]? = some .spawned then
      let s := { s with tasks := s.tasks.set i .started }
      some (if inProcess then { s with local_ := (s.local_ + 1) % word } else { s with remote := (s.remote + 1) % word })
    else none
  | .sent i micros bytes =>
    if s.tasks[i]? = some .started then
      some ({ s with tasks := s.tasks.set i .sent
                     bytes := (s.bytes + bytes.getD 0) % word }.record micros)
    else none
  | .ends i =>
    match s.tasks[i]? with
    | none => none
    | some .ended => none
    | some _ => some { s with tasks := s.tasks.set i .ended }.release
  | .drained =>
    if s.coordinator && s.tasks.all (· == .ended) then some { s with coordinator := false }.release else none
  | .abandoned => if s.coordinator then some { s with coordinator := false }.release else none

/-- A history, `none` if it cannot happen. `/repo/src/coordinator/query_coordinator.rs:99-108`, `:191-220`. -/
def run : State → List Step → Option State
  | s, [] => some s
  | s, a :: l => (step s a).bind fun s => run s l

end DD.SendMetrics
