/-
The times a query reports: latencies of work units and of messages between workers, and the times at
which a task got its plan, started and finished. All of them compare readings of the clocks of two
machines.

Models `/repo/src/common/time.rs`, `/repo/src/work_unit_feed/remote_work_unit_feed.rs:62-101, 183-208`,
`/repo/src/protocol/grpc/worker_client.rs:215-230`, `/repo/src/worker/task_data.rs:36-90` and the value
kept by `MaxLatencyMetric` (`/repo/src/metrics/latency_metric.rs:183-204`).
-/
namespace DD.Times

/-- Number of values of `u64` and `usize` (64 bits). Rust's std. -/
def word : Nat := 2 ^ 64

/-- `a - b` on unsigned words. With overflow checks (debug builds, `overflow-checks = true`) it panics
(`none`) when the result would be negative, without them it wraps around. Rust's std. -/
def sub (checked : Bool) (a b : Nat) : Option Nat :=
  if b ≤ a then some (a - b) else if checked then none else some (a + word - b)

/-- A clock: what `now_ns` (`common/time.rs:5-14`) reads at each moment. -/
abbrev Clock := Nat → Nat

/-- The four time stamps of a `WorkUnitMsg`. `/repo/src/work_unit_feed/remote_work_unit_feed.rs:62-101`. -/
structure Stamps where
  created : Nat
  sent : Nat
  received : Nat
  processed : Nat

/-- Moments of the life of a work unit. `build_work_unit_batch_msg` and `set_work_unit_send_time` run on
the coordinator (`query_coordinator.rs:172, 315`), `set_work_unit_received_time` and the reading of the
unit on the worker (`impl_coordinator_channel.rs:124`, `remote_work_unit_feed.rs:184`). -/
structure Moments where
  created : Nat
  sent : Nat
  received : Nat
  processed : Nat

/-- The stamps a unit carries, `remote_work_unit_feed.rs:74, 87, 98, 184`. -/
def stamps (coordinator worker : Clock) (m : Moments) : Stamps :=
  ⟨coordinator m.created, coordinator m.sent, worker m.received, worker m.processed⟩

/-- The latencies that reading a unit adds to the metrics `work_unit_{send,received,processed}_latency`,
`remote_work_unit_feed.rs:186-206`; `none`: the leaf panics. -/
def unitLatencies (checked : Bool) (s : Stamps) : Option (Nat × Nat × Nat) :=
  match sub checked s.sent s.created, sub checked s.received s.created,
    sub checked s.processed s.created with
  | some a, some b, some c => some (a, b, c)
  | _, _, _ => none

/-- `MaxLatencyMetric::add_nanos`, `latency_metric.rs:201-203`, starting from 0. -/
def addMax (v nanos : Nat) : Nat := max v (max nanos 1)

/-- The latency of a message between two workers, `worker_client.rs:216, 225-230`: a message without a
creation time, or with one that lies ahead of the receiver's clock, is not counted. -/
def messageLatency (created received : Nat) : Option Nat :=
  if created > 0 ∧ created ≤ received then some (received - created) else none

/-- `TaskDataMetrics`, `task_data.rs:36-45`. -/
structure TaskTimes where
  start : Nat
  added : Nat
  executed : Nat
  finished : Nat
  deriving DecidableEq

/-- `TaskDataMetrics::new` when the worker's clock reads `now`, `task_data.rs:47-58`; `start` is the
coordinator's reading when the query began (`query_coordinator.rs:157, 469`). -/
def TaskTimes.new (start now : Nat) : TaskTimes :=
  { start := start, added := addMax 0 (now - start), executed := 0, finished := 0 }

/-- `mark_execution_started_once`, `task_data.rs:60-66`, called for every `execute_task` request
(`impl_execute_task.rs:35`). -/
def TaskTimes.markStarted (t : TaskTimes) (now : Nat) : TaskTimes :=
  if t.executed = 0 then { t with executed := addMax t.executed (now - t.start) } else t

/-- `mark_execution_finished`, `task_data.rs:68-72`. -/
def TaskTimes.markFinished (t : TaskTimes) (now : Nat) : TaskTimes :=
  { t with finished := addMax t.finished (now - t.start) }

/-- The times of a task that got its plan when the worker's clock read `added`, was asked to execute
partitions when it read each of `asked`, and ended when it read `ended`. `/repo/src/worker/task_data.rs:36-90`. -/
def TaskTimes.after (start added : Nat) (asked : List Nat) (ended : Nat) : TaskTimes :=
  (asked.foldl TaskTimes.markStarted (TaskTimes.new start added)).markFinished ended

end DD.Times
