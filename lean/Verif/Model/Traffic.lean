import Verif.Model.Demux
import Verif.Model.Stats
import Verif.Model.Times
/-
What a network boundary reports about its traffic. Models the metrics kept in
`/repo/src/protocol/grpc/worker_client.rs:106-117, 224-265, 359-401` (messages, bytes, buffered memory and latencies of a
connection), the time measured by `/repo/src/protocol/grpc/worker_client.rs:597-701` and the rows counted in
`/repo/src/worker/worker_connection_pool.rs:140-143`, on top of the connection of `Model/Demux.lean`.

Not modelled: the percentile latencies (a `DDSketch`, external), `local_connections_used`, and counters beyond 2^64
messages or rows. Every message stands for one batch (schema and dictionary messages have no rows, see
`Model/Batches.lean`).
-/
namespace DD.Traffic
open Demux

/-- `NetworkLatencyMetricValues`, worker_client.rs:359-367, without the percentiles. -/
structure Latencies where
  least : Nat := MetricKind.minLatency.empty
  most : Nat := MetricKind.maxLatency.empty
  first : Nat := MetricKind.first.empty
  total : Nat := 0
  count : Nat := 0
  deriving DecidableEq

/-- `NetworkLatencyMetricValues::add_duration`, worker_client.rs:393-401. `Time::add_duration` (DataFusion) adds at least one
nanosecond. -/
def Latencies.add (l : Latencies) (nanos : Nat) : Latencies :=
  { least := MetricKind.minLatency.record l.least nanos
    most := MetricKind.maxLatency.record l.most nanos
    first := MetricKind.first.record l.first nanos
    total := (l.total + max nanos 1) % wordSize
    count := l.count + 1 }

/-- The metrics of a connection, worker_client.rs:106-117, and the rows counted for each of its partitions,
worker_connection_pool.rs:64-66. -/
structure Meter where
  messages : Nat := 0
  bytes : Nat := MetricKind.bytes.empty
  maxMem : Nat := 0
  /-- `NetworkLatencyMetrics::values`, worker_client.rs:339-342: registered with the first latency -/
  latencies : Option Latencies := none
  rows : Nat → Nat := fun _ => 0

/-- `NetworkLatencyMetrics::add_duration`, worker_client.rs:352-356. -/
def Meter.addLatency (m : Meter) (nanos : Nat) : Meter :=
  { m with latencies := some ((m.latencies.getD {}).add nanos) }

/-- Taking note of a message created at `created` and received at `now`, worker_client.rs:224-230. -/
def Meter.receive (m : Meter) (created now : Nat) : Meter :=
  match Times.messageLatency created now with
  | some d => m.addLatency d
  | none => m

/-- The metrics updated once the partition of a message is known, worker_client.rs:257-264, when `held` bytes were buffered
before it. -/
def Meter.buffer (m : Meter) (held size : Nat) : Meter :=
  { m with messages := m.messages + 1
           bytes := MetricKind.bytes.record m.bytes size
           maxMem := if held + size > m.maxMem then held + size else m.maxMem }

/-- What one iteration of the background task records, worker_client.rs:188-273; `created` is the creation time in the metadata
of a message. -/
def meterTask {α} (created : α → Nat) (c : Cfg α) (s : State α) (now : Nat) (m : Meter) : Meter :=
  if s.aborted then m else
  match s.phase with
  | .done | .waiting => m
  | .running =>
    if s.cancelled then m
    else if s.reserved ≥ c.budget then m
    else match s.wire with
      | .msg p size a :: _ =>
        let m := m.receive (created a) now
        if p < c.start then m
        else if p - c.start < c.n then m.buffer s.reserved size
        else m
      | _ => m

/-- What polling the stream of partition `i` records: `inspect_ok`, worker_connection_pool.rs:140-143. `size` is the number of
rows of a batch. -/
def meterPoll {α} (size : α → Nat) (c : Cfg α) (s : State α) (i : Nat) (m : Meter) : Meter :=
  if i < c.n ∧ (s.chans i).inner = true ∧ (s.chans i).eos = false then
    match (s.chans i).queue with
    | .ok _ a :: _ => { m with rows := upd m.rows i (m.rows i + size a) }
    | _ => m
  else m

/-- A connection with its metrics. `/repo/src/protocol/grpc/worker_client.rs:89-320`. -/
structure Metered (α : Type) where
  conn : State α
  meter : Meter := {}

/-- One step, when the clock reads `now`: `Demux.step`, worker_client.rs:160-320, and what it records. -/
def step {α} (created rows : α → Nat) (c : Cfg α) (s : Metered α) (x : Step × Nat) : Metered α :=
  { conn := Demux.step c s.conn x.1
    meter := match x.1 with
      | .task => meterTask created c s.conn x.2 s.meter
      | .poll i => meterPoll rows c s.conn i s.meter
      | _ => s.meter }

/-- A connection after a schedule, from its beginning (worker_client.rs:89-320). -/
def run {α} (created rows : α → Nat) (c : Cfg α) (steps : List (Step × Nat)) : Metered α :=
  steps.foldl (step created rows c) { conn := init c }

/-! ### Time spent -/

/-- The futures and streams that add to one `Time` (worker_client.rs:275, :304), each with the time it has not added yet: `curr`
of `ElapsedComputeStream` and `ElapsedComputeFuture`, worker_client.rs:626-631, :666-671. -/
structure Clocked where
  /-- the metric `elapsed_compute` -/
  shown : Nat := 0
  /-- the future or stream was dropped -/
  gone : Nat → Bool := fun _ => false
  curr : Nat → Nat := fun _ => 0

/-- Something that happens to one of them: a poll of `inner` that took `nanos` and was ready or not, or the drop. Reading the
clock is external (`Instant`). -/
inductive Tick where
  | poll (i nanos : Nat) (ready : Bool)
  | drop (i : Nat)
  deriving DecidableEq

/-- `poll_next` and `poll`, worker_client.rs:647-661, :687-701, and `drop`, :635-643, :675-683. `Time::add_duration` (DataFusion)
adds at least one nanosecond. A dropped stream is not polled. -/
def Clocked.tick (s : Clocked) : Tick → Clocked
  | .poll i nanos ready =>
    if s.gone i then s
    else if ready then { s with shown := s.shown + max (s.curr i + nanos) 1, curr := upd s.curr i 0 }
    else { s with curr := upd s.curr i (s.curr i + nanos) }
  | .drop i =>
    if s.gone i then s
    else if s.curr i > 0 then { s with shown := s.shown + max (s.curr i) 1, gone := upd s.gone i true }
    else { s with gone := upd s.gone i true }

/-- A history of polls and drops (worker_client.rs:597-701). -/
def Clocked.after (l : List Tick) : Clocked := l.foldl Clocked.tick {}

end DD.Traffic
