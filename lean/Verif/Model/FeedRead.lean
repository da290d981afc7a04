/-
What a leaf reads from its remote feed, and what its metrics say.

Models `RemoteFeedProvider::feed` (`/repo/src/work_unit_feed/remote_work_unit_feed.rs:119-213`) from the receiver on, and the four times a
work unit carries: `created` and `sent` are read from the clock of the coordinator (remote_work_unit_feed.rs:74, :84-91 with
`/repo/src/coordinator/query_coordinator.rs:172`), `received` and `processed` from that of the worker (remote_work_unit_feed.rs:93-102
with `/repo/src/worker/impl_coordinator_channel.rs:125`, and :184). The clocks are `SystemTime` (`/repo/src/common/time.rs:5-14`), and
differences are taken with `-` on `usize`, which panics in builds that check for overflow and wraps in the others.
-/
import Verif.Model.Boundary

namespace DD.FeedRead

/-- The number of values of `usize` (64 bits). -/
def word : Nat := 18446744073709551616

/-- `MaybeEncoded`, `/repo/src/common/maybe_encoded.rs:15-18`: bytes, or the value itself if the worker is in the same process, of
some type `A`. -/
inductive Body (A : Type) where
  | encoded (bytes : List Nat)
  | decoded (a : A)

/-- `WorkUnitMsg`, `/repo/src/protocol/worker_channel.rs:100-115`, without feed id and partition, by which it has been sorted into the
queue of this receiver (`Model/WorkUnit.lean`). -/
structure Unit' (A : Type) where
  body : Body A
  created : Nat
  sent : Nat
  received : Nat

/-- The metrics of one call, remote_work_unit_feed.rs:124-138. Of a percentile, the values given to the sketch
(`Model/Percentile.lean`). `elapsed_compute` is left out. -/
structure Metrics where
  bytes : Nat := 0
  inMemory : Nat := 0
  count : Nat := 0
  sendMax : Nat := 0
  sendAll : List Nat := []
  receivedMax : Nat := 0
  receivedAll : List Nat := []
  processedMax : Nat := 0
  processedAll : List Nat := []
  deriving DecidableEq, Repr

/-- `a - b` on `usize`: `none` is a panic. remote_work_unit_feed.rs:196-203. -/
def minus (checked : Bool) (a b : Nat) : Option Nat :=
  if b ≤ a then some (a - b) else if checked then none else some (a + word - b)

/-- `MaxLatencyMetric::add_nanos`, `/repo/src/metrics/latency_metric.rs:197-199`. -/
def addMax (m nanos : Nat) : Nat := max m (max nanos 1)

variable {A U : Type}

/-- The types and codec of a feed: `T::decode` and `downcast::<T>`, remote_work_unit_feed.rs:168-180. -/
structure Feed (A U : Type) where
  decode : List Nat → Except String U
  downcast : A → Option U

/-- The latencies of one unit, remote_work_unit_feed.rs:194-203: in this order, so that a panic leaves those before it recorded. -/
def latencies (checked : Bool) (m : Metrics) (u : Unit' A) (processed : Nat) : Metrics × Bool :=
  let m := { m with count := m.count + 1 }
  match minus checked u.sent u.created with
  | none => (m, false)
  | some l =>
    let m := { m with sendMax := addMax m.sendMax l, sendAll := m.sendAll ++ [l] }
    match minus checked u.received u.created with
    | none => (m, false)
    | some l =>
      let m := { m with receivedMax := addMax m.receivedMax l, receivedAll := m.receivedAll ++ [l] }
      match minus checked processed u.created with
      | none => (m, false)
      | some l => ({ m with processedMax := addMax m.processedMax l, processedAll := m.processedAll ++ [l] }, true)

/-- What the leaf gets for one item of the queue, remote_work_unit_feed.rs:163-207; `processed` is what the clock of the worker shows then.
`none` is a panic. -/
def item (f : Feed A U) (checked : Bool) (m : Metrics) : Except Err (Unit' A) × Nat → Metrics × Option (Except Err U)
  | (.error e, _) => (m, some (.error e))
  | (.ok u, processed) =>
    let unit : Metrics × Except Err U := match u.body with
      | .encoded bs =>
        ({ m with bytes := m.bytes + bs.length }, match f.decode bs with
          | .ok v => .ok v
          | .error e => .error (.internal e))
      | .decoded a => match f.downcast a with
        | some v => ({ m with inMemory := m.inMemory + 1 }, .ok v)
        | none => (m, .error (.exec "Expected WorkUnit of type"))
    match unit with
    | (m, .error e) => (m, some (.error e))
    | (m, .ok v) => match latencies checked m u processed with
      | (m, true) => (m, some (.ok v))
      | (m, false) => (m, none)

/-- The stream of one call, polled to its end: remote_work_unit_feed.rs:161-207. Errors are items, and the stream goes on after them; a
panic ends it. The metrics, the items, and whether the stream ended without a panic. -/
def read (f : Feed A U) (checked : Bool) : Metrics → List (Except Err (Unit' A) × Nat) → Metrics × List (Except Err U) × Bool
  | m, [] => (m, [], true)
  | m, x :: xs =>
    match item f checked m x with
    | (m, none) => (m, [], false)
    | (m, some r) =>
      let rest := read f checked m xs
      (rest.1, r :: rest.2.1, rest.2.2)

/-- The true times of a unit: when the coordinator makes it and sends it, when the worker takes it from the network and when the leaf has
read it. remote_work_unit_feed.rs:62-102 and :184. -/
structure Life where
  created : Nat
  sent : Nat
  received : Nat
  processed : Nat

/-- What arrives in the queue, and what the clock shows when it is read: each machine reads its own clock. remote_work_unit_feed.rs:62-102
and :184. -/
def stamped (coordinator worker : Nat → Nat) (b : Body A) (l : Life) : Except Err (Unit' A) × Nat :=
  (.ok ⟨b, coordinator l.created, coordinator l.sent, worker l.received⟩, worker l.processed)

end DD.FeedRead
