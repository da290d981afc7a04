import Verif.Model.Boundary
/- Per-column statistics helpers, custom metrics and cost expressions. -/
namespace DD

/-! ### `/repo/src/common/vec.rs` -/

/-- `element_wise_sum`, `/repo/src/common/vec.rs:16-28` (the `as` cast between element types is the identity here). -/
def elementWiseSum {α} [Add α] (one other : List α) : Except Err (List α) :=
  if one.length ≠ other.length then .error (.internal "element wise sum of different lengths")
  else .ok (List.zipWith (· + ·) one other)

/-- `vec_mul`, `/repo/src/common/vec.rs:31-40`. -/
def vecMul {α} [Mul α] (one : List α) (k : α) : List α := one.map (· * k)

/-- `vec_div`, `/repo/src/common/vec.rs:43-52`. `f32` is modelled by exact rationals. -/
def vecDiv (one : List Rat) (k : Rat) : List Rat := one.map (· / k)

/-- The accumulation loop of `vec_avg_reduce`, `/repo/src/common/vec.rs:66-77`. -/
def avgLoop (acc : List Rat) : List (List Rat) → Except Err (List Rat)
  | [] => .ok acc
  | v :: vs =>
    if v.isEmpty then avgLoop acc vs
    else if acc.length ≠ v.length then .error (.internal "vec_avg_reduce: length mismatch")
    else match elementWiseSum acc v with
      | .error e => .error e
      | .ok acc' => avgLoop acc' vs

/-- `vec_avg_reduce`, `/repo/src/common/vec.rs:56-79`. `n` is `sample_count`, the number of all vectors. -/
def vecAvgReduceAux (n : Nat) : List (List Rat) → Except Err (List Rat)
  | [] => .ok []
  | v :: vs =>
    if v.isEmpty then vecAvgReduceAux n vs
    else match avgLoop v vs with
      | .error e => .error e
      | .ok acc => .ok (vecDiv acc n)

/-- `vec_avg_reduce`, `/repo/src/common/vec.rs:56-79`. `n` is `sample_count`, the number of all vectors. -/
def vecAvgReduce (vecs : List (List Rat)) : Except Err (List Rat) := vecAvgReduceAux vecs.length vecs

/-! ### Custom metrics -/

/-- `usize::MAX + 1` on a 64-bit target; atomic `fetch_add` wraps around. Rust's std. -/
def wordSize : Nat := 2 ^ 64

/-- The kinds of custom metrics: `MinLatencyMetric` (`/repo/src/metrics/latency_metric.rs:101-174`), `MaxLatencyMetric`
(`:176-238`), `BytesCounterMetric` (`/repo/src/metrics/bytes_metric.rs:30-110`), `MaxGaugeMetric`
(`/repo/src/metrics/max_gauge_metric.rs:26-100`) and `FirstLatencyMetric` (`latency_metric.rs:319-387`). -/
inductive MetricKind where
  | minLatency | maxLatency | bytes | maxGauge | first
  deriving Repr, DecidableEq

/-- `Default`. `/repo/src/metrics/latency_metric.rs:106-112`, `bytes_metric.rs:45-51`, `max_gauge_metric.rs:35-41`. -/
def MetricKind.empty : MetricKind → Nat
  | .minLatency => wordSize - 1
  | _ => 0

/-- Recording one value: `add_nanos` / `add_bytes` / `set_max`.
`/repo/src/metrics/latency_metric.rs`, `bytes_metric.rs`, `max_gauge_metric.rs`. -/
def MetricKind.record : MetricKind → Nat → Nat → Nat
  | .minLatency, cur, v => min cur (max v 1)
  | .maxLatency, cur, v => max cur (max v 1)
  | .bytes, cur, v => (cur + v) % wordSize
  | .maxGauge, cur, v => max cur v
  | .first, cur, v => if cur = 0 then max v 1 else cur

/-- `CustomMetricValue::aggregate`. `/repo/src/metrics/latency_metric.rs`, `bytes_metric.rs`, `max_gauge_metric.rs`. -/
def MetricKind.aggregate : MetricKind → Nat → Nat → Nat
  | .minLatency, cur, o => min cur o
  | .maxLatency, cur, o => max cur o
  | .bytes, cur, o => (cur + o) % wordSize
  | .maxGauge, cur, o => max cur o
  | .first, cur, o => if cur = 0 then o else cur

/-- `AvgLatencyMetric`, `/repo/src/metrics/latency_metric.rs:240-315`. -/
structure AvgMetric where
  sum : Nat := 0
  count : Nat := 0
  deriving Repr, DecidableEq

/-- `add_nanos`, latency_metric.rs:240-315. -/
def AvgMetric.record (m : AvgMetric) (v : Nat) : AvgMetric :=
  { sum := (m.sum + max v 1) % wordSize, count := (m.count + 1) % wordSize }
/-- `aggregate`, latency_metric.rs:240-315. -/
def AvgMetric.aggregate (m o : AvgMetric) : AvgMetric :=
  { sum := (m.sum + o.sum) % wordSize, count := (m.count + o.count) % wordSize }
/-- `value`, latency_metric.rs:240-315. -/
def AvgMetric.value (m : AvgMetric) : Nat := m.sum / max m.count 1

/-- A way of recording values in several tasks and aggregating them in some order and grouping.
The calls of `MetricsSet::aggregate_by_name` (DataFusion) and `/repo/src/stage.rs:473-511`. -/
inductive AggTree where
  | recorded (vals : List Nat)
  | merge (a b : AggTree)

/-- The values recorded in any task of it (DataFusion's metrics). -/
def AggTree.vals : AggTree → List Nat
  | .recorded vs => vs
  | .merge a b => a.vals ++ b.vals

/-- The metric after recording and aggregating, `/repo/src/metrics`: `latency_metric.rs`, `bytes_metric.rs`, `max_gauge_metric.rs`. -/
def MetricKind.eval (k : MetricKind) : AggTree → Nat
  | .recorded vs => vs.foldl k.record k.empty
  | .merge a b => k.aggregate (k.eval a) (k.eval b)

/-- The metric after recording and aggregating, latency_metric.rs:240-315. -/
def AvgMetric.eval : AggTree → AvgMetric
  | .recorded vs => vs.foldl AvgMetric.record {}
  | .merge a b => (AvgMetric.eval a).aggregate (AvgMetric.eval b)

/-! ### Cost expressions -/

/-- `LinearComplexity`, `/repo/src/distributed_planner/statistics/complexity.rs:19-35`. -/
inductive Linear where
  | column (i : Nat) | allColumns | columnFromLeft (i : Nat) | allColumnsFromLeft
  | columnFromRight (i : Nat) | allColumnsFromRight | allOutputColumns
  deriving Repr, DecidableEq

/-- `Complexity`, `/repo/src/distributed_planner/statistics/complexity.rs:6-17`. `f32` constants are exact rationals. -/
inductive Complexity where
  | constant (v : Rat)
  | linear (l : Linear)
  | log (n m : Complexity)
  | plus (n m : Complexity)
  | multiply (n m : Complexity)
  deriving DecidableEq

namespace Complexity

/-- `Complexity::log`, `complexity.rs:38-43`. `log2` is `f32::log2`. -/
def mkLog (log2 : Rat → Rat) : Complexity → Complexity → Complexity
  | .constant n, .constant m => .constant (n * log2 m)
  | s, o => .log s o

/-- `Complexity::multiply`, `complexity.rs:58-63`. -/
def mkMultiply : Complexity → Complexity → Complexity
  | .constant n, .constant m => .constant (n * m)
  | s, o => .multiply s o

/-- `Complexity::plus`, `complexity.rs:45-56`. -/
def mkPlus : Complexity → Complexity → Complexity
  | .constant n, .constant m => .constant (n + m)
  | .plus a (.constant k), .constant m => mkPlus a (.constant (k + m))
  | s, o => if s = o then mkMultiply (.constant 2) s else .plus s o

/-- The statistics `cost` reads: per child, the total byte size and the byte size per column (absent = `none`).
`/repo/src/distributed_planner/statistics/complexity.rs:66-112`. -/
structure ChildStats where
  total : Option Nat
  cols : List (Option Nat)

/-- `Self::Linear` arm of `cost`, `complexity.rs:75-99`. -/
def linearCost (out : Option Nat) (inputs : List ChildStats) : Linear → Option Nat
  | .column i | .columnFromLeft i => do let c ← inputs.head?; (← c.cols[i]?)
  | .allColumns | .allColumnsFromLeft => do let c ← inputs.head?; c.total
  | .columnFromRight i => do let c ← inputs.getLast?; (← c.cols[i]?)
  | .allColumnsFromRight => do let c ← inputs.getLast?; c.total
  | .allOutputColumns => out

/-- `*v as usize` for an `f32`: truncation, saturating at `0` and at `M = usize::MAX`. -/
def castUsize (M : Nat) (v : Rat) : Nat := min v.floor.toNat M

/-- `checked_ilog2().unwrap_or(0)`, `complexity.rs:103`. -/
def ilog2 (m : Nat) : Nat := m.log2

/-- `?` on an `Option` inside a function that may also panic. Rust's std. -/
def andThen (x : Except Err (Option Nat)) (f : Nat → Except Err (Option Nat)) : Except Err (Option Nat) :=
  match x with
  | .error e => .error e
  | .ok none => .ok none
  | .ok (some v) => f v

/-- `n * ilog2(m)`: a plain multiplication (`complexity.rs:103`), which overflows with a panic in checked builds. A release build would
go on with the wrapped product; here it panics in both. -/
def logCost (M n m : Nat) : Except Err (Option Nat) :=
  if n * ilog2 m > M then .error (.panic "attempt to multiply with overflow") else .ok (some (n * ilog2 m))

/-- `Complexity::cost`, `complexity.rs:66-112`. `M = usize::MAX`. -/
def cost (M : Nat) (out : Option Nat) (inputs : List ChildStats) : Complexity → Except Err (Option Nat)
  | .constant v => .ok (some (castUsize M v))
  | .linear l => .ok (linearCost out inputs l)
  | .log n m => andThen (cost M out inputs n) fun a => andThen (cost M out inputs m) fun b => logCost M a b
  | .plus n m => andThen (cost M out inputs n) fun a => andThen (cost M out inputs m) fun b => .ok (some (min (a + b) M))
  | .multiply n m => andThen (cost M out inputs n) fun a => andThen (cost M out inputs m) fun b => .ok (some (min (a * b) M))

end Complexity
end DD
