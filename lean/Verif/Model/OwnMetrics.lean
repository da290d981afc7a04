/-
The library's own metrics among those EXPLAIN ANALYZE writes.

Models the implementations of `CustomMetricValue` in `/repo/src/metrics/latency_metric.rs`, `bytes_metric.rs` and
`max_gauge_metric.rs` as values `format_metrics_by_task` (`/repo/src/stage.rs:548-582`) works on.
-/
import Verif.Model.MetricsDisplay
import Verif.Model.Percentile

namespace DD.MetricsDisplay

/-- The type of a metric: `MinLatencyMetric`, `MaxLatencyMetric`, `FirstLatencyMetric`, `BytesCounterMetric` and `MaxGaugeMetric`;
`AvgLatencyMetric` (`/repo/src/metrics/latency_metric.rs:240-315`); and the percentiles `P50LatencyMetric` to `P99LatencyMetric`
(`:484-487`), which are types of their own: `q` hundredths. -/
inductive OwnKind where
  | plain (k : MetricKind)
  | avg
  | percentile (q : Nat)
  deriving DecidableEq

/-- A `CustomMetricValue` of the library: the atomics, or the sketch. `/repo/src/metrics/latency_metric.rs:101-104`, `:240-244`,
`:392-394`, `bytes_metric.rs:41-43`, `max_gauge_metric.rs:29-31`. -/
inductive Own where
  | plain (k : MetricKind) (n : Nat)
  | avg (m : AvgMetric)
  | percentile (q : Nat) (s : Percentile.Sketch)

/-- The type behind the `dyn CustomMetricValue`: `as_any`, `/repo/src/metrics/latency_metric.rs:160-162`. -/
def Own.kind : Own → OwnKind
  | .plain k _ => .plain k
  | .avg _ => .avg
  | .percentile q _ => .percentile q

/-- What a metric is after values were recorded in it in several partitions, and these aggregated. `add_nanos`, `add_bytes`,
`set_max` and `aggregate`: `/repo/src/metrics/latency_metric.rs:133-135`, `:150-158`, `:268-271`, `:286-293`, `:453-455`,
`:469-475`, `bytes_metric.rs:73-75`, `:89-94`, `max_gauge_metric.rs:61-63`, `:77-82`. -/
def OwnKind.eval (cfg : Percentile.Config) : OwnKind → AggTree → Own
  | .plain k, t => .plain k (k.eval t)
  | .avg, t => .avg (AvgMetric.eval t)
  | .percentile q, t => .percentile q (Percentile.eval cfg t)

/-- `new_empty`, `/repo/src/metrics/latency_metric.rs:146-148`, `:282-284`, `:465-467`, `bytes_metric.rs:85-87`,
`max_gauge_metric.rs:73-75`. -/
def Own.empty : Own → Own
  | .plain k _ => .plain k k.empty
  | .avg _ => .avg {}
  | .percentile q _ => .percentile q {}

/-- `aggregate`, `/repo/src/metrics/latency_metric.rs:150-158`, `:286-293`, `:469-475`, `bytes_metric.rs:89-94`,
`max_gauge_metric.rs:77-82`: a value of another type is left out, without any error. -/
def Own.aggregate (cfg : Percentile.Config) : Own → Own → Own
  | .plain k n, .plain k' n' => if k' = k then .plain k (k.aggregate n n') else .plain k n
  | .avg m, .avg m' => .avg (m.aggregate m')
  | .percentile q s, .percentile q' s' => if q' = q then .percentile q (s.aggregate cfg s') else .percentile q s
  | a, _ => a

/-- `human_readable_duration`, `human_readable_size` (DataFusion), how `MetricValue::Custom` writes its name and value (DataFusion;
called at `/repo/src/stage.rs:565-566`), and its `display_sort_key`, the same for all custom metrics. -/
structure Units where
  duration : Nat → String
  size : Nat → String
  custom : String → String → String
  sortKey : Nat

/-- `Display`, `/repo/src/metrics/latency_metric.rs:138-145`, `:189-193`, `:274-278`, `:345-349`, `:457-461`, `bytes_metric.rs:78-82`,
`max_gauge_metric.rs:66-70`. Percentiles are cut to whole nanoseconds, `latency_metric.rs:420-423`. -/
def Own.print (u : Units) (cfg : Percentile.Config) : Own → String
  | .plain .minLatency n => if n = wordSize - 1 then "0ns" else u.duration n
  | .plain .maxLatency n => u.duration n
  | .plain .first n => u.duration n
  | .plain .bytes n => u.size n
  | .plain .maxGauge n => toString n
  | .avg m => u.duration m.value
  | .percentile q s => u.duration (s.quantile cfg ((q : Rat) / 100)).floor.toNat

/-- `MetricValue::Custom` (DataFusion) with a metric of the library, as made at `/repo/src/metrics/bytes_metric.rs:21-30` and
`latency_metric.rs:20-99`. -/
def own (u : Units) (cfg : Percentile.Config) : Values (String × Own) where
  name := (·.1)
  sortKey := fun _ => u.sortKey
  timestamp := fun _ => false
  empty := fun v => (v.1, v.2.empty)
  aggregate := fun a b => .ok (a.1, a.2.aggregate cfg b.2)
  print := fun v => u.custom v.1 (v.2.print u cfg)

/-- The metric a partition registered under a name, after it recorded some values in it: `/repo/src/metrics/latency_metric.rs:20-99`,
`bytes_metric.rs:21-30`, `max_gauge_metric.rs:13-25`. -/
def ownMetric (cfg : Percentile.Config) (kinds : String → OwnKind) (r : String × Nat × List Nat) : Metrics.Metric (String × Own) :=
  ⟨(r.1, (kinds r.1).eval cfg (.recorded r.2.2)), some r.2.1, []⟩

end DD.MetricsDisplay
