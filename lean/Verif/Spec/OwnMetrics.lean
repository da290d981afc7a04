/-
What EXPLAIN ANALYZE should say about the library's own metrics.
-/
import Verif.Model.OwnMetrics
import Verif.Spec.MetricsDisplay
import Verif.Props.Percentile

namespace DD.MetricsDisplay

/-- All that the partitions of a task recorded under the name: `rs` has the name, the partition and the values, in the order in which
the partitions registered their metrics. -/
def recordedIn (rs : List (String × Nat × List Nat)) (name : String) : List Nat :=
  (rs.filter fun r => r.1 == name).flatMap (·.2.2)

/-- `s` is how a metric of the given kind should be written if `vs` are all the values recorded in it: the least, the greatest or the
first latency, the sum of the bytes, the greatest value of a gauge, the average, or the percentile. Latencies are at least one
nanosecond. -/
def Shows (u : Units) (cfg : Percentile.Config) : OwnKind → List Nat → String → Prop
  | .plain .minLatency, vs, s =>
    (vs = [] → s = "0ns") ∧ ∀ v ∈ vs, (∀ w ∈ vs, v ≤ w) → v < wordSize - 1 → s = u.duration (max v 1)
  | .plain .maxLatency, vs, s =>
    (vs = [] → s = u.duration 0) ∧ ∀ v ∈ vs, (∀ w ∈ vs, w ≤ v) → s = u.duration (max v 1)
  | .plain .first, vs, s =>
    (vs = [] → s = u.duration 0) ∧ ∀ v rest, vs = v :: rest → s = u.duration (max v 1)
  | .plain .bytes, vs, s => vs.sum < wordSize → s = u.size vs.sum
  | .plain .maxGauge, vs, s =>
    (vs = [] → s = "0") ∧ ∀ v ∈ vs, (∀ w ∈ vs, w ≤ v) → s = toString v
  | .avg, vs, s => (vs.map (max · 1)).sum < wordSize → s = u.duration ((vs.map (max · 1)).sum / max vs.length 1)
  | .percentile q, vs, s =>
    (vs = [] → s = u.duration 0) ∧
    (vs ≠ [] → q ≤ 100 → 0 < cfg.bins → (∀ a b, 0 < a → a ≤ b → cfg.key a ≤ cfg.key b) →
      (∀ a ∈ vs, ∀ b ∈ vs, a ≠ 0 → b ≠ 0 → cfg.key a - cfg.key b < cfg.bins) →
      ∃ v, (Percentile.ascending vs)[((q : Rat) / 100 * (vs.length - 1 : Rat)).floor.toNat]? = some v ∧
        s = u.duration (Percentile.shown cfg v).floor.toNat)

end DD.MetricsDisplay
