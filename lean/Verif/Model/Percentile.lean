/-
Percentile latencies.

Models `percentile_latency_metric!` (`/repo/src/metrics/latency_metric.rs:389-488`), that is `P50LatencyMetric`, `P75LatencyMetric`,
`P95LatencyMetric` and `P99LatencyMetric`. The sketch itself is the crate `sketches_ddsketch`, whose source is not part of the
repository; `Sketch` below is the contract used of it: a value falls into the bin of its key, at most `bins` neighbouring bins are
kept, and when there are more, the lowest ones are put together.
-/
import Verif.Model.Stats
import Mathlib.Data.List.Sort

namespace DD.Percentile

/-- `Config` (sketches_ddsketch): the bin of a value, the value a bin stands for, and how many bins are kept
(`Config::defaults()`, latency_metric.rs:408). -/
structure Config where
  key : Nat → Int
  value : Int → Rat
  bins : Nat

/-- `DDSketch`: how often zero was added, and the keys of the other values, in no particular order
(`sketches_ddsketch`, held at latency_metric.rs:392-394). -/
structure Sketch where
  zeros : Nat := 0
  keys : List Int := []

/-- The largest key, 0 if there is none (`sketches_ddsketch`). -/
def top : List Int → Int
  | [] => 0
  | [k] => k
  | k :: ks => max k (top ks)

/-- Keeps the `bins` highest bins and puts what is below into the lowest of them (`sketches_ddsketch`). -/
def collapse (bins : Nat) (ks : List Int) : List Int := ks.map (max · (top ks - (bins - 1)))

/-- `add_nanos`, latency_metric.rs:453-455: `DDSketch::add`. `add_duration` (:448-451) adds at least 1. -/
def Sketch.add (c : Config) (s : Sketch) (nanos : Nat) : Sketch :=
  if nanos = 0 then { s with zeros := s.zeros + 1 } else { s with keys := collapse c.bins (c.key nanos :: s.keys) }

/-- `aggregate`, latency_metric.rs:469-475: `DDSketch::merge`, which fails only for sketches of another configuration, and the code makes
all with the same (:408). -/
def Sketch.aggregate (c : Config) (s o : Sketch) : Sketch := ⟨s.zeros + o.zeros, collapse c.bins (s.keys ++ o.keys)⟩

/-- `value`, latency_metric.rs:420-423: `DDSketch::quantile` of the fraction `q`, 0 of an empty sketch. -/
def Sketch.quantile (c : Config) (q : Rat) (s : Sketch) : Rat :=
  let rank := (q * ((s.zeros + s.keys.length : Nat) - 1 : Rat)).floor.toNat
  if s.zeros + s.keys.length = 0 then 0
  else if rank < s.zeros then 0
  else ((s.keys.insertionSort (· ≤ ·))[rank - s.zeros]?.map c.value).getD 0

/-- The metric after recording and aggregating, latency_metric.rs:389-488. -/
def eval (c : Config) : AggTree → Sketch
  | .recorded vs => vs.foldl (Sketch.add c) {}
  | .merge a b => (eval c a).aggregate c (eval c b)

end DD.Percentile
