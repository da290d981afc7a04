/-
The statistics an exchange declares for what it delivers.

Models `Stage::partition_statistics`, `multiply_stats` and `multiply_precision` (`/repo/src/stage.rs:155-207`), which the three
exchanges answer with (`/repo/src/execution_plans/network_shuffle.rs:256-266`, `network_coalesce.rs:347-357`,
`network_broadcast.rs:280-290`).
-/
import Verif.Model.RuntimeStats

namespace DD.Gather

/-- `Stage` as far as its statistics go, `/repo/src/stage.rs:74-117`: the statistics of the plan of a local stage, for all partitions or
for one; what has been measured of a remote one (`RemoteStage::runtime_stats`). -/
inductive StageStats where
  | local_ (compute : Option Nat → Except Err Stats)
  | remote (runtime : Option Stats)

/-- `multiply_precision`, stage.rs:201-207, for the factor `1.0 / partition_count as f32` (:171): of no partitions the factor is
infinite, 0 times it is NaN, which becomes 0. -/
def share (fl : Rat → Rat) (count n : Nat) : Nat :=
  if count = 0 then (if n = 0 then 0 else wordSize - 1)
  else toUsize (fl (fl n * fl (1 / fl count)))

/-- `multiply_stats`, stage.rs:182-199. -/
def multiplyStats (fl : Rat → Rat) (count : Nat) (s : Stats) : Stats :=
  ⟨s.exact, share fl count s.rows, share fl count s.bytes,
    s.cols.map fun c => ⟨share fl count c.nulls, share fl count c.distinct, share fl count c.bytes⟩⟩

/-- `Stage::partition_statistics`, stage.rs:155-179; `none` is `Statistics::new_unknown`. -/
def partitionStatistics (fl : Rat → Rat) (st : StageStats) (partition : Option Nat) (count : Nat) : Except Err (Option Stats) :=
  match st with
  | .local_ compute => (compute partition).map some
  | .remote none => .ok none
  | .remote (some s) =>
    match partition with
    | none => .ok (some s)
    | some _ => .ok (some (multiplyStats fl count s))

end DD.Gather
