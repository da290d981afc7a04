/-
Statistics of a running stage, estimated from the reports of its samplers.

Models `gather_runtime_statistics`, `/repo/src/coordinator/prepare_dynamic_plan.rs:196-334`.
-/
import Verif.Model.Stats

namespace DD.Gather

/-- `LoadInfo`, as used here: the rows and, per column, the bytes a sampled partition has ready, how many rows its leaves
have produced, the fractions of distinct and null values per column, and whether the partition has ended.
`LoadInfo` is made in `/repo/src/execution_plans/sampler.rs:361-371`. -/
structure Report where
  rows : Nat
  pulled : Nat
  bytes : List Nat
  ndv : List Rat
  null : List Rat
  eos : Bool
  deriving DecidableEq

/-- `load_info.per_column_bytes_ready.iter().any(|v| *v > 0)`, :241-242. -/
def Report.hasBytes (r : Report) : Bool := r.bytes.any (0 < ·)

/-- `apply_pct(total_partitions, 0.2).max(1)`, :215-217 and :247-249. `round` of a fifth of an integer has no ties; the
rounding of `f32` only matters for more partitions than there are in practice. -/
def enough (total : Nat) : Nat := max ((2 * total + 5) / 10) 1

/-- The accumulators of :223-231. -/
structure Acc where
  withBytes : Nat := 0
  done : Nat := 0
  eos : Nat := 0
  rows : Nat := 0
  pulled : Nat := 0
  bytes : List Nat
  ndv : List (List Rat) := []
  null : List (List Rat) := []

/-- The loop, :234-258. `rs` are the reports in the order `select_all` yields them, until all streams end. -/
def collect (total : Nat) (a : Acc) : List Report → Except Err Acc
  | [] => .ok a
  | r :: rs => do
    let bytes ← elementWiseSum a.bytes r.bytes
    let a : Acc := ⟨a.withBytes + r.hasBytes.toNat, a.done + 1, a.eos + r.eos.toNat, a.rows + r.rows, a.pulled + r.pulled,
      bytes, a.ndv ++ [r.ndv], a.null ++ [r.null]⟩
    if enough total ≤ a.withBytes then .ok a
    else if a.done = total then .ok a
    else collect total a rs

/-- `estimated_pct_sampled`, :271-287. `fl` rounds to an `f32`; `leafRows` is `estimated_driver_path_leaf_rows(plan)`. Division by
zero gives infinity or NaN, and `min(1.0)` of either is 1. -/
def pct (fl : Rat → Rat) (leafRows : Option Nat) (done eos pulled : Nat) : Rat :=
  if eos = done then 1
  else match leafRows with
    | some n => if n = 0 then 1 else min (fl (fl pulled / fl n)) 1
    | none => fl (1 / 5)

/-- A float as `usize`: rounded towards zero, saturating. Rust's `as`, std. -/
def toUsize (q : Rat) : Nat := min q.floor.toNat (wordSize - 1)

/-- `(rows_ready as f32 / estimated_pct_sampled) as usize`, :294: 0/0 is NaN and becomes 0, n/0 is infinite and becomes
`usize::MAX`. -/
def scaleRows (fl : Rat → Rat) (rows : Nat) (p : Rat) : Nat :=
  if p = 0 then (if rows = 0 then 0 else wordSize - 1) else toUsize (fl (fl rows / p))

/-- The factor in `vec_mul(per_col_bytes_ready, 1. / estimated_pct_sampled)`, :300: `vec_mul`
(`/repo/src/common/vec.rs:31-40`) converts the factor to the element type, `usize`, before it multiplies. -/
def byteFactor (fl : Rat → Rat) (p : Rat) : Nat := if p = 0 then wordSize - 1 else toUsize (fl (1 / p))

/-- `ColumnStatistics` (DataFusion) as built at `/repo/src/coordinator/prepare_dynamic_plan.rs:196-334`. -/
structure Column where
  nulls : Nat
  distinct : Nat
  bytes : Nat
  deriving DecidableEq

/-- `Statistics`, without the values that are always absent.
DataFusion, as built at `/repo/src/coordinator/prepare_dynamic_plan.rs:196-334`. -/
structure Stats where
  exact : Bool
  rows : Nat
  bytes : Nat
  cols : List Column
  deriving DecidableEq

/-- `zero_stats`, :367-382. -/
def zeroStats (n : Nat) : Stats := ⟨true, 0, 0, List.replicate n ⟨0, 0, 0⟩⟩

/-- What follows the loop, :260-333. Multiplications that overflow wrap around, as in a release build; the sums before do not
overflow in the model. -/
def estimate (fl : Rat → Rat) (total nCols : Nat) (leafRows : Option Nat) (a : Acc) : Except Err Stats :=
  if a.done = 0 then .ok (zeroStats nCols)
  else
    let bytes := (vecMul a.bytes total).map (· / a.done)
    let rows := a.rows * total / a.done
    let pulled := a.pulled * total / a.done
    let p := pct fl leafRows a.done a.eos pulled
    let n := scaleRows fl rows p
    if n = 0 then .ok (zeroStats nCols)
    else do
      let colBytes := bytes.map fun b => b * byteFactor fl p % wordSize
      let ndv ← vecAvgReduce a.ndv
      if ndv.length ≠ nCols then .error (.plan "Expected ndv values")
      else
        let null ← vecAvgReduce a.null
        if null.length ≠ nCols then .error (.plan "Expected null values")
        else
          .ok ⟨false, n, colBytes.sum % wordSize,
            List.zipWith (fun (c : Rat × Rat) b => ⟨toUsize (fl (c.2 * fl n)), toUsize (fl (c.1 * fl n)), b⟩)
              (ndv.zip null) colBytes⟩

/-- `gather_runtime_statistics` for `total = partitions_per_task * task_count` partitions of `nCols` columns, :196-334. -/
def gather (fl : Rat → Rat) (total nCols : Nat) (leafRows : Option Nat) (rs : List Report) : Except Err Stats := do
  let a ← collect total { bytes := List.replicate nCols 0 } rs
  estimate fl total nCols leafRows a

end DD.Gather
