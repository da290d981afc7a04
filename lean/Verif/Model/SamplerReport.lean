/-
What a sampled partition reports about the rows it has peeked at.

Models `/repo/src/execution_plans/sampler.rs:292-515`: `LoadInfoDropHandler::report` and its setters,
`zero_load_info`, `RecordBatchPeek` with `per_col_bytes_ready`, `rows_ready`, `per_col_ndv`,
`per_col_null_pct`, its memory reservation, and `rows_pulled_from_leaf`.
-/
import Verif.Model.Sampler
import Mathlib.Data.Rat.Defs

namespace DD.Sampler

/-- A row: the cell of each column, `none` for NULL. `RecordBatch` of arrow. -/
abbrev Row (V : Type) := Nat → Option V

/-- A record batch: its rows, and the bytes of each column (`column_size`, sampler.rs:507-509; slices of
shared buffers and arrays whose size is unknown make this an arbitrary number). -/
structure Batch (V : Type) where
  rows : List (Row V)
  bytes : Nat → Nat

/-- `LoadInfo` (`/repo/src/protocol/worker_channel.rs:142-160`), as filled by sampler.rs:327-335, 373-383. Percentages
are exact fractions here, `f32` in the code. -/
structure Report where
  rowsReady : Nat
  bytesReady : List Nat
  ndv : List Rat
  nulls : List Rat
  rowsPulled : Nat
  reachedEos : Bool

/-- `NDV_MAX_ROWS_SAMPLE`, sampler.rs:37. -/
def ndvMaxRows : Nat := 1000

variable {V S : Type}

/-- `batch.column(c).null_count()`. arrow, as called in sampler.rs:473-490. -/
def Batch.nullCount (b : Batch V) (c : Nat) : Nat := (b.rows.filter fun r => (r c).isNone).length

/-- `per_col_bytes_ready`, sampler.rs:413-421. A batch has the schema's `n` columns. -/
def perColBytes (n : Nat) (peek : List (Batch V)) : List Nat :=
  peek.foldl (fun acc b => acc.mapIdx fun i x => x + b.bytes i) (List.replicate n 0)

/-- `rows_ready`, sampler.rs:423-425. -/
def peekedRows (peek : List (Batch V)) : Nat := (peek.map fun b => b.rows.length).sum

/-- `per_col_null_pct`, sampler.rs:474-490. -/
def perColNulls (n : Nat) (peek : List (Batch V)) : List Rat :=
  if peekedRows peek = 0 then List.replicate n 0
  else
    (peek.foldl (fun acc b => acc.mapIdx fun c x => x + b.nullCount c) (List.replicate n 0)).map
      fun (x : Nat) => (x : Rat) / (peekedRows peek : Nat)

/-- The rows the loop of `per_col_ndv` looks at, sampler.rs:445-467: `base` is `flat_base`, the first
argument what is left of `sampled_indices`. `none` stands for a panic: an index below `flat_base`
(`sampled_indices[sample_pos] - flat_base` underflows) or beyond the batch. -/
def visited : List Nat → Nat → List (Batch V) → List (Option (Row V))
  | _, _, [] => []
  | idx, base, b :: bs =>
    (idx.takeWhile (· < base + b.rows.length)).map
        (fun i => if i < base then none else b.rows[i - base]?) ++
      (if (idx.dropWhile (· < base + b.rows.length)).isEmpty then []
       else visited (idx.dropWhile (· < base + b.rows.length)) (base + b.rows.length) bs)

/-- `set.insert(v)` on the `HashSet` of one column. Rust's std, as called at sampler.rs:451-458. -/
def insertNew [DecidableEq S] (set : List S) (v : S) : List S := if v ∈ set then set else v :: set

/-- One row and the set of column `c`, sampler.rs:451-458; `conv` is `ScalarValue::try_from_array`
(`none`: the type is not supported). -/
def ndvStep [DecidableEq S] (conv : V → Option S) (c : Nat) (set : List S) : Option (Row V) → List S
  | none => set
  | some r =>
    match (r c).bind conv with
    | some v => insertNew set v
    | none => set

/-- The set of one column after the loop. sampler.rs:445-467. -/
def ndvSet [DecidableEq S] (conv : V → Option S) (c : Nat) (rows : List (Option (Row V))) : List S :=
  rows.foldl (ndvStep conv c) []

/-- The indices looked at, sampler.rs:432-441: all rows, or what `rand::seq::index::sample` picked,
sorted. -/
def sampledIndices (total : Nat) (picked : List Nat) : List Nat :=
  if total ≤ ndvMaxRows then List.range total else picked

/-- `per_col_ndv`, sampler.rs:427-472. -/
def perColNdv [DecidableEq S] (conv : V → Option S) (picked : List Nat) (n : Nat)
    (peek : List (Batch V)) : List Rat :=
  if peekedRows peek = 0 then List.replicate n 0
  else
    let idx := sampledIndices (peekedRows peek) picked
    (List.range n).map fun c =>
      ((ndvSet conv c (visited idx 0 peek)).length : Rat) / (idx.length : Nat)

/-- `set_rows_pulled_from_leaf`, sampler.rs:337-358: `leaves` are the `output_rows` of the leaves on the
driver path that have the metric, `partitions` the stage's partition count. -/
def rowsPulled (leaves : List Nat) (partitions : Nat) : Nat :=
  (leaves.map (· / partitions)).sum

/-- `zero_load_info`, sampler.rs:373-383. -/
def zeroReport (n : Nat) : Report :=
  { rowsReady := 0, bytesReady := List.replicate n 0, ndv := List.replicate n 0,
    nulls := List.replicate n 0, rowsPulled := 0, reachedEos := false }

/-- The report of a partition, sampler.rs:249-277 and 361-371: nothing but zeros if the partition failed
among the peeked batches. -/
def reportOf [DecidableEq S] (conv : V → Option S) (picked : List Nat) (n cap : Nat) (leaves : List Nat)
    (partitions : Nat) (polls : List (Poll (Batch V))) : Report :=
  let c := readyChunk cap [] polls
  let pulled := rowsPulled leaves partitions
  match peekAll c.chunk with
  | .error _ => { zeroReport n with rowsPulled := pulled }
  | .ok peek =>
    { rowsReady := peekedRows peek
      bytesReady := perColBytes n peek
      ndv := perColNdv conv picked n peek
      nulls := perColNulls n peek
      rowsPulled := pulled
      reachedEos := c.chunk.isEmpty || c.terminated }

/-! ### Memory -/

/-- `RecordBatchPeek`: batches held, bytes reserved in the memory pool. sampler.rs:387-410. -/
structure Held (V : Type) where
  batches : List (Batch V)
  reserved : Nat

/-- `record_batch_size`, sampler.rs:511-513. -/
def Batch.size (n : Nat) (b : Batch V) : Nat := ((List.range n).map b.bytes).sum

/-- `push`, sampler.rs:401-411. -/
def Held.push (n : Nat) (h : Held V) (b : Batch V) : Held V :=
  { batches := h.batches ++ [b], reserved := h.reserved + b.size n }

/-- `poll_next`, sampler.rs:496-504. -/
def Held.pop (n : Nat) (h : Held V) : Held V × Option (Batch V) :=
  match h.batches with
  | [] => (h, none)
  | b :: bs => ({ batches := bs, reserved := h.reserved - b.size n }, some b)

end DD.Sampler
