/-
Scans of text files that are cut into byte ranges.

`/repo/src/events/defaults/file_scan_config.rs:36-76` cuts the files of a scan into byte ranges with
DataFusion's `FileGroupPartitioner`, with a minimum size of zero and without asking the file format whether
its files may be cut (DataFusion itself only cuts through `FileSource::repartitioned`, which refuses
compressed files and CSV files declared to have line breaks in values).
-/
import Verif.Model.Leaf
import Verif.Spec.Ranges

namespace DD.Ranges

/-- A byte range of a file: `PartitionedFile` with its `range`; the whole file is the range from zero to its
size. `/repo/src/events/defaults/file_scan_config.rs:45-63`. -/
structure Piece where
  file : Nat
  lo : Nat
  hi : Nat
deriving DecidableEq, Repr

/-- Where DataFusion moves an end of a range of a text file (`calculate_range`, external): to the position
after the first line break at or after the byte before it, or to the end of the file. Characters are bytes
here. Used by the scans of `/repo/src/events/defaults/file_scan_config.rs:65-77`. -/
def align (t : List Char) (pos : Nat) : Nat :=
  if pos = 0 then 0 else min t.length (pos + (t.drop (pos - 1)).findIdx (· == '\n'))

/-- The rows the reader of a range of a text file returns (external): those of the text between the two ends
after they have been moved. Used by the scans of
`/repo/src/events/defaults/file_scan_config.rs:65-77`. -/
def readRange (t : List Char) (lo hi : Nat) : List (List Char) :=
  Spec.rows ((t.take (align t hi)).drop (align t lo))

/-- Reading one piece of a scan. `/repo/src/events/defaults/file_scan_config.rs:65-77`. -/
def readPiece (files : Nat → List Char) (p : Piece) : List (List Char) :=
  readRange (files p.file) p.lo p.hi

/-- The whole handler, `/repo/src/events/defaults/file_scan_config.rs:36-85`, for a scan of text files:
`declared` is `output_partitioning.is_some()`, and `cut` is `FileGroupPartitioner::repartition_file_groups` (external). -/
def scan (files : Nat → List Char) (declared : Bool) (cut : Nat → Option (List (List Piece)))
    (groups : List (List Piece)) (partitionCount tasks : Nat) : Except Err (Leaf.DistLeaf (List Char)) :=
  Leaf.scaleUp (readPiece files) declared cut groups partitionCount tasks

/-- A file made of blocks, such as the row groups of a Parquet file: where each block begins, and its rows
(external). Read by the scans of `/repo/src/events/defaults/file_scan_config.rs:65-77`. -/
abbrev Blocks (α : Type) := List (Nat × List α)

/-- The rows the reader of a range of such a file returns (DataFusion's `prune_by_range`, external): those of the
blocks that begin in the range. Used by the scans of `/repo/src/events/defaults/file_scan_config.rs:65-77`. -/
def readBlocks {α : Type} (bs : Blocks α) (lo hi : Nat) : List α :=
  (bs.filter fun b => decide (lo ≤ b.1 ∧ b.1 < hi)).flatMap (·.2)

/-- The whole handler, `/repo/src/events/defaults/file_scan_config.rs:36-85`, for a scan of files made of blocks. -/
def scanBlocks {α : Type} (files : Nat → Blocks α) (declared : Bool) (cut : Nat → Option (List (List Piece)))
    (groups : List (List Piece)) (partitionCount tasks : Nat) : Except Err (Leaf.DistLeaf α) :=
  Leaf.scaleUp (fun p => readBlocks (files p.file) p.lo p.hi) declared cut groups partitionCount tasks

end DD.Ranges
