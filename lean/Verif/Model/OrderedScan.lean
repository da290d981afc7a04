/-
Scaling a file scan that declares the order of its rows.

Models `/repo/src/events/defaults/file_scan_config.rs:36-85` with the flag of line 57.
-/
import Verif.Model.Leaf

namespace DD.OrderedScan

/-- The whole handler, `/repo/src/events/defaults/file_scan_config.rs:36-85`, with what the scan declares:
`declared` is `output_partitioning.is_some()`, `ordered` is `!output_ordering.is_empty()`, and `cut keep target`
is DataFusion's `FileGroupPartitioner` (external) with `with_preserve_order_within_groups(keep)`, lines 54-60. -/
def scan {F α : Type} (rows : F → List α) (declared ordered : Bool)
    (cut : Bool → Nat → Option (List (List F))) (groups : List (List F)) (partitionCount tasks : Nat) :
    Except Err (Leaf.DistLeaf α) :=
  Leaf.scaleUp rows declared (cut ordered) groups partitionCount tasks

end DD.OrderedScan
