/-
How many rows the leaves of a running stage are expected to give: the number its progress is measured against.

Models `estimated_driver_path_leaf_rows`, `/repo/src/coordinator/prepare_dynamic_plan.rs:336-352`.
-/
import Verif.Model.RuntimeStats
import Verif.Model.Recursion

namespace DD.Gather
open DD.Tree DD.Tree.Rec

/-- The visitor of :338-350 over the leaves it sees, in their order. The statistics of a leaf (DataFusion's) may fail, which ends
the visit and is otherwise ignored (`let _ =`, :338); a leaf that does not know its rows (`get_value()` is `None`) is passed over.
The sum (:343) wraps around, as in a release build. -/
def sumLeaves (total : Option Nat) : List (Except Err (Option Nat)) → Option Nat
  | [] => total
  | .error _ :: _ => total
  | .ok none :: ls => sumLeaves total ls
  | .ok (some n) :: ls => sumLeaves (some (match total with
    | some m => (m + n) % wordSize
    | none => n)) ls

/-- `plan.children().is_empty()`, :339. Boundaries below the stage are remote by then and have no children (:38-41). -/
def isLeaf {Row : Type} : Plan Row → Bool
  | .node _ _ cs => cs.isEmpty

/-- `estimated_driver_path_leaf_rows`, :336-352. `rowsOf` is the number of rows in the statistics of a leaf. -/
def estimatedLeafRows {Row : Type} (rowsOf : Plan Row → Except Err (Option Nat)) (p : Plan Row) : Option Nat :=
  sumLeaves none (((driverPath p).filter isLeaf).map rowsOf)

end DD.Gather
