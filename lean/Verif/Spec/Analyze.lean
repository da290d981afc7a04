/-
What `EXPLAIN ANALYZE` should return, and what a client gets of a plan (**C83**).
-/
import Verif.Model.Analyze

namespace DD.Analyze

variable {Row : Type}

/-- The rows of a stream, or the first error in it. -/
def rowsOf : Stream Row → Except Err (List Row)
  | [] => .ok []
  | .error e :: _ => .error e
  | .ok b :: rest => do .ok (b ++ (← rowsOf rest))

/-- What a client gets that runs all partitions of a plan and collects the rows (`collect`, DataFusion); the rows of
different partitions come in some order, here in the order of the partitions. -/
def collect (parts : Nat) (exec : Nat → Except Err (Stream Row)) : Except Err (List Row) := do
  let streams ← (List.range parts).mapM exec
  let rows ← streams.mapM rowsOf
  .ok rows.flatten

/-- The stream has the given rows, in batches of any sizes, and no error. -/
def Yields (s : Stream Row) (rows : List Row) : Prop := ∃ bs : List (List Row), s = bs.map .ok ∧ bs.flatten = rows

/-- The documented output: one row, and with `VERBOSE` four. -/
def table (verbose : Bool) (rows : Nat) (duration plan full : String) : List (String × String) :=
  match verbose with
  | false => [("Plan with Metrics", plan)]
  | true => [("Plan with Metrics", plan), ("Plan with Full Metrics", full), ("Output Rows", toString rows), ("Duration", duration)]

end DD.Analyze
