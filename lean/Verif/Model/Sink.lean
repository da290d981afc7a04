/-
Statements that write: `INSERT INTO ... SELECT` and `COPY ... TO`.

DataFusion plans them with a `DataSinkExec` at the root, which asks for an input of one partition
(`required_input_distribution`), writes the rows of it and returns one row with their number. Nothing in `/repo/src` knows about it:
`create_distributed_plan` (`/repo/src/distributed_planner/distributed_query_planner.rs:84-174`) plans it like every other operator, and
what is written depends on where the node ends up and how often it is executed.
-/
import Verif.Model.Dynamic

namespace DD.Tree

variable {Row : Type}

/-- `DataSinkExec` (DataFusion), an operator to `/repo/src/distributed_planner/distributed_query_planner.rs:84-174`: it writes the rows
of its input. What it returns is modelled as the rows it has written, of which the row it really returns has the number. -/
structure Writes (g : Op Row) : Prop where
  exec : ∀ w ctx q as, g.exec w ctx q as = as.getD 0 []
  may : ∀ as x, g.may as x ↔ x = as.getD 0 []

/-- The plan DataFusion makes of a statement that writes the rows of the query `c`
(given to `/repo/src/distributed_planner/distributed_query_planner.rs:84-87`). -/
def writing (g : Op Row) (c : Plan Row) : Plan Row := fresh (.op g none) [c]

/-- The rows the node at the root of the head stage gets when the coordinator executes it: partition 0, in a single task,
`/repo/src/coordinator/distributed.rs:179-247`. -/
def written : Plan Row → List Row
  | .node _ _ (c :: _) => (run c).exec false ⟨0, 1⟩ 0
  | .node _ _ [] => []

end DD.Tree
