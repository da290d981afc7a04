/-
What the header of a stage says in the text of EXPLAIN about its tasks and partitions.

Models `format_tasks_for_stage`, `/repo/src/stage.rs:612-625`, and the call of it, `:323-333`.
-/
import Verif.Model.Boundary

namespace DD.Display

/-- `format_tasks_for_stage`, `/repo/src/stage.rs:612-625`: the number of tasks and the number of partitions that are printed.
`parts` is the partition count of the first node of the stage's plan, `hashed` says whether it declares a hash partitioning. -/
def headerOf (tasks parts : Nat) (hashed : Bool) : Nat × Nat := (tasks, if hashed then parts else tasks * parts)

end DD.Display
