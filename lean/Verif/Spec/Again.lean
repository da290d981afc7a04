/-
What a recursive query returns.
-/
import Verif.Model.Again

namespace DD.Again

variable {Row : Type}

/-- The answer of `first UNION ALL term`, where the term joins the rows of the last step with a table of the rows `x`: the rows of all
steps. `none`: not ended after `k` steps. -/
def answer (term : List Row → List Row → List Row) (x : List Row) : Nat → List Row → Option (List Row)
  | 0, _ => none
  | k + 1, work => if work.isEmpty then some [] else (answer term x k (term work x)).map (work ++ ·)

/-- The rows of a stage: those of partitions `0..n` of its tasks. -/
def stageRows (n : Nat) (tasks : List (Nat → List Row)) : List Row := tasks.flatMap fun rows => (List.range n).flatMap rows

/-- Whatever was executed before, each partition a plan delivers has the rows of the table, or ends with an error. -/
def RightOrFails (n : Nat) (rows : Nat → List Row) (p : Requests.Plan (Stream Row)) : Prop :=
  ∀ done i s, i < n → p.exec done i = .ok s → s = ⟨rows i, none⟩ ∨ ∃ e, s.error = some e

/-- The answer of a recursive query whose term reads the tables `xs`; `keep seen new` are the rows of a step that are used, given those
seen before: `new` for `UNION ALL`, those of `new` that are not in `seen`, once, for `UNION`. -/
def answerMany (keep : List Row → List Row → List Row) (term : List Row → List (List Row) → List Row) (xs : List (List Row)) :
    Nat → List Row → List Row → Option (List Row)
  | 0, _, _ => none
  | k + 1, seen, work =>
    if work.isEmpty then some seen else answerMany keep term xs k (seen ++ work) (keep (seen ++ work) (term work xs))

/-- The rows of a step used by `UNION`. -/
def unionKeep [DecidableEq Row] : List Row → List Row → List Row
  | _, [] => []
  | seen, r :: rs => if r ∈ seen then unionKeep seen rs else r :: unionKeep (seen ++ [r]) rs

end DD.Again
