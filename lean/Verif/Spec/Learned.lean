import Verif.Model.Learned
import Verif.Spec.Plan
/-
What filters that joins learn may and may not do.
-/
namespace DD.Learned

open Tree InProcess

variable {Row Url : Type} [DecidableEq Url]

/-- The single-node answer: the join of everything the scan holds. -/
def Query.answer (q : Query Row Url) : List Row := joinRows q.spec q.build ((List.range q.scans).flatMap q.probe)

/-- No unmatched row of the probe side is returned, so that filtering them out keeps the answer. -/
def dropsUnmatched : JoinType → Bool
  | .inner | .left | .leftSemi | .rightSemi | .leftAnti | .leftMark => true
  | _ => false

/-- The join may be run this way. In every mode: an ordinary join of a type that filters are published for. Partitioned: on equal
keys, with at least one partition in at least one task. Collected: of a type the planner broadcasts, every row reaching some task. -/
def Query.Ok (q : Query Row Url) : Prop :=
  q.spec.nullAware = none ∧ dropsUnmatched q.spec.jt = true ∧
    match q.mode with
    | .partitioned parts => q.spec.Equi ∧ 0 < parts * q.tasks
    | .collect _ reach => q.spec.jt.broadcastSafe = true ∧ ∀ i r, reach i r < q.tasks

/-- What may happen: a filter lets every row pass that matches something in the build side of the task that publishes it. -/
def Query.Legal (q : Query Row Url) : Step Row → Prop
  | .sent _ _ => True
  | .learn t f => t < q.tasks ∧ ∀ l ∈ q.buildOf t, ∀ r, q.spec.on l r = true → f r = true
  | .read i _ => i < q.scans

/-- The query has ended: every scan has read all its rows and every task of the join has published its filter. -/
def Query.Ended (q : Query Row Url) (steps : List (Step Row)) : Prop :=
  (∀ i < q.scans, (run q steps).read i = (q.probe i).length) ∧ ∀ t < q.tasks, ∃ f, Step.learn t f ∈ steps

end DD.Learned
