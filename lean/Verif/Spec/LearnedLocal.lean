import Verif.Model.LearnedLocal
import Verif.Spec.Learned
/-
What filters may do to joins of tables that are partitioned alike.
-/
namespace DD.Learned

open Tree InProcess

variable {Row Url : Type} [DecidableEq Url]

/-- The single-node answer: the join of both tables. -/
def Local.answer (q : Local Row Url) : List Row :=
  joinRows q.spec ((List.range q.tasks).flatMap q.build) ((List.range q.tasks).flatMap q.probe)

/-- An ordinary join on keys, of a type that filters are published for, and tables partitioned alike: rows with key `k` are with task
`k % tasks` on both sides. -/
def Local.Ok (q : Local Row Url) : Prop :=
  q.spec.nullAware = none ∧ dropsUnmatched q.spec.jt = true ∧ q.spec.Equi ∧
    (∀ t < q.tasks, ∀ r ∈ q.build t, q.spec.lk r % q.tasks = t) ∧ ∀ t < q.tasks, ∀ r ∈ q.probe t, q.spec.rk r % q.tasks = t

/-- What may happen: a filter lets every row pass that matches something in the build side of the task that publishes it. -/
def Local.Legal (q : Local Row Url) : Step Row → Prop
  | .sent _ _ => True
  | .learn t f => t < q.tasks ∧ ∀ l ∈ q.build t, ∀ r, q.spec.on l r = true → f r = true
  | .read i _ => i < q.tasks

/-- Whose step it is. -/
def Step.task : Step Row → Nat
  | .sent _ t => t
  | .learn t _ => t
  | .read i _ => i

/-- The query has ended: every task on another worker was sent its plan once, before it did anything; every task has read all its rows
and published its filter. -/
def Local.Ended (q : Local Row Url) (steps : List (Step Row)) : Prop :=
  (∀ t < q.tasks, q.scans.joinPlace t ≠ .shared → ∃ pre post, steps = pre ++ .sent false t :: post ∧ (∀ s ∈ pre, s.task ≠ t)
      ∧ ∀ s ∈ post, s ≠ .sent false t)
    ∧ (∀ i < q.tasks, (run q.scans steps).read i = (q.probe i).length) ∧ ∀ t < q.tasks, ∃ f, Step.learn t f ∈ steps

end DD.Learned
