import Verif.Model.LearnedTop
/-
What sorts with a limit have to return.
-/
namespace DD.Learned

variable {Row Url K : Type} [DecidableEq Url] [LinearOrder K]

/-- The single-node answer: the best `k` keys of all rows. -/
def TopQuery.answer (q : TopQuery Row Url K) : List K := top q.k (((List.range q.scans).flatMap q.probe).map q.key)

/-- Scans are those of the query, and their rows reach a task of the sort. -/
def TopQuery.Ok (q : TopQuery Row Url K) : Prop := ∀ i < q.scans, ∀ r ∈ q.probe i, q.reach i r < q.tasks

/-- Only scans of the query read. -/
def TopQuery.Legal (q : TopQuery Row Url K) : TopStep → Prop
  | .read i _ => i < q.scans
  | _ => True

/-- Every scan has read all its rows. -/
def TopQuery.Ended (q : TopQuery Row Url K) (steps : List TopStep) : Prop :=
  ∀ i < q.scans, (topRun q steps).read i = (q.probe i).length

end DD.Learned
