/-
What DataFusion's hash aggregation computes (external contract of `AggregateExec`), for aggregates whose
state can be merged in any order.

An aggregation runs as a whole (`AggregateMode::Single`), or in two or three steps: `Partial` turns input rows
into state rows, `PartialReduce` merges state rows into fewer state rows, `Final`/`FinalPartitioned` merges
state rows and emits the results.
-/
import Verif.Spec.Plan
import Mathlib.Data.List.Dedup

namespace DD.Tree

/-- An aggregate with `GROUP BY`. `S` is the state of one group. -/
structure Agg (Row K S : Type) where
  /-- the grouping columns -/
  key : Row → K
  /-- the state of a group that has seen this input row only -/
  lift : Row → S
  merge : S → S → S
  comm : ∀ a b, merge a b = merge b a
  assoc : ∀ a b c, merge (merge a b) c = merge a (merge b c)
  /-- the row that carries a state -/
  row : K → S → Row
  /-- the state carried by a row -/
  st : Row → S
  key_row : ∀ k s, key (row k s) = k
  st_row : ∀ k s, st (row k s) = s
  /-- the result row -/
  fin : K → S → Row

namespace Agg
variable {Row K S : Type} [DecidableEq K] (A : Agg Row K S)

def combine : Option S → Option S → Option S
  | none, b => b
  | a, none => a
  | some a, some b => some (A.merge a b)

/-- The state of group `k` after the rows `l`; `none` if the group does not occur. -/
def total (f : Row → S) (k : K) : List Row → Option S
  | [] => none
  | r :: l => if A.key r = k then A.combine (some (f r)) (total f k l) else total f k l

/-- One output row per group that occurs. -/
def groups (f : Row → S) (out : K → S → Row) (l : List Row) : List Row :=
  (l.map A.key).dedup.filterMap fun k => (A.total f k l).map (out k)

/-- `AggregateMode::Single`. -/
def single (l : List Row) : List Row := A.groups A.lift A.fin l
/-- `AggregateMode::Partial`. -/
def partialAgg (l : List Row) : List Row := A.groups A.lift A.row l
/-- `AggregateMode::PartialReduce`. -/
def reduceAgg (l : List Row) : List Row := A.groups A.st A.row l
/-- `AggregateMode::Final`, `AggregateMode::FinalPartitioned`. -/
def finalAgg (l : List Row) : List Row := A.groups A.st A.fin l

/-- The plan nodes. -/
def singleOp : Kind Row := .op (.det fun as => A.single (as.getD 0 [])) none
def partialOp : Kind Row := .op (.det fun as => A.partialAgg (as.getD 0 [])) (some (.det fun as => A.reduceAgg (as.getD 0 [])))
def finalOp : Kind Row := .op (.det fun as => A.finalAgg (as.getD 0 [])) none

end Agg

/-- An aggregate without `GROUP BY`: it emits one row even for no input. -/
structure GlobalAgg (Row S : Type) where
  lift : Row → S
  zero : S
  merge : S → S → S
  comm : ∀ a b, merge a b = merge b a
  assoc : ∀ a b c, merge (merge a b) c = merge a (merge b c)
  zero_merge : ∀ a, merge zero a = a
  row : S → Row
  st : Row → S
  st_row : ∀ s, st (row s) = s
  fin : S → Row

namespace GlobalAgg
variable {Row S : Type} (A : GlobalAgg Row S)

/-- The state after the rows `l`. -/
def total (f : Row → S) (l : List Row) : S := l.foldr (fun r s => A.merge (f r) s) A.zero

/-- `AggregateMode::Single`. -/
def single (l : List Row) : List Row := [A.fin (A.total A.lift l)]
/-- `AggregateMode::Partial`. -/
def partialAgg (l : List Row) : List Row := [A.row (A.total A.lift l)]
/-- `AggregateMode::PartialReduce`. -/
def reduceAgg (l : List Row) : List Row := [A.row (A.total A.st l)]
/-- `AggregateMode::Final`. -/
def finalAgg (l : List Row) : List Row := [A.fin (A.total A.st l)]

/-- The plan nodes. -/
def partialOp : Kind Row := .op (.det fun as => A.partialAgg (as.getD 0 [])) (some (.det fun as => A.reduceAgg (as.getD 0 [])))
def finalOp : Kind Row := .op (.det fun as => A.finalAgg (as.getD 0 [])) none

end GlobalAgg

end DD.Tree
