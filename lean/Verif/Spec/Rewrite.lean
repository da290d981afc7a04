/-
The criteria for rewriting the plan of a stage.

`/repo/src/distributed_ext.rs:695-703`: "Each output partition must produce the same rows, including their multiplicity. The output schema,
partitioning, ordering, boundedness, and emission type of the head node must remain unchanged."

They are read as criteria for the part of the plan the worker keeps, which is the plan without a `RepartitionExec` or
`BroadcastExec` at its root: the worker takes such a root off and puts the one the consumer asks for in its place
(`ProducerHead::insert`, `/repo/src/distributed_planner/network_boundary.rs:86-106`).
-/
import Verif.Model.Rewrite
import Verif.Spec.Order

namespace DD.Tree

variable {Row : Type}

/-- On workers, the same partitions with the same rows. -/
def SamePartitions (r r' : Ran Row) : Prop :=
  r'.parts = r.parts ∧ ∀ ctx q, (r'.exec true ctx q).Perm (r.exec true ctx q)

/-- The plan `s'` may run in the place of `s`, whatever the stages `f` are that both read. -/
structure MayReplace (s s' : Plan Row) : Prop where
  /-- What a worker runs of `s'` returns what it might have returned of `s`. -/
  rows : ∀ f r', Runs (connect f s') r' → ∃ r, Runs (connect f s) r ∧ SamePartitions r.2 r'.2
  /-- `s'` promises the orders `s` promises, and its operators get their inputs in the orders they rely on. -/
  order : ∀ f o, Ordered false (connect f s) o → Ordered false (connect f s') o

/-- The criteria for a handler. -/
def KeepsStages (h : RewriteHandler Row) : Prop := ∀ s s', h s = .ok s' → MayReplace s s'

/-- `/repo/src/distributed_ext.rs:697`: "The topology of the plan must remain the same: no nodes or edges may be added or removed." A node
may become another node unless it is a boundary or an isolated union, which decide who reads what from whom. -/
inductive SameTopology : Plan Row → Plan Row → Prop where
  | node {k k' tc tc' cs cs'} : (k.isNet = true ∨ k'.isNet = true → k' = k) →
      ((∃ ws m, k = .ciu ws m) ∨ (∃ ws m, k' = .ciu ws m) → k' = k) → cs'.length = cs.length →
      (∀ (i : Nat) c c', cs[i]? = some c → cs'[i]? = some c' → SameTopology c c') → SameTopology (.node k tc cs) (.node k' tc' cs')

/-- The criterion for a handler. -/
def KeepsTopology (h : RewriteHandler Row) : Prop := ∀ s s', h s = .ok s' → SameTopology s s'

end DD.Tree
