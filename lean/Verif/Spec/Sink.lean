/-
Plans without operators of a certain sort, here: that write.
-/
import Verif.Model.Sink

namespace DD.Tree

variable {Row : Type}

/-- No node of the plan, in any stage, is an operator of the sort `S`; neither is the operator the planner may put in to reduce the
output of a partial aggregation. -/
inductive Free (S : Op Row → Prop) : Plan Row → Prop where
  | node {k tc cs} : (∀ g red, k = .op g red → ¬ S g ∧ ∀ r, red = some r → ¬ S r) → (∀ c ∈ cs, Free S c) →
      Free S (.node k tc cs)

/-- What the scale-up handlers answer does not write unless what they are asked for does. -/
def ScalesFree (S : Op Row → Prop) (env : Env Row) : Prop :=
  ∀ p T p', Free S p → env.scale p T = some (.ok p') → Free S p'

end DD.Tree
