/-
What the workers should get of a plan, and what scaling leaves up should do.
-/
import Verif.Model.Create
import Verif.Model.MetricsRewrite
import Verif.Spec.Recursion

namespace DD.Tree.Create

open DD.Tree DD.Tree.Rec

variable {Row U : Type}

/- The part of a plan that belongs to its own stage: nothing is below the boundaries. -/
mutual
def cut : Plan Row → Plan Row
  | .node k tc cs => .node k tc (if k.isNet then [] else cutAll cs)
def cutAll : List (Plan Row) → List (Plan Row)
  | [] => []
  | c :: cs => cut c :: cutAll cs
end

/-- The task a request is for. -/
def Sent.key (query : Nat) (s : Sent Row U) : Metrics.Key := ⟨query, s.stage, s.task⟩

/-- `Scaled env T p p'`: `p'` is `p`, run with `T` tasks, with every leaf replaced by what the scale-up handlers make of it
for the number of tasks it runs with, if they make something of it. -/
inductive Scaled (env : Env Row) : Nat → Plan Row → Plan Row → Prop where
  | kept {T k tc} : env.scale (.node k tc []) T = none → Scaled env T (.node k tc []) (.node k tc [])
  | scaled {T k tc p'} : env.scale (.node k tc []) T = some (.ok p') → Scaled env T (.node k tc []) p'
  | node {T k tc cs cs'} : cs ≠ [] → cs'.length = cs.length →
      (∀ (i : Nat) c c', cs[i]? = some c → cs'[i]? = some c' → Scaled env (childCount k T i) c c') →
      Scaled env T (.node k tc cs) (.node k tc cs')

end DD.Tree.Create
