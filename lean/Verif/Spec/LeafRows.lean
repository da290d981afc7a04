/-
Which leaves of a stage feed its output while it runs.
-/
import Verif.Model.Recursion

namespace DD.Gather
open DD.Tree

/-- The rows of the leaf `q` stream through the stage `p` to its output: on its way it meets joins only from the right, since the left
side of a join is read completely before it gives its first row. -/
inductive Streams {Row : Type} : Plan Row → Plan Row → Prop
  | leaf (k tc) : Streams (.node k tc []) (.node k tc [])
  | probe (m s tc l r q) : Streams r q → Streams (.node (.join m s) tc [l, r]) q
  | under (k tc cs c q) : (∀ m s, k ≠ .join m s) → c ∈ cs → Streams c q → Streams (.node k tc cs) q

/-- Every join of the plan has two inputs. -/
inductive TwoSided {Row : Type} : Plan Row → Prop
  | join (m s tc l r) : TwoSided l → TwoSided r → TwoSided (.node (.join m s) tc [l, r])
  | other (k tc cs) : (∀ m s, k ≠ .join m s) → (∀ c ∈ cs, TwoSided c) → TwoSided (.node k tc cs)

end DD.Gather
