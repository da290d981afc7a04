/-
What it means that planning ends.
-/
import Verif.Model.Create

namespace DD.Tree.Create

open DD.Tree DD.Tree.Rec

variable {Row : Type}

/-- A computation, given how deep its recursion may go, ends: from some depth on it has one result, a value or an error, and never
again runs out of depth. -/
def Ends {α : Type} (run : Nat → M α) : Prop := ∃ n r, r ≠ .error none ∧ ∀ depth, n ≤ depth → run depth = r

/-- A computation that is never done, however deep it may go. -/
def NeverEnds {α : Type} (run : Nat → M α) : Prop := ∀ depth, run depth = .error none

/-- `LeafIn x p`: `x` is a leaf of `p`. -/
inductive LeafIn : Plan Row → Plan Row → Prop where
  | self {k tc} : LeafIn (.node k tc []) (.node k tc [])
  | child {x c k tc cs} : c ∈ cs → LeafIn x c → LeafIn x (.node k tc cs)

/-- The scale-up handlers get somewhere: what they make of a leaf is again a leaf, or has only leaves that rank lower. -/
def Progress (env : Env Row) (rank : Plan Row → Nat) : Prop :=
  ∀ l T p', l.children = [] → env.scale l T = some (.ok p') → p'.children = [] ∨ ∀ x, LeafIn x p' → rank x < rank l

end DD.Tree.Create
