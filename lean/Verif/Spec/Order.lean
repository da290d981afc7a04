/-
The orders plans promise.

`Ordered` says that every partition of a plan returns its rows in an order, and that every operator below gets its inputs
in the order it relies on. The rules are DataFusion's (`required_input_ordering`, `maintains_input_order` and
`output_ordering` of its operators).
-/
import Verif.Model.Stream
import Verif.Spec.Limit
import Verif.Spec.Source

namespace DD.Tree

open DD.Limit

variable {Row : Type}

/-- A sort order. -/
def TotalOrder (le : Row → Row → Bool) : Prop := Limit.Order fun a b => le a b = true

/-- The matches of a probe row are ordered as the probe rows are: the order is one of columns of the probe side. -/
def ProbeKeeps (s : JoinSpec Row) (le0 le : Row → Row → Bool) : Prop :=
  (∀ r, le0 r r = true) ∧ ∀ build r r', le0 r r' = true →
    ∀ x ∈ joinRows s build [r], ∀ y ∈ joinRows s build [r'], le x y = true

/-- What a node relies on. `a i` is the order of its input `i`. -/
def Reads (k : Kind Row) (a : Nat → Option (Row → Row → Bool)) : Prop :=
  match k with
  | .op g red => (∀ i, g.needs i = none ∨ a i = g.needs i) ∧ ∀ r, red = some r → ∀ i, r.needs i = none
  | .coalesce f => ∀ g, f = some g → g.needs 0 = none
  | .spm f le => TotalOrder le ∧ a 0 = some le ∧ ∀ g, f = some g → g.needs 0 = none ∨ g.needs 0 = some le
  | .hashRepart _ _ keep => ∀ le, keep = some le → TotalOrder le
  | _ => True

/-- The order `le` a node promises. With `one`, of a plan that runs on a single node: hash repartitionings made to preserve an
order do so. -/
def Promises (one : Bool) (k : Kind Row) (a : Nat → Option (Row → Row → Bool)) (le : Row → Row → Bool) : Prop :=
  match k with
  | .leaf ps => ∀ p ∈ ps, SortedBy (some le) p
  | .distLeaf o vs => (∀ p ∈ o, SortedBy (some le) p) ∧ ∀ v ∈ vs, ∀ p ∈ v, SortedBy (some le) p
  | .op g _ => g.order = some le
  | .join _ s => s.safe = true ∧ ∃ le0, a 1 = some le0 ∧ ProbeKeeps s le0 le
  | .union | .ciu .. => ∀ i, a i = some le
  | .hashRepart _ _ keep => one = true ∧ keep = some le ∧ a 0 = some le
  | .coalesce f => ∃ g, f = some g ∧ g.order = some le
  | .spm none le' => le' = le
  | .spm (some g) _ => g.order = some le
  | .netCoalesce .. => one = false ∧ a 0 = some le
  | _ => False

/-- The plan returns the rows of every partition in order. -/
inductive Ordered (one : Bool) : Plan Row → Option (Row → Row → Bool) → Prop where
  | node {k tc cs o} (a : Nat → Option (Row → Row → Bool)) : (∀ (i : Nat) c, cs[i]? = some c → Ordered one c (a i)) →
      Reads k a → (∀ le, o = some le → Promises one k a le) → Ordered one (.node k tc cs) o

/-- Scaling up a leaf keeps the order of its partitions. -/
def ScaleKeepsOrder (env : Env Row) : Prop :=
  ∀ k tc T p' o, Ordered false (.node k tc []) o → env.scale (.node k tc []) T = some (.ok p') → Ordered false p' o

end DD.Tree
