/-
What it means that a scan keeps an order. Independent of the model.
-/
import Mathlib.Data.List.Basic

namespace DD.OrderedScan.Spec

/-- The rows are in the order `le`. -/
def InOrder {α : Type} (le : α → α → Prop) (rows : List α) : Prop := rows.Pairwise le

/-- Every partition of a scan, given by its files, is in order. -/
def ScanInOrder {F α : Type} (le : α → α → Prop) (rows : F → List α) (groups : List (List F)) : Prop :=
  ∀ g ∈ groups, InOrder le (g.flatMap rows)

end DD.OrderedScan.Spec
