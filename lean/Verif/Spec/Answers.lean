/-
The answers workers send about their tasks, and what becomes of them. Independent of the model.
-/
import Mathlib.Data.List.Basic

namespace DD.Answers.Spec

/-- `l` is made of `a` and `b`, each in its order, mixed in any way. -/
inductive Mixed {α : Type} : List α → List α → List α → Prop
  | nil : Mixed [] [] []
  | left {a b l : List α} (x : α) : Mixed a b l → Mixed (x :: a) b (x :: l)
  | right {a b l : List α} (x : α) : Mixed a b l → Mixed a (x :: b) (x :: l)

/-- The samplers that reported, in the order in which they were done; `none` is a sampler that was dropped. -/
def reported {R : Type} (samplers : List (Option R)) : List R := samplers.filterMap id

end DD.Answers.Spec
