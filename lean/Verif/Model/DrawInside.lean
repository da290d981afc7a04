/-
The edges drawn inside a task, and the ports of the nodes, in the Graphviz drawing of a plan.

Models `/repo/src/stage.rs:776-820` (the second half of `display_plan`) and what decides the number of ports in
`display_single_plan` (`/repo/src/stage.rs:872-881`, `:899-901`, `:925-927`). The nodes themselves and the edges between tasks are
`Model/Display.lean`.

Simplifications: the name of a node is written as the node; colors and the tables the ports are in are left out.
-/
import Verif.Model.Display

namespace DD.Display

open DD.Tree

variable {Row : Type}

/-- One end of an edge: `name_stage_task_number:port`, `/repo/src/stage.rs:792-807`. The name is that of the node `plan`. -/
structure End (Row : Type) where
  plan : Plan Row
  node : Nat
  port : Nat

/-- An edge inside a task, `/repo/src/stage.rs:792-807`. -/
structure Inner (Row : Type) where
  source : End Row
  target : End Row

/-- The loop of `display_plan` that draws the edges, `/repo/src/stage.rs:782-818`: a queue of nodes, each with the node above it
and its number. `index` is the number of nodes taken from the queue before; `fuel` bounds the number of nodes. -/
def innerFrom : Nat → Nat → List (Plan Row × Option (Plan Row × Nat)) → List (Inner Row)
  | 0, _, _ => []
  | _, _, [] => []
  | fuel + 1, index, (p, parent) :: queue =>
    (match parent with
      | none => []
      | some (x, j) => (List.range p.parts).map fun i => ⟨⟨p, index + 1, i⟩, ⟨x, j, i⟩⟩)
    ++ innerFrom fuel (index + 1) (queue ++ if p.kind.isNet then [] else p.children.map fun c => (c, some (p, index + 1)))

/-- The edges drawn inside a task that runs `p`, `/repo/src/stage.rs:776-820`. -/
def innerEdges (p : Plan Row) : List (Inner Row) := innerFrom (size p) 0 [(p, none)]

/-- The ports at the top of a node, `/repo/src/stage.rs:872`, `:899-901`. -/
def topPorts (p : Plan Row) : Nat := p.parts

/-- The ports at the bottom of a node, `/repo/src/stage.rs:873-879`, `:925-927`. -/
def bottomPorts (p : Plan Row) : Nat :=
  if p.kind.isNet then p.parts else match p.children with
    | [] => 1
    | c :: _ => c.parts

end DD.Display
