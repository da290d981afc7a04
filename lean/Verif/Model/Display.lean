/-
How a distributed plan is shown to the user: the text of EXPLAIN, and the drawing in Graphviz format.

Models `/repo/src/stage.rs:269-394, :648-692, :749-775, :939-1038`. Of the text, the blocks of the stages and the nodes listed in them
are modelled; of the drawing, the nodes and the edges between the tasks of different stages. The wording, the metrics, the
partition counts in the headers (`Model/StageHeader`) and the edges inside a task (`Model/DrawInside`) are not.
-/
import Verif.Model.MetricsRewrite

namespace DD.Display

open DD.Tree DD.Metrics

variable {Row : Type}

/-! ### The text -/

/-- One block of the text: how far it is indented, the stage (`none` for the head stage on the coordinator), its number of
tasks, and the positions of the nodes listed in it. `/repo/src/stage.rs:284-362`. -/
structure Block where
  depth : Nat
  stage : Option Nat
  tasks : Nat
  nodes : List Path
  deriving DecidableEq, Repr

/- `display_ascii`, stage.rs:284-362, for the input stages of a plan: the stages `find_input_stages` (:1028-1038) finds below
the children of the plan, each followed by its own input stages. A boundary without children has a remote stage, of which
nothing is known (:294-296). The list of nodes is `display_inner_ascii`, :364-394: it stops at the boundaries. -/
mutual
def below (depth : Nat) : Plan Row → List Block
  | .node _ _ cs => belowAll depth cs
/-- `below` on every child, `/repo/src/stage.rs:284-362`. -/
def belowAll (depth : Nat) : List (Plan Row) → List Block
  | [] => []
  | c :: cs => stageOf depth c ++ belowAll depth cs
/-- The block of one input stage and those below it, `/repo/src/stage.rs:284-362`. -/
def stageOf (depth : Nat) : Plan Row → List Block
  | .node k _ (c :: cs) =>
    if k.isNet then ⟨depth, some k.num, k.tasks, nodes c⟩ :: below (depth + 1) c else belowAll depth (c :: cs)
  | .node k _ [] => if k.isNet then [⟨depth, some k.num, k.tasks, []⟩] else []
end

/-- `display_plan_ascii`, stage.rs:269-282: the head stage and everything below it. -/
def display (p : Plan Row) : List Block := ⟨0, none, 1, nodes p⟩ :: below 1 p

/-! ### The drawing -/

/-- The queue of `display_plan` (stage.rs:759-774) and `display_inter_task_edges` (:953-1011): the nodes in the order they are
taken from the queue. Nodes for which `stop` holds are not followed. `fuel` bounds the number of nodes. -/
def bfs (stop : Kind Row → Bool) : Nat → List (Plan Row) → List (Plan Row)
  | 0, _ => []
  | _, [] => []
  | fuel + 1, p :: queue => p :: bfs stop fuel (queue ++ if stop p.kind then [] else p.children)

/- The number of nodes of a plan, with the stages below its boundaries. -/
mutual
/-- Not a function of the code: bounds the queue of `/repo/src/stage.rs:759-774`. -/
def size : Plan Row → Nat
  | .node _ _ cs => 1 + sizeAll cs
/-- `size` of every child; bounds the queue of `/repo/src/stage.rs:759-774`. -/
def sizeAll : List (Plan Row) → Nat
  | [] => 0
  | c :: cs => size c + sizeAll cs
end

/-- The nodes drawn for a task, stage.rs:759-774, in the order of their numbers; the first has the number 1. -/
def drawn (p : Plan Row) : List (Plan Row) := bfs Kind.isNet (size p) [p]

/-- The nodes `display_inter_task_edges` meets, stage.rs:953-1011: it does not follow shuffles and coalesces. -/
def met (p : Plan Row) : List (Plan Row) :=
  bfs (fun k => match k with | .shuffle .. | .netCoalesce .. => true | _ => false) (size p) [p]

/-- A port of a drawn node: stage, task, number of the node in the task, number of the port. `/repo/src/stage.rs:810-936`. -/
structure Port where
  stage : Nat
  task : Nat
  node : Nat
  port : Nat
  deriving DecidableEq, Repr

/-- An edge between two ports, `/repo/src/stage.rs:939-1026`. -/
structure Edge where
  source : Port
  target : Port
  deriving DecidableEq, Repr

/-- The edges drawn for one of the nodes met, stage.rs:957-1006: `index` is its number, `num` the input stage asked for, `i` the
task of it, `s` and `t` the stage and task the edges lead to. An input stage without tasks has no task `i`. -/
def edgesAt (s t num i index : Nat) (b : Plan Row) : List Edge :=
  match b.kind with
  | .shuffle _ out _ n =>
    if n ≠ num then []
    else (List.range out).map fun p => ⟨⟨num, i, 1, p + t * out⟩, ⟨s, t, index, p⟩⟩
  | .netCoalesce out tasks n =>
    if n ≠ num then []
    else (List.range (out / tasks)).map fun p => ⟨⟨num, i, 1, p⟩, ⟨s, t, index, p + i * (out / tasks)⟩⟩
  | _ => []

/-- `display_inter_task_edges`, stage.rs:939-1014. -/
def interEdges (p : Plan Row) (s t num i : Nat) : List Edge :=
  (met p).zipIdx.flatMap fun (b, j) => edgesAt s t num i (j + 1) b

/- `find_input_stages`, stage.rs:1028-1038: the boundaries whose input stages it returns. -/
mutual
def inputStages : Plan Row → List (Plan Row)
  | .node _ _ cs => inputStagesAll cs
/-- `find_input_stages` on every child, `/repo/src/stage.rs:1028-1038`. -/
def inputStagesAll : List (Plan Row) → List (Plan Row)
  | [] => []
  | c :: cs => (if c.kind.isNet then [c] else inputStages c) ++ inputStagesAll cs
end

/-- The edges drawn into the tasks of a stage, stage.rs:670-692: `s` is its number, `tasks` the number of its tasks. -/
def stageEdges (p : Plan Row) (s tasks : Nat) : List Edge :=
  (inputStages p).flatMap fun b => (List.range tasks).flatMap fun t =>
    (List.range b.kind.tasks).flatMap fun i => interEdges p s t b.kind.num i

end DD.Display
