/-
Vocabulary for C67 and C68: the stages of a plan, and which data flows between their tasks.
-/
import Verif.Model.Display

namespace DD.Display

open DD.Tree DD.Metrics

variable {Row : Type}

/-- `b` is a network boundary of the plan `p`, and its input stage is `d` stages away from the stage `p` starts in. -/
inductive StageIn (b : Plan Row) : Nat → Plan Row → Prop
  | here : b.kind.isNet = true → StageIn b 1 b
  | deeper (d : Nat) (k : Kind Row) (tc : TaskCount) (cs : List (Plan Row)) (c : Plan Row) :
      k.isNet = true → c ∈ cs → StageIn b d c → StageIn b (d + 1) (.node k tc cs)
  | same (d : Nat) (k : Kind Row) (tc : TaskCount) (cs : List (Plan Row)) (c : Plan Row) :
      k.isNet = false → c ∈ cs → StageIn b d c → StageIn b d (.node k tc cs)

/-- Every boundary holds the plan of its input stage, and that plan does not begin with another boundary. -/
def Held (p : Plan Row) : Prop :=
  ∀ d b, StageIn b d p → ∃ c, b.children = [c] ∧ c.kind.isNet = false

/-- `x` is a node of the stage that begins with `p`: boundaries belong to it, what is below them does not. -/
inductive InStage (x : Plan Row) : Plan Row → Prop
  | here : InStage x x
  | child (k : Kind Row) (tc : TaskCount) (cs : List (Plan Row)) (c : Plan Row) :
      k.isNet = false → c ∈ cs → InStage x c → InStage x (.node k tc cs)

/-- The number of output partitions of a boundary. -/
def outParts (k : Kind Row) : Nat :=
  match k with
  | .shuffle _ n _ _ | .netCoalesce n _ _ | .netBroadcast n _ _ => n
  | _ => 0

/-- Executing partition `q` of a boundary in the task `ctx` reads the partition `pull.partition` of the task `pull.task` of
its input stage. -/
def Reads (k : Kind Row) (ctx : TaskCtx) (q : Nat) (pull : Pull) : Prop :=
  match k with
  | .shuffle _ n tasks _ | .netBroadcast n tasks _ => pull ∈ (FanExec.mk n tasks).execute ctx q
  | .netCoalesce n tasks _ => ∃ l, (CoalesceExec.mk n tasks).execute ctx q = .ok l ∧ pull ∈ l
  | _ => False

/-- The edge leads from where a task of the stage `s` reads to where it puts what it read: `p` is the plan of the stage,
`tasks` the number of its tasks. The producer of the data is the first node of the other stage. -/
def Flows (p : Plan Row) (s tasks : Nat) (e : Edge) : Prop :=
  ∃ (t j q : Nat) (b : Plan Row) (pull : Pull), t < tasks ∧ (drawn p)[j]? = some b ∧ b.kind.isNet = true ∧
    q < outParts b.kind ∧ Reads b.kind ⟨t, tasks⟩ q pull ∧
    e = ⟨⟨b.kind.num, pull.task, 1, pull.partition⟩, ⟨s, t, j + 1, q⟩⟩

end DD.Display
