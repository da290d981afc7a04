/-
What showing metrics on a plan should do.
-/
import Verif.Model.MetricsRewrite
import Verif.Spec.Recursion

namespace DD.Metrics

open DD.Tree DD.Tree.Rec

variable {Row V : Type}

/-- `NodeAt p x y`: `y` is the node at position `x` of `p`, in the same stage. -/
inductive NodeAt : Plan Row → Path → Plan Row → Prop where
  | root {p} : NodeAt p [] p
  | child {k tc cs} {i : Nat} {c x y} : k.isNet = false → cs[i]? = some c → NodeAt c x y → NodeAt (.node k tc cs) (i :: x) y

/-- `Runs ctx p x`: the task that runs `p` in context `ctx` runs the node at position `x` of it. A task does not run the
branches of isolated unions that are not assigned to it, nor the stages below boundaries. -/
inductive Runs : TaskCtx → Plan Row → Path → Prop where
  | root {ctx p} : Runs ctx p []
  | child {ctx k tc cs} {i : Nat} {c x} : k.isNet = false → (∀ ws m, k ≠ .ciu ws m) → cs[i]? = some c → Runs ctx c x →
      Runs ctx (.node k tc cs) (i :: x)
  | branch {ctx ws m tc cs es} {i : Nat} {ctx₁ c x} : m[ctx.index]? = some es → (i, ctx₁) ∈ es → cs[i]? = some c →
      Runs ctx₁ c x → Runs ctx (.node (.ciu ws m) tc cs) (i :: x)

/-- A metric as it is shown for the given task. -/
def shownFor (f : Format) (task : Nat) (m : Metric V) : Metric V :=
  match f with
  | .aggregated => m
  | .perTask => ⟨m.value, m.partition, m.labels ++ [("task_id", toString task)]⟩

open Classical in
/-- What should be shown for the node at position `x` of the plan `p` of a stage with `tasks` tasks: for each task that
runs it, in order, what the task recorded for it. -/
noncomputable def expected (f : Format) (tasks : Nat) (p : Plan Row) (recorded : Nat → Path → List (Metric V)) (x : Path) :
    List (Metric V) :=
  (List.range tasks).flatMap fun i => if Runs ⟨i, tasks⟩ p x then (recorded i x).map (shownFor f i) else []

/-- Every node of a stage is an object of its own. -/
def Distinct (addr : Path → Nat) (p : Plan Row) : Prop :=
  ∀ x y, x ∈ nodes p → y ∈ nodes p → addr x = addr y → x = y

end DD.Metrics
