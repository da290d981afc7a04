/-
What a rewrite on a worker has to keep for its metrics to be shown on the right nodes.
-/
import Verif.Spec.MetricsRewrite
import Verif.Model.Rewrite

namespace DD.Metrics

open DD.Tree DD.Tree.Rec

variable {Row : Type}

/- "The same topology" (`/repo/src/events/worker_plan_rewrite.rs:17-18`): corresponding nodes have as many children, boundaries are where
boundaries were, and isolated unions where isolated unions were, with the same assignment of tasks to children. -/
mutual
def SameTopology : Plan Row → Plan Row → Prop
  | .node k _ cs, .node k' _ cs' => k.isNet = k'.isNet ∧ (∀ m, (∃ ws, k = .ciu ws m) ↔ ∃ ws, k' = .ciu ws m) ∧
    (k.isNet = false → SameTopologyAll cs cs')
/-- Pairwise. -/
def SameTopologyAll : List (Plan Row) → List (Plan Row) → Prop
  | [], [] => True
  | c :: cs, c' :: cs' => SameTopology c c' ∧ SameTopologyAll cs cs'
  | _, _ => False
end

/-- A handler that keeps the topology of every plan it is given, and leaves a repartitioning or broadcast at its root alone. -/
def KeepsTopology (h : RewriteHandler Row) : Prop :=
  ∀ p q, h p = .ok q → SameTopology p q ∧ (q.kind.isHead = true ↔ p.kind.isHead = true)

/-- Every task of every stage of a plan ran what the handlers of its worker made of its plan, and reported what the nodes of that
recorded. -/
def ReportedRewritten {V : Type} (handlers : HandlerChain (RewriteHandler Row)) (p : Plan Row) (query : Nat) (store : Store V)
    (recorded : Nat → Nat → Path → List (Metric V)) : Prop :=
  ∀ t x c, At 1 p t x → x.kind.isNet = true → x.children = [c] → ∀ i < x.kind.tasks,
    ∃ q w r, handleRewrite handlers (decoded (share ⟨i, x.kind.tasks⟩ c)) = .ok q ∧ workerPlan x.kind t q = .ok w
      ∧ report w ⟨i, x.kind.tasks⟩ (recorded x.kind.num i) = .ok r ∧ store ⟨query, x.kind.num, i⟩ = some r

end DD.Metrics
