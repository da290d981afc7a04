/-
What a stage's tasks run, all together, and the feed partitions a provider has to be ready for.
-/
import Verif.Model.FeedPlan
import Verif.Spec.Recursion

namespace DD.Tree.Rec

open DD.Tree

variable {Row : Type}

/- The nodes of one stage with the task count each one is run with, parents before children, left to right. What is below a
boundary belongs to another stage. -/
mutual
def stageNodes (T : Nat) : Plan Row → List (Nat × Plan Row)
  | .node k tc cs => (T, .node k tc cs) :: if k.isNet then [] else stageNodesAll (childCount k T) cs
def stageNodesAll (count : Nat → Nat) : List (Plan Row) → List (Nat × Plan Row)
  | [] => []
  | c :: cs => stageNodes (count 0) c ++ stageNodesAll (fun i => count (i + 1)) cs
end

/-- The contexts of `T` tasks. -/
def contexts (T : Nat) : List TaskCtx := (List.range T).map fun i => ⟨i, T⟩

/-- Every node of the stage, once in each of the tasks it is meant to run with. -/
def stageRuns (T : Nat) (p : Plan Row) : List (TaskCtx × Plan Row) :=
  (stageNodes T p).flatMap fun x => (contexts x.1).map fun ctx => (ctx, x.2)

/-- The calls a provider has to be ready for (`work_unit_feed_provider.rs:37-39`): with `P` partitions of its node and `T` tasks,
each of the `P*T` feeds, once. -/
def promisedCalls (id P T : Nat) : List Call := (List.range (P * T)).map fun g => ⟨id, T, g⟩

/-- The rows of a leaf with `P` partitions that makes `rows u` of each unit, in each of `T` tasks and each partition, where
`feed g` are the units of feed `g`. -/
def fedRows {U : Type} (rows : U → List Row) (feed : Nat → List U) (P T : Nat) : List (List (List Row)) :=
  (List.range T).map fun i => (List.range P).map fun q => (feed (P * i + q)).flatMap rows

/- The part of a plan a task runs, as `share`, but leaves with a feed stay: the task's feed gives them the task's part. -/
mutual
def shareFed (fed : Plan Row → Bool) (ctx : TaskCtx) : Plan Row → Plan Row
  | .node k tc cs => match k with
    | .distLeaf o vs =>
      if fed (.node (.distLeaf o vs) tc cs) then .node (.distLeaf o vs) tc cs
      else .node (.leaf (vs.getD ctx.index [])) tc []
    | k => .node k tc (if k.isNet then cs else shareFedAll fed (childCtx k ctx) cs)
def shareFedAll (fed : Plan Row → Bool) (arg : Nat → Option TaskCtx) : List (Plan Row) → List (Plan Row)
  | [] => []
  | c :: cs => (match arg 0 with
    | none => emptyLike c
    | some ctx => shareFed fed ctx c) :: shareFedAll fed (fun i => arg (i + 1)) cs
end

end DD.Tree.Rec
