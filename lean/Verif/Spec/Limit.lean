/-
What plans may return, if the order of rows matters.
-/
import Verif.Model.Limit
import Verif.Model.Merge

namespace DD.Limit

variable {Row : Type}

/-- The first rows, if there is a limit. -/
def first (fetch : Option Nat) (l : List Row) : List Row :=
  match fetch with
  | none => l
  | some n => l.take n

/- Partition counts. -/
mutual
def parts : LPlan Row → Nat
  | .op _ _ ps _ _ cs => ps (partsAll cs)
  | .exchange n _ _ _ => n
  | .netCoalesce n _ _ => n
  | .globalLimit .. => 1
  | .localLimit _ c => parts c
  | .coalesce .. => 1
  | .spm .. => 1
  | .projection _ c => parts c
def partsAll : List (LPlan Row) → List Nat
  | [] => []
  | c :: cs => parts c :: partsAll cs
end

/-- What a partition of a coalesce returns if the producer tasks return `os`: the rows of the one producer partition it
reads (`CoalesceExec.execute`), if any. -/
def coalesced (ps tasks : Nat) (ctx : TaskCtx) (os : Nat → Outcome Row) (q : Nat) : List Row :=
  match (CoalesceExec.mk ps tasks).execute ctx q with
  | .error _ => []
  | .ok pulls => pulls.flatMap fun pull => os pull.task pull.partition

/- `Outs p ctx o`: a task that runs `p` in context `ctx` may return `o`. A limit keeps the first rows of what arrives;
a coalesce of partitions interleaves them in any way; a merge interleaves them by the order; the tasks of a stage run
independently of each other. -/
mutual
def Outs : LPlan Row → TaskCtx → Outcome Row → Prop
  | .op fetch _ _ ctxOf rel cs, ctx, o => ∃ os raw, OutsAll cs (ctxOf ctx) os ∧ rel ctx os raw ∧ ∀ q, o q = first fetch (raw q)
  | .exchange _ tasks rel c, ctx, o => ∃ os : Nat → Outcome Row, (∀ t < tasks, Outs c ⟨t, tasks⟩ (os t)) ∧ rel ctx os o
  | .netCoalesce ps tasks c, ctx, o => ∃ os : Nat → Outcome Row, (∀ t < tasks, Outs c ⟨t, tasks⟩ (os t)) ∧
      ∀ q, o q = coalesced ps tasks ctx os q
  | .globalLimit skip fetch c, ctx, o => ∃ u, Outs c ctx u ∧ o 0 = first fetch ((u 0).drop skip) ∧ ∀ q > 0, o q = []
  | .localLimit n c, ctx, o => ∃ u, Outs c ctx u ∧ ∀ q, o q = (u q).take n
  | .coalesce fetch c, ctx, o => ∃ u l, Outs c ctx u ∧ Interleaved ((List.range (parts c)).map u) l
      ∧ o 0 = first fetch l ∧ ∀ q > 0, o q = []
  | .spm le fetch c, ctx, o => ∃ u l, Outs c ctx u ∧ Merged le ((List.range (parts c)).map u) l
      ∧ o 0 = first fetch l ∧ ∀ q > 0, o q = []
  | .projection f c, ctx, o => ∃ u, Outs c ctx u ∧ ∀ q, o q = (u q).map f
def OutsAll : List (LPlan Row) → (Nat → Option TaskCtx) → List (Outcome Row) → Prop
  | [], _, os => os = []
  | c :: cs, ctxs, os => ∃ o rest, os = o :: rest ∧ (match ctxs 0 with
      | none => ∀ q, o q = []
      | some ctx => Outs c ctx o) ∧ OutsAll cs (fun i => ctxs (i + 1)) rest
end

/-- Below nodes that are not known to keep only their first rows, but have or accept a fetch, there is no coalesce: the
planner only puts coalesces below `CoalescePartitionsExec` and `SortPreservingMergeExec`
(`Props/Limit`: `C12_planned_coalesces`). -/
def notCoalesce : LPlan Row → Prop
  | .netCoalesce .. => False
  | _ => True

/-- A total preorder, as sort orders are. -/
def Order (le : Row → Row → Prop) : Prop := (∀ a b, le a b ∨ le b a) ∧ ∀ a b c, le a b → le b c → le a c

/- Coalesces stand where the planner puts them, and merges have orders. -/
mutual
def Proper : LPlan Row → Prop
  | .op fetch can _ _ _ cs => (fetch ≠ none ∨ can = true → ∀ c ∈ cs, notCoalesce c) ∧ ProperAll cs
  | .exchange _ _ _ c => Proper c
  | .netCoalesce _ _ c => Proper c
  | .globalLimit _ _ c => Proper c
  | .localLimit _ c => Proper c
  | .coalesce _ c => Proper c
  | .spm le _ c => Order le ∧ Proper c
  | .projection _ c => Proper c
def ProperAll : List (LPlan Row) → Prop
  | [] => True
  | c :: cs => Proper c ∧ ProperAll cs
end

/- The height of a plan. -/
mutual
def height : LPlan Row → Nat
  | .op _ _ _ _ _ cs => heightAll cs + 1
  | .exchange _ _ _ c | .netCoalesce _ _ c | .globalLimit _ _ c | .localLimit _ c | .coalesce _ c | .spm _ _ c
  | .projection _ c => height c + 1
def heightAll : List (LPlan Row) → Nat
  | [] => 0
  | c :: cs => max (height c) (heightAll cs)
end

end DD.Limit
