/-
What the operators of a stage cost: one closed formula per operator, in bytes, without the code's way of building and
simplifying expressions.
-/
import Verif.Model.Cost
import Mathlib.Data.List.Forall2

namespace DD.StageCost

mutual
/-- The columns that occur in an expression, each with the number of operations above it. -/
def Expr.occurrences : Expr → List (Nat × Nat)
  | .column i => [(i, 0)]
  | .literal => []
  | .call args => (argOccurrences args).map fun o => (o.1, o.2 + 1)
def argOccurrences : List Expr → List (Nat × Nat)
  | [] => []
  | e :: es => e.occurrences ++ argOccurrences es
end

/-- The columns an expression reads. -/
def Expr.columns (e : Expr) : List Nat := e.occurrences.map (·.1)

/-- The sizes in bytes an operator sees: of its first input, its last input and its output, and of the columns of the
inputs. -/
structure Sizes where
  left : Nat
  right : Nat
  out : Nat
  leftCol : Nat → Nat
  rightCol : Nat → Nat

/-- Evaluating an expression reads every column once for every operation above it; expressions that compute nothing
from columns cost one byte. -/
def evalBytes (col : Nat → Nat) (e : Expr) : Nat :=
  if e.occurrences.any (fun o => 0 < o.2) then (e.occurrences.map fun o => o.2 * col o.1).sum else 1

/-- Hashing or comparing a key reads every column of it once. -/
def keyBytes (col : Nat → Nat) (e : Expr) : Nat :=
  if e.columns = [] then 1 else (e.columns.map col).sum

/-- The bytes of a column of a join filter: those of the column of the side it comes from, else one. -/
def filterCol (s : Sizes) (f : JoinFilter) (i : Nat) : Nat :=
  match f.columns[i]? with
  | some (j, .left) => s.leftCol j
  | some (j, .right) => s.rightCol j
  | _ => 1

def filterBytes (s : Sizes) (f : JoinFilter) : Nat := evalBytes (filterCol s f) f.expr

def optFilterBytes (s : Sizes) : Option JoinFilter → Nat
  | none => 0
  | some f => filterBytes s f

/-- The bytes an operator that is not a sort reads and hashes. -/
def cpuBytes (s : Sizes) : Node → Nat
  | .nestedLoopJoin f => s.left * s.right + optFilterBytes s f
  | .crossJoin => s.left * s.right
  | .sort keys _ => s.left + (keys.map (keyBytes s.leftCol)).sum
  | .hashJoin on f =>
    2 * s.left + s.right + (on.map fun k => keyBytes s.leftCol k.1).sum + (on.map fun k => keyBytes s.rightCol k.2).sum
      + optFilterBytes s f
  | .sortMergeJoin on f =>
    if on = [] ∧ f.isNone then 1
    else (on.map fun k => keyBytes s.leftCol k.1).sum + (on.map fun k => keyBytes s.rightCol k.2).sum + optFilterBytes s f
  | .symmetricHashJoin on f =>
    2 * s.left + 2 * s.right + (on.map fun k => keyBytes s.leftCol k.1).sum
      + (on.map fun k => keyBytes s.rightCol k.2).sum + optFilterBytes s f
  | .aggregate group filters _ =>
    s.left + (group.map (keyBytes s.leftCol)).sum + ((filters.filterMap id).map (evalBytes s.leftCol)).sum
  | .windowAgg keys | .boundedWindowAgg keys | .sortPreservingMerge keys | .repartition keys =>
    s.left + (keys.map (keyBytes s.leftCol)).sum
  | .filter e => s.out + evalBytes s.leftCol e
  | .projection es => if es = [] then 1 else (es.map (evalBytes s.leftCol)).sum
  | .dataSource | .boundary | .other => s.out
  | .limit | .coalescePartitions | .broadcast _ | .union | .empty => 1

/-- What sorting multiplies its bytes with: the logarithm of what is kept. -/
def sortKept (s : Sizes) (keys : List Expr) (fetch : Bool) : Nat :=
  if fetch then s.out else s.left + (keys.map (keyBytes s.leftCol)).sum

/-- The bytes an operator keeps in memory. -/
def memoryBytes (s : Sizes) : Node → Nat
  | .nestedLoopJoin _ | .crossJoin | .hashJoin _ _ => s.left
  | .symmetricHashJoin _ _ => s.left + s.right
  | .sort _ fetch => if fetch then s.out else 2 * s.left
  | .aggregate _ _ noGrouping => if noGrouping then 1 else s.out
  | .windowAgg _ => s.left
  | .boundedWindowAgg _ => 1
  | .broadcast _ => s.out
  | _ => 0

/-- The bytes an operator receives over the network. -/
def networkBytes (s : Sizes) (below : List Node) : Node → Nat
  | .boundary => match below with
    | .broadcast k :: _ => s.out * k
    | _ => s.out
  | _ => 0

/-- The columns of the first input an operator reads: those of all its expressions and, for a join, those of the left
keys and those its filter takes from the left. -/
def filterReads (side : Side) : Option JoinFilter → List Nat
  | none => []
  | some f => f.expr.columns.filterMap fun i =>
      match f.columns[i]? with
      | some (j, sd) => if sd = side then some j else none
      | none => none

def Node.leftReads : Node → List Nat
  | .nestedLoopJoin f => filterReads .left f
  | .hashJoin on f | .sortMergeJoin on f | .symmetricHashJoin on f =>
    (on.map fun k => k.1.columns).flatten ++ filterReads .left f
  | .sort keys _ | .windowAgg keys | .boundedWindowAgg keys | .sortPreservingMerge keys | .repartition keys =>
    (keys.map Expr.columns).flatten
  | .aggregate group filters _ => (group.map Expr.columns).flatten ++ ((filters.filterMap id).map Expr.columns).flatten
  | .filter e => e.columns
  | .projection es => (es.map Expr.columns).flatten
  | _ => []

def Node.rightReads : Node → List Nat
  | .nestedLoopJoin f => filterReads .right f
  | .hashJoin on f | .sortMergeJoin on f | .symmetricHashJoin on f =>
    (on.map fun k => k.2.columns).flatten ++ filterReads .right f
  | _ => []

/-- Operators that may be leaves of a stage: sources, network boundaries and unknown ones. -/
def Node.isLeaf : Node → Bool
  | .dataSource | .empty | .boundary | .other => true
  | _ => false

/-- The statistics of an operator's inputs and output give these sizes: all sizes the operator's formulas mention are
known (and are machine words). -/
structure Known (M : Nat) (op : Node) (stats : Stats) (children : List Stats) (s : Sizes) : Prop where
  left : op.isLeaf = false → ∃ c, children.head? = some c ∧ c.total = some s.left
    ∧ ∀ i ∈ op.leftReads, ∃ k, c.cols[i]? = some k ∧ k.bytes = some (s.leftCol i)
  right : op.isLeaf = false → ∃ c, children.getLast? = some c ∧ c.total = some s.right
    ∧ ∀ i ∈ op.rightReads, ∃ k, c.cols[i]? = some k ∧ k.bytes = some (s.rightCol i)
  out : stats.total = some s.out
  words : ∀ c ∈ stats :: children, (∀ n, c.total = some n → n ≤ M) ∧ ∀ k ∈ c.cols, ∀ n, k.bytes = some n → n ≤ M

/-! ### A stage -/

/-- An operator of a stage, what is right below it, its statistics and those of its inputs. -/
structure Visit where
  op : Node
  below : List Node
  stats : Stats
  children : List Stats

mutual
/-- The statistics of a stage's output and all its operators, each once with the statistics it sees. -/
def Tree.visits (M : Nat) : Tree → Except Err (Stats × List Visit)
  | .node op stats types children => do
    let (ss, vs) ← visitsAll M children
    let raw ← stats ss
    let out ← planStatistics M raw types ss
    return (out, vs ++ [⟨op, children.map Tree.op, out, ss⟩])
def visitsAll (M : Nat) : List Tree → Except Err (List Stats × List Visit)
  | [] => .ok ([], [])
  | t :: ts => do
    let (s, v) ← t.visits M
    let (ss, vs) ← visitsAll M ts
    return (s :: ss, v ++ vs)
end

mutual
/-- The operators of a stage, inputs first. -/
def Tree.ops : Tree → List Node
  | .node op _ _ children => opsAll children ++ [op]
def opsAll : List Tree → List Node
  | [] => []
  | t :: ts => t.ops ++ opsAll ts
end

/-- The sum of the known numbers, unknown if none is known. -/
def sumKnown (l : List (Option Nat)) : Option Nat :=
  if l.filterMap id = [] then none else some (l.filterMap id).sum

/-- The costs of several operators together. -/
def together (ks : List Cost) : Cost := ⟨sumKnown (ks.map (·.cpu)), sumKnown (ks.map (·.memory)), sumKnown (ks.map (·.network))⟩

/-- An operator of a stage is charged `k`. -/
def Charged (log2 : Rat → Rat) (M : Nat) (v : Visit) (k : Cost) : Prop :=
  nodeCost log2 M v.op v.below v.stats v.children = .ok k

/-! ### More data -/

/-- The same numbers are known, and none is smaller. -/
def SizeNoLess : Option Nat → Option Nat → Prop
  | none, none => True
  | some a, some b => a ≤ b
  | _, _ => False

structure ColStats.NoLess (a b : ColStats) : Prop where
  distinct : SizeNoLess a.distinct b.distinct
  bytes : SizeNoLess a.bytes b.bytes

structure Stats.NoLess (a b : Stats) : Prop where
  rows : SizeNoLess a.rows b.rows
  total : SizeNoLess a.total b.total
  cols : List.Forall₂ ColStats.NoLess a.cols b.cols

structure Cost.NoLess (a b : Cost) : Prop where
  cpu : SizeNoLess a.cpu b.cpu
  memory : SizeNoLess a.memory b.memory
  network : SizeNoLess a.network b.network

/-- The same stage over no less data: the operators are the same, and each operator of the second, given no less input,
declares no less output than the first. -/
inductive Tree.NoLess : Tree → Tree → Prop where
  | node {op f g types ts us} :
      (∀ xs ys a b, List.Forall₂ Stats.NoLess xs ys → f xs = .ok a → g ys = .ok b → Stats.NoLess a b) →
      ts.length = us.length → (∀ (i : Nat) t u, ts[i]? = some t → us[i]? = some u → Tree.NoLess t u) →
      Tree.NoLess (.node op f types ts) (.node op g types us)

/-- Going down the first inputs of the stage ends at an operator that may be a leaf. -/
inductive Tree.Grounded : Tree → Prop where
  | leaf {op f types} : op.isLeaf = true → Tree.Grounded (.node op f types [])
  | inner {op f types t ts} : Tree.Grounded t → Tree.Grounded (.node op f types (t :: ts))

end DD.StageCost
