import Verif.Model.Stats
/-
The cost of a stage: `/repo/src/distributed_planner/statistics/`.

`f32` constants are exact rationals, as in `Verif/Model/Stats.lean`. `Precision` is an `Option`: `calculate_cost` only
uses `get_value`, so whether a number is exact is not modelled. `M` is `usize::MAX`.
-/
namespace DD.StageCost

/-! ### Expressions -/

/-- A `PhysicalExpr` as `_expression_complexity` sees it (`complexity_cpu.rs:391-436`): a column, a literal, or anything
else with its children. -/
inductive Expr where
  | column (i : Nat)
  | literal
  | call (args : List Expr)

/-- `Some(match acc { Some(r) => r.plus(c), None => c })`, as in `complexity_cpu.rs:318-321`, `:383-386`, `:418-430`. -/
def plusOpt (acc : Option Complexity) (c : Complexity) : Option Complexity :=
  some (match acc with | some r => r.mkPlus c | none => c)

/-- `BytesPerRow`, `complexity_cpu.rs:294-297`. -/
structure BytesPerRow where
  processed : Option Complexity := none
  colsRead : List Nat := []

/-- The body of the loop over the children of an expression, `complexity_cpu.rs:415-433`. -/
def BytesPerRow.push (b c : BytesPerRow) : BytesPerRow where
  processed := c.colsRead.foldl (fun acc i => plusOpt acc (.linear (.column i)))
    (match c.processed with | some p => plusOpt b.processed p | none => b.processed)
  colsRead := b.colsRead ++ c.colsRead

mutual
/-- `_expression_complexity`, `complexity_cpu.rs:391-436`. -/
def Expr.bytesPerRow : Expr → BytesPerRow
  | .column i => { colsRead := [i] }
  | .literal => {}
  | .call args => bytesPerRowArgs {} args
/-- The loop of `complexity_cpu.rs:415-433`. -/
def bytesPerRowArgs (acc : BytesPerRow) : List Expr → BytesPerRow
  | [] => acc
  | e :: es => bytesPerRowArgs (acc.push e.bytesPerRow) es
end

/-- `expression_complexity`, `complexity_cpu.rs:299-303`. -/
def Expr.complexity (e : Expr) : Complexity := e.bytesPerRow.processed.getD (.constant 1)

/-- `hash_or_comparison_key_complexity`, `complexity_cpu.rs:379-389`. -/
def keyComplexity (e : Expr) : Complexity :=
  (e.bytesPerRow.colsRead.foldl (fun acc i => plusOpt acc (.linear (.column i))) none).getD (.constant 1)

/-- `join_key_complexity`, `complexity_cpu.rs:309-324`. -/
def joinKeyComplexity (e : Expr) (fromLeft : Bool) : Complexity :=
  (e.bytesPerRow.colsRead.foldl
    (fun acc i => plusOpt acc (.linear (if fromLeft then .columnFromLeft i else .columnFromRight i))) none).getD (.constant 1)

/-- DataFusion's `JoinSide` and `ColumnIndex`. -/
inductive Side where
  | left | right | none
  deriving DecidableEq

/-- A `JoinFilter`: an expression over an intermediate batch and where each of its columns comes from.
DataFusion, as read by `complexity_cpu.rs:309-338`. -/
structure JoinFilter where
  expr : Expr
  columns : List (Nat × Side)

/-- `remap_filter_columns`, `complexity_cpu.rs:344-370`. -/
def remap (log2 : Rat → Rat) (columns : List (Nat × Side)) : Complexity → Complexity
  | .constant v => .constant v
  | .linear (.column i) => match columns[i]? with
    | some (j, .left) => .linear (.columnFromLeft j)
    | some (j, .right) => .linear (.columnFromRight j)
    | _ => .constant 1
  | .linear l => .linear l
  | .log n m => (remap log2 columns n).mkLog log2 (remap log2 columns m)
  | .plus n m => (remap log2 columns n).mkPlus (remap log2 columns m)
  | .multiply n m => (remap log2 columns n).mkMultiply (remap log2 columns m)

/-- `join_filter_complexity`, `complexity_cpu.rs:333-338`. -/
def joinFilterComplexity (log2 : Rat → Rat) (f : JoinFilter) : Complexity := remap log2 f.columns f.expr.complexity

/-! ### Operators -/

/-- The operators the cost formulas tell apart, with what they read of them.
`complexity_cpu.rs:27-292`, `complexity_network.rs:7-26`. -/
inductive Node where
  | nestedLoopJoin (filter : Option JoinFilter)
  | crossJoin
  | sort (keys : List Expr) (fetch : Bool)
  | hashJoin (on : List (Expr × Expr)) (filter : Option JoinFilter)
  | sortMergeJoin (on : List (Expr × Expr)) (filter : Option JoinFilter)
  | symmetricHashJoin (on : List (Expr × Expr)) (filter : Option JoinFilter)
  /-- `noGrouping` is `group_expr().is_true_no_grouping()` -/
  | aggregate (group : List Expr) (filters : List (Option Expr)) (noGrouping : Bool)
  | windowAgg (keys : List Expr)
  | boundedWindowAgg (keys : List Expr)
  | sortPreservingMerge (keys : List Expr)
  | filter (predicate : Expr)
  | projection (exprs : List Expr)
  /-- `keys` are the expressions of hash or range partitioning, none for the other partitionings -/
  | repartition (keys : List Expr)
  | dataSource
  | limit
  | coalescePartitions
  /-- `BroadcastExec` with its `consumer_task_count` -/
  | broadcast (consumers : Nat)
  /-- `UnionExec`, `ChildrenIsolatorUnionExec` and `InterleaveExec` -/
  | union
  | empty
  /-- a network boundary: for the cpu formula an unknown node -/
  | boundary
  | other

/-- `for e in es { c = c.plus(f(e)) }`. The loops of `complexity_cpu.rs:27-292`. -/
def plusAll (c : Complexity) (cs : List Complexity) : Complexity := cs.foldl (fun acc x => acc.mkPlus x) c

/-- `if let Some(filter) = .. { c = c.plus(join_filter_complexity(filter)) }`. The joins of `complexity_cpu.rs:27-292`. -/
def plusFilter (log2 : Rat → Rat) (c : Complexity) : Option JoinFilter → Complexity
  | none => c
  | some f => c.mkPlus (joinFilterComplexity log2 f)

/-- `complexity_cpu`, `complexity_cpu.rs:27-292`. -/
def complexityCpu (log2 : Rat → Rat) : Node → Complexity
  | .nestedLoopJoin f =>
    plusFilter log2 ((Complexity.linear .allColumnsFromLeft).mkMultiply (.linear .allColumnsFromRight)) f
  | .crossJoin => (Complexity.linear .allColumnsFromLeft).mkMultiply (.linear .allColumnsFromRight)
  | .sort keys fetch =>
    let input := plusAll (.linear .allColumns) (keys.map keyComplexity)
    if fetch then input.mkLog log2 (.linear .allOutputColumns) else input.mkLog log2 input
  | .hashJoin on f =>
    let c := (Complexity.linear .allColumnsFromLeft).mkPlus (.linear .allColumnsFromLeft)
    let c := plusAll c (on.map fun k => joinKeyComplexity k.1 true)
    let c := c.mkPlus (.linear .allColumnsFromRight)
    let c := plusAll c (on.map fun k => joinKeyComplexity k.2 false)
    plusFilter log2 c f
  | .sortMergeJoin on f =>
    let c := (on.map fun k => joinKeyComplexity k.1 true).foldl plusOpt none
    let c := (on.map fun k => joinKeyComplexity k.2 false).foldl plusOpt c
    let c := match f with | none => c | some f => plusOpt c (joinFilterComplexity log2 f)
    c.getD (.constant 1)
  | .symmetricHashJoin on f =>
    let c := (Complexity.linear .allColumnsFromLeft).mkPlus (.linear .allColumnsFromLeft)
    let c := plusAll c (on.map fun k => joinKeyComplexity k.1 true)
    let c := (c.mkPlus (.linear .allColumnsFromRight)).mkPlus (.linear .allColumnsFromRight)
    let c := plusAll c (on.map fun k => joinKeyComplexity k.2 false)
    plusFilter log2 c f
  | .aggregate group filters _ =>
    let c := plusAll (.linear .allColumns) (group.map keyComplexity)
    plusAll c ((filters.filterMap id).map Expr.complexity)
  | .windowAgg keys => plusAll (.linear .allColumns) (keys.map keyComplexity)
  | .boundedWindowAgg keys => plusAll (.linear .allColumns) (keys.map keyComplexity)
  | .sortPreservingMerge keys => plusAll (.linear .allColumns) (keys.map keyComplexity)
  | .filter e => (Complexity.linear .allOutputColumns).mkPlus e.complexity
  | .projection es => ((es.map Expr.complexity).foldl plusOpt none).getD (.constant 1)
  | .repartition keys => plusAll (.linear .allColumns) (keys.map keyComplexity)
  | .dataSource => .linear .allOutputColumns
  | .limit | .coalescePartitions | .broadcast _ | .union | .empty => .constant 1
  | .boundary | .other => .linear .allOutputColumns

/-- `complexity_memory`, `complexity_memory.rs:13-93`. -/
def complexityMemory : Node → Complexity
  | .nestedLoopJoin _ | .crossJoin | .hashJoin _ _ => .linear .allColumnsFromLeft
  | .sort _ fetch =>
    if fetch then .linear .allOutputColumns else (Complexity.linear .allColumns).mkPlus (.linear .allColumns)
  | .sortMergeJoin _ _ => .constant 0
  | .symmetricHashJoin _ _ => (Complexity.linear .allColumnsFromLeft).mkPlus (.linear .allColumnsFromRight)
  | .aggregate _ _ noGrouping => if noGrouping then .constant 1 else .linear .allOutputColumns
  | .windowAgg _ => .linear .allColumns
  | .boundedWindowAgg _ => .constant 1
  | .sortPreservingMerge _ => .constant 0
  | .broadcast _ => .linear .allOutputColumns
  | _ => .constant 0

/-- `complexity_network`, `complexity_network.rs:7-26`; `children` are the operators right below. -/
def complexityNetwork (n : Node) (children : List Node) : Complexity :=
  match n with
  | .boundary => match children.head? with
    | some (.broadcast k) => (Complexity.linear .allOutputColumns).mkMultiply (.constant k)
    | _ => .linear .allOutputColumns
  | _ => .constant 0

/-! ### Statistics -/

/-- Arrow's `DataType` as `default_bytes_for_datatype` tells it apart. `primitive w`: the types with a fixed width of `w`
bytes. `default_bytes_for_datatype.rs:27-137`. -/
inductive DataType where
  | primitive (w : Nat)
  | null
  | boolean
  | fixedSizeBinary (size : Nat)
  | fixedSizeList (item : DataType) (size : Nat)
  | struct (fields : List DataType)
  | dictionary (key value : DataType)
  | union (fields : List DataType)
  | runEndEncoded (values : DataType)
  /-- `Utf8`, `Binary` -/
  | bytes
  /-- `LargeUtf8`, `LargeBinary` -/
  | largeBytes
  /-- `Utf8View`, `BinaryView` -/
  | view
  | list (item : DataType)
  | largeList (item : DataType)
  /-- `ListView`, `LargeListView` -/
  | listView (item : DataType)
  | map (entries : DataType)

mutual
/-- `default_bytes_for_datatype`, `default_bytes_for_datatype.rs:27-137`. Its unchecked `+`, `*` and `sum` are modelled
without overflow (types would have to be nested to petabytes per row). -/
def DataType.defaultBytes : DataType → Nat
  | .primitive w => 1 + w
  | .null => 0
  | .boolean => 1 + 1
  | .fixedSizeBinary n => 1 + n
  | .fixedSizeList t n => 1 + n * t.defaultBytes
  | .struct ts => (fieldBytes ts).sum
  | .dictionary k _ => k.defaultBytes
  | .union ts => 1 + (fieldBytes ts).foldr max 0
  | .runEndEncoded t => t.defaultBytes
  | .bytes => 1 + 4 + 50
  | .largeBytes => 1 + 8 + 50
  | .view => 1 + 16
  | .list t => 1 + 4 + t.defaultBytes
  | .largeList t => 1 + 8 + t.defaultBytes
  | .listView t => 1 + 8 + t.defaultBytes
  | .map t => 1 + 4 + t.defaultBytes
/-- the sizes of the fields of a struct or union. `default_bytes_for_datatype.rs:27-137`. -/
def fieldBytes : List DataType → List Nat
  | [] => []
  | t :: ts => t.defaultBytes :: fieldBytes ts
end

/-- `ColumnStatistics`: the number of distinct values and the byte size. The rest is not read here. DataFusion. -/
structure ColStats where
  distinct : Option Nat
  bytes : Option Nat
  deriving DecidableEq

/-- DataFusion's `Statistics`. -/
structure Stats where
  rows : Option Nat
  total : Option Nat
  cols : List ColStats
  deriving DecidableEq

/-- What `Complexity::cost` reads of it. `/repo/src/distributed_planner/statistics/complexity.rs:66-112`. -/
def Stats.child (s : Stats) : Complexity.ChildStats := ⟨s.total, s.cols.map (·.bytes)⟩

/-- The row count when the operator does not know it: what its children declare, `plan_statistics.rs:25-34`. The sum
of `usize`s panics when it overflows (checked builds). -/
def inheritedRows (M : Nat) (rows : Option Nat) (children : List Stats) : Except Err (Option Nat) :=
  match rows with
  | some r => .ok (some r)
  | none => match children.filterMap (·.rows) with
    | [] => .ok none
    | rs => if rs.sum > M then .error (.panic "attempt to add with overflow") else .ok (some rs.sum)

/-- One round of the loop over the columns, `plan_statistics.rs:38-61`: `ty` is the type of the field with the same
index, if there is one. Half of the rows, in `f64`, is modelled exactly. -/
def fillColumn (M rows : Nat) (ty : Option DataType) (c : ColStats) : Except Err ColStats :=
  match ty with
  | none => .error (.plan "Field not present in schema")
  | some t => .ok
    { distinct := some (c.distinct.getD (rows / 2)), bytes := some (c.bytes.getD (min (t.defaultBytes * rows) M)) }

/-- The loop over the columns, `plan_statistics.rs:38-61`, from the field `types` begins with. -/
def fillColumns (M rows : Nat) : List DataType → List ColStats → Except Err (List ColStats)
  | _, [] => .ok []
  | types, c :: cs => do
    let c' ← fillColumn M rows types.head? c
    let cs' ← fillColumns M rows types.tail cs
    return c' :: cs'

/-- Without a row count the loop stops at once, `plan_statistics.rs:39-41`. -/
def fillKnown (M : Nat) (rows : Option Nat) (types : List DataType) (cols : List ColStats) : Except Err (List ColStats) :=
  match rows with
  | none => .ok cols
  | some r => fillColumns M r types cols

/-- The total when the operator does not know it, `plan_statistics.rs:65-72`. -/
def totalBytes (M : Nat) (cols : List ColStats) : Nat :=
  cols.foldl (fun acc c => min (acc + c.bytes.getD 0) M) 0

/-- `plan_statistics`, `plan_statistics.rs:16-75`. `raw` is what `statistics_from_inputs` answers. -/
def planStatistics (M : Nat) (raw : Stats) (types : List DataType) (children : List Stats) : Except Err Stats := do
  let rows ← inheritedRows M raw.rows children
  let cols ← fillKnown M rows types raw.cols
  return { rows := rows, total := some (raw.total.getD (totalBytes M cols)), cols := cols }

/-! ### Cost of a stage -/

/-- An operator of a stage with its inputs: what it is, what its `statistics_from_inputs` answers for given statistics
of its children, and the types of its output. A network boundary to a stage that already runs has no children
(`network_boundary.rs`); its `stats` are what was measured. -/
inductive Tree where
  | node (op : Node) (stats : List Stats → Except Err Stats) (types : List DataType) (children : List Tree)

/-- Projection of `Tree` (DataFusion's `ExecutionPlan` as read in `calculate_cost.rs`). -/
def Tree.op : Tree → Node | .node op _ _ _ => op

/-- `Cost`, `cost.rs:11-16`. -/
structure Cost where
  cpu : Option Nat := none
  memory : Option Nat := none
  network : Option Nat := none
  deriving DecidableEq, Repr

/-- `sum_precision`, `cost.rs:26-33`: a plain `+`, which panics when it overflows if `checked`, and otherwise wraps. -/
def sumPrecision (checked : Bool) (M : Nat) : Option Nat → Option Nat → Except Err (Option Nat)
  | some a, some b =>
    if a + b > M then
      if checked then .error (.panic "attempt to add with overflow") else .ok (some ((a + b) % (M + 1)))
    else .ok (some (a + b))
  | some a, none => .ok (some a)
  | none, some b => .ok (some b)
  | none, none => .ok none

/-- `AddAssign for Cost`, `cost.rs:18-24`. -/
def Cost.add (checked : Bool) (M : Nat) (a b : Cost) : Except Err Cost := do
  let cpu ← sumPrecision checked M a.cpu b.cpu
  let memory ← sumPrecision checked M a.memory b.memory
  let network ← sumPrecision checked M a.network b.network
  return { cpu, memory, network }

/-- The cost of one operator, `cost.rs:50-54`. -/
def nodeCost (log2 : Rat → Rat) (M : Nat) (op : Node) (below : List Node) (stats : Stats) (children : List Stats) :
    Except Err Cost := do
  let inputs := children.map (·.child)
  let cpu ← (complexityCpu log2 op).cost M stats.total inputs
  let memory ← (complexityMemory op).cost M stats.total inputs
  let network ← (complexityNetwork op below).cost M stats.total inputs
  return { cpu, memory, network }

mutual
/-- `f`, `cost.rs:39-57`. -/
def Tree.cost (checked : Bool) (log2 : Rat → Rat) (M : Nat) : Tree → Except Err (Cost × Stats)
  | .node op stats types children => do
    let (acc, childStats) ← costs checked log2 M {} children
    let raw ← stats childStats
    let out ← planStatistics M raw types childStats
    let new ← nodeCost log2 M op (children.map Tree.op) out childStats
    let acc ← acc.add checked M new
    return (acc, out)
/-- The loop over the children, `cost.rs:43-47`. -/
def costs (checked : Bool) (log2 : Rat → Rat) (M : Nat) (acc : Cost) : List Tree → Except Err (Cost × List Stats)
  | [] => .ok (acc, [])
  | t :: ts => do
    let (c, s) ← t.cost checked log2 M
    let acc ← acc.add checked M c
    let (acc, ss) ← costs checked log2 M acc ts
    return (acc, s :: ss)
end

/-- `calculate_cost`, `cost.rs:35-37`. -/
def calculateCost (checked : Bool) (log2 : Rat → Rat) (M : Nat) (t : Tree) : Except Err Cost :=
  (t.cost checked log2 M).map (·.1)

end DD.StageCost
