/-
Scaling file scans over several tasks, and `DistributedLeafExec`.

Models `/repo/src/events/defaults/file_scan_config.rs:13-95` and
`/repo/src/execution_plans/distributed_leaf.rs:72-199`.
-/
import Verif.Model.Boundary

namespace DD.Leaf

/-- A leaf plan is represented by what its partitions contain.
DataFusion's leaves; `/repo/src/execution_plans/distributed_leaf.rs:72-83`. -/
abbrev Parts (α : Type) := List (List α)

/-! ### File scans -/

/-- `rebalance_round_robin`, file_scan_config.rs:87-95 (`idx % target_groups` panics for 0 groups when
there is an item). -/
def pushMod {α : Type} (groups : List (List α)) (idx : Nat) (x : α) : Except Err (List (List α)) :=
  if groups.length = 0 then .error (.panic "remainder with a divisor of zero")
  else .ok (groups.set (idx % groups.length) (groups.getD (idx % groups.length) [] ++ [x]))

/-- `for (i, x) in items.into_iter().enumerate() { groups[i % n].push(x) }`.
`/repo/src/events/defaults/file_scan_config.rs:87-95`. -/
def spread {α : Type} : List (List α) → Nat → List α → Except Err (List (List α))
  | groups, _, [] => .ok groups
  | groups, idx, x :: xs => do
    let groups ← pushMod groups idx x
    spread groups (idx + 1) xs

/-- `rebalance_round_robin`, `/repo/src/events/defaults/file_scan_config.rs:87-95`. -/
def rebalanceRoundRobin {α : Type} (items : List α) (target : Nat) : Except Err (List (List α)) :=
  spread (List.replicate target []) 0 items

/-- `file_scan_config_desired_task_count`, file_scan_config.rs:13-34. `div_ceil` panics on a zero
divisor. -/
def desiredTaskCount (fileSizes : List (List Nat)) (bytesPerPartition targetPartitions : Nat) :
    Except Err Nat :=
  if bytesPerPartition = 0 ∨ targetPartitions = 0 then .error (.panic "division by zero")
  else .ok (divCeil (divCeil fileSizes.flatten.sum bytesPerPartition) targetPartitions)

/-- `file_scan_config_scale_up_leaf_node`, file_scan_config.rs:36-76, up to the construction of the leaf:
the file groups of each task. `groups` are the scan's file groups (`F` is a file or a byte range of one),
`declared` is `output_partitioning.is_some()`, and `repartition target` is the external
`FileGroupPartitioner::repartition_file_groups`. -/
def fileScans {F : Type} (declared : Bool) (repartition : Nat → Option (List (List F)))
    (groups : List (List F)) (partitionCount tasks : Nat) : Except Err (List (List (List F))) := do
  let rebalanced ←
    if declared then rebalanceRoundRobin groups.flatten (partitionCount * tasks)
    else .ok ((repartition (partitionCount * tasks)).getD groups)
  spread (List.replicate tasks []) 0 rebalanced

/-! ### DistributedLeafExec -/

/-- `DistributedLeafExec`, distributed_leaf.rs:72-77: the partitions of the original leaf, the advertised
partition count, and the partitions of each variant. -/
structure DistLeaf (α : Type) where
  original : Parts α
  partitions : Nat
  variants : List (Parts α)

/-- `DistributedLeafExec::try_new`, distributed_leaf.rs:85-120 (all variants of one leaf have one
schema in this model). -/
def DistLeaf.tryNew {α : Type} (original : Parts α) (variants : List (Parts α)) :
    Except Err (DistLeaf α) :=
  match variants with
  | [] => .error (.plan "empty list of variants")
  | v :: vs =>
    if vs.all fun w => decide (w.length = v.length) then .ok ⟨original, v.length, v :: vs⟩
    else .error (.plan "different partition count in two variants")

/-- Executing a partition of an ordinary leaf; a partition it does not have is an error (a panic or an
error, depending on the leaf). DataFusion's leaves. -/
def execLeaf {α : Type} (p : Parts α) (i : Nat) : Except Err (List α) :=
  match p[i]? with
  | some rows => .ok rows
  | none => .error (.exec "no such partition")

/-- `DistributedLeafExec::execute`, distributed_leaf.rs:180-199. -/
def DistLeaf.execute {α : Type} (d : DistLeaf α) (ctx : TaskCtx) (partition : Nat) :
    Except Err (List α) :=
  if ctx.count = 1 then execLeaf d.original partition
  else match d.variants[ctx.index]? with
    | none => .error (.exec "task index out of range")
    | some v => execLeaf v partition

/-- `to_task_specialized`, distributed_leaf.rs:138-140: the plan a worker gets for task `i`. -/
def DistLeaf.specialized {α : Type} (d : DistLeaf α) (i : Nat) : Except Err (Parts α) :=
  match d.variants[i]? with
  | some v => .ok v
  | none => .error (.panic "index out of bounds")

/-- The whole handler, file_scan_config.rs:36-85: `rows` is what reading a file (range) returns. -/
def scaleUp {F α : Type} (rows : F → List α) (declared : Bool)
    (repartition : Nat → Option (List (List F))) (groups : List (List F)) (partitionCount tasks : Nat) :
    Except Err (DistLeaf α) := do
  let scans ← fileScans declared repartition groups partitionCount tasks
  DistLeaf.tryNew (groups.map (·.flatMap rows)) (scans.map fun s => s.map (·.flatMap rows))

end DD.Leaf
