/-
`ChildrenIsolatorUnionExec`: task allocation among the children of a distributed UNION, and execution.

Models `/repo/src/execution_plans/children_isolator_union.rs`.
-/
import Verif.Model.Boundary
import Mathlib.Data.List.Sort

namespace DD.Union

/-- `ChildWeight`, children_isolator_union.rs:106-131. `weight` is an `f64` in the code. Non-finite
weights are refused by `split_children`, and every finite float is a rational. -/
structure ChildWeight where
  weight : Rat
  max : Option Nat
  deriving Repr, DecidableEq

/-- `ChildWeight::desired` / `ChildWeight::maximum`, children_isolator_union.rs:116-130. -/
def ChildWeight.desired (w : Rat) : ChildWeight := ⟨w, none⟩
/-- The cap of a child that has one, children_isolator_union.rs:124-130. -/
def ChildWeight.maximum (n : Nat) : ChildWeight := ⟨n, some n⟩

/-- An entry of `task_idx_map`: child index and the task context given to that child. children_isolator_union.rs:87-102. -/
abbrev Entry := Nat × TaskCtx
/-- `task_idx_map`, children_isolator_union.rs:87-102. -/
abbrev TaskMap := List (List Entry)

/-- The ideal shares, children_isolator_union.rs:500-509, computed exactly (the code rounds to `f64`;
`splitWith` below takes the shares as a parameter, so that the theorems cover any rounding). -/
def shares (ws : List ChildWeight) (budget : Nat) : List Rat :=
  let total : Rat := (ws.map (·.weight)).sum
  if 0 < total then ws.map fun w => (budget : Rat) * w.weight / total
  else List.replicate ws.length ((budget : Rat) / (ws.length : Rat))

/-- `floor() as usize`, then clamped by the cap, children_isolator_union.rs:514-522. -/
def floorCap (share : Rat) (max : Option Nat) : Nat :=
  let f := share.floor.toNat
  match max with
  | some m => min f m
  | none => f

/-- The cap test of the remainder pass, children_isolator_union.rs:547-551. -/
def atCap (max : Option Nat) (k : Nat) : Bool :=
  match max with
  | some m => decide (m ≤ k)
  | none => false

/-- `child_task_counts[i] += 1`, children_isolator_union.rs:541-560. -/
def addAt (counts : List Nat) (i : Nat) : List Nat :=
  match counts[i]? with
  | some k => counts.set i (k + 1)
  | none => counts

/-- One pass of the `for &idx in &order` loop, children_isolator_union.rs:543-555. -/
def pass (maxs : List (Option Nat)) : List Nat → List Nat → Nat → List Nat × Nat
  | [], counts, un => (counts, un)
  | idx :: os, counts, un =>
    if un = 0 then (counts, un)
    else if atCap (maxs.getD idx none) (counts.getD idx 0) then pass maxs os counts un
    else pass maxs os (addAt counts idx) (un - 1)

/-- The `while unallocated_task_counts > 0` loop, children_isolator_union.rs:541-560. A pass made
progress iff it gave something out. `fuel` bounds the number of passes; `un` passes are always enough
(each one but the last gives out at least one slot), and `leftover` is called with that fuel. -/
def leftoverFuel (maxs : List (Option Nat)) (order : List Nat) : Nat → List Nat → Nat → List Nat
  | 0, counts, _ => counts
  | fuel + 1, counts, un =>
    if un = 0 then counts
    else
      let r := pass maxs order counts un
      if r.2 < un then leftoverFuel maxs order fuel r.1 r.2 else r.1

/-- `unallocated_task_counts` before the passes, children_isolator_union.rs:511-532. -/
def leftover (maxs : List (Option Nat)) (order : List Nat) (counts : List Nat) (un : Nat) : List Nat :=
  leftoverFuel maxs order un counts un

/-- Fractional part of a share. `f64::fract`, children_isolator_union.rs:533-540. -/
def frac (s : Rat) : Rat := s - s.floor

/-- The comparison of `order.sort_by(..)`: descending fractional part, lower index first among equals,
children_isolator_union.rs:533-540. -/
def before (sh : List Rat) (a b : Nat) : Prop :=
  frac (sh.getD b 0) < frac (sh.getD a 0) ∨ (frac (sh.getD a 0) = frac (sh.getD b 0) ∧ a ≤ b)

instance (sh : List Rat) : DecidableRel (before sh) :=
  fun _ _ => inferInstanceAs (Decidable (_ ∨ _))

/-- `order` after sorting. `before` is a total order on distinct indices, so every correct sort gives
this list. children_isolator_union.rs:533-540. -/
def order (sh : List Rat) : List Nat := (List.range sh.length).insertionSort (before sh)

/-- `child_task_counts` after both passes, children_isolator_union.rs:511-562. -/
def taskCounts (sh : List Rat) (maxs : List (Option Nat)) (budget : Nat) : List Nat :=
  let floors := List.zipWith floorCap sh maxs
  leftover maxs (order sh) floors (budget - floors.sum)

/-- `result[slot].push(e)`; an index out of bounds panics. children_isolator_union.rs:563-604. -/
def pushAt (m : TaskMap) (slot : Nat) (e : Entry) : Except Err TaskMap :=
  match m[slot]? with
  | some l => .ok (m.set slot (l ++ [e]))
  | none => .error (.panic "index out of bounds")

/-- The slots of the children with tasks, in the order they are laid out,
children_isolator_union.rs:569-580. -/
def laidOut (counts : List Nat) : List Entry :=
  counts.zipIdx.flatMap fun (k, c) => (List.range k).map fun i => (c, ⟨i, k⟩)

/-- `result[task_idx].push(..); task_idx += 1`, children_isolator_union.rs:567-580. -/
def layOut : TaskMap → Nat → List Entry → Except Err (TaskMap × Nat)
  | m, t, [] => .ok (m, t)
  | m, t, e :: es => do
    let m ← pushAt m t e
    layOut m (t + 1) es

/-- Children without tasks, children_isolator_union.rs:588-590. -/
def zeros (counts : List Nat) : List Nat :=
  (counts.zipIdx.filter fun (k, _) => k == 0).map (·.2)

/-- The round-robin placement of children without tasks, children_isolator_union.rs:586-601. -/
def placeZeros (taskIdx : Nat) : TaskMap → Nat → List Nat → Except Err TaskMap
  | m, _, [] => .ok m
  | m, z, c :: cs => do
    let m ← pushAt m (z % taskIdx) (c, ⟨0, 1⟩)
    placeZeros taskIdx m (z + 1) cs

/-- `split_children` (children_isolator_union.rs:446-604) for given shares. -/
def splitWith (sh : List Rat) (ws : List ChildWeight) (budget : Nat) : Except Err TaskMap :=
  if budget = 0 then .error (.internal "task count 0")
  else if ws.isEmpty then .error (.internal "no children")
  else if ws.any (fun w => w.max == some 0) then .error (.plan "max task count of 0")
  else if ws.any (fun w => decide (w.weight < 0)) then .error (.plan "negative weight")
  else do
    let counts := taskCounts sh (ws.map (·.max)) budget
    let (m, taskIdx) ← layOut (List.replicate budget []) 0 (laidOut counts)
    if 0 < taskIdx then placeZeros taskIdx m 0 (zeros counts) else .ok m

/-- `split_children`, with exact shares. children_isolator_union.rs:446-604. -/
def split (ws : List ChildWeight) (budget : Nat) : Except Err TaskMap :=
  splitWith (shares ws budget) ws budget

/-! ### The node -/

/-- `ChildrenIsolatorUnionExec` (children_isolator_union.rs:87-102); a child is represented by its
partition count. -/
structure Node where
  children : List Nat
  weights : List ChildWeight
  map : TaskMap
  partitions : Nat
  deriving Repr, DecidableEq

/-- Partitions of the children run in one task, children_isolator_union.rs:168-173 (indexing panics on a
bad child index). -/
def partitionsOf (children : List Nat) : List Entry → Except Err Nat
  | [] => .ok 0
  | (c, _) :: es =>
    match children[c]? with
    | none => .error (.panic "index out of bounds")
    | some p => (partitionsOf children es).map (p + ·)

/-- `from_children_and_weights`, children_isolator_union.rs:143-195, for a given splitter. -/
def Node.make (splitter : List ChildWeight → Nat → Except Err TaskMap) (children : List Nat)
    (ws : List ChildWeight) (budget : Nat) : Except Err Node :=
  if children.length ≠ ws.length then .error (.internal "children and weights differ")
  else do
    let m ← splitter ws budget
    let counts ← m.mapM (partitionsOf children)
    match counts.max? with
    | none => .error (.internal "empty task_idx_map")
    | some p => .ok ⟨children, ws, m, p⟩

/-- `new_single_task`, children_isolator_union.rs:135-141. -/
def Node.newSingleTask (children : List Nat) : Except Err Node :=
  Node.make split children (List.replicate children.length (.desired 1)) 1

/-- `with_new_children`, children_isolator_union.rs:280-296. -/
def Node.withNewChildren (n : Node) (children : List Nat) : Except Err Node :=
  if children.length ≠ n.children.length then .error (.plan "number of children must match")
  else Node.make split children n.weights n.map.length

/-- `child_task_counts`, children_isolator_union.rs:197-207: the largest task count seen per child. -/
def Node.childTaskCounts (n : Node) : List Nat :=
  n.map.foldl (fun acc es => es.foldl (fun acc (c, ctx) =>
    match acc[c]? with
    | some k => acc.set c (max k ctx.count)
    | none => acc) acc) (List.replicate n.children.length 0)

/-- What an `execute` call runs: a partition of a child in a given task context. children_isolator_union.rs:217-275. -/
structure Run where
  child : Nat
  ctx : TaskCtx
  partition : Nat
  deriving Repr, DecidableEq

/-- The loop of `execute`, children_isolator_union.rs:327-349. `none` is the empty stream. -/
def execIn (children : List Nat) : List Entry → Nat → Except Err (Option Run)
  | [], _ => .ok none
  | (c, ctx) :: es, p =>
    match children[c]? with
    | none => .error (.internal "could not find child")
    | some n => if p < n then .ok (some ⟨c, ctx, p⟩) else execIn children es (p - n)

/-- `execute`, children_isolator_union.rs:313-351 (`task_idx_map[task_index]` panics out of bounds). -/
def Node.execute (n : Node) (task : Nat) (partition : Nat) : Except Err (Option Run) :=
  match n.map[task]? with
  | none => .error (.panic "index out of bounds")
  | some es => execIn n.children es partition

/-- `to_task_specialized`, children_isolator_union.rs:211-237: which children are kept (`true`) and which
are replaced by an empty placeholder with the same partition count (`false`). -/
def Node.kept (n : Node) (task : Nat) : List Bool :=
  (List.range n.children.length).map fun c => ((n.map.getD task []).map (·.1)).contains c

end DD.Union
