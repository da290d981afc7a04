/-
How the metrics of the tasks are written next to the nodes of a plan, by EXPLAIN ANALYZE.

Models `/repo/src/stage.rs:396-613`: `display_inner_distributed_leaf`, `gather_stage_header_metrics`, `aggregate_by_task_id`,
`sorted_for_display_by_task_id`, `format_metrics_by_task`, `metrics_suffix` and `metrics_by_task_id`.
-/
import Verif.Model.MetricsRewrite
import Verif.Model.WorkerSession

namespace DD.MetricsDisplay

open DD.Metrics

/-- `MetricValue` (DataFusion): `name`, `display_sort_key`, `is_timestamp`, `new_empty`, `aggregate` (which panics if the two
values are of different kinds) and `Display`. -/
structure Values (V : Type) where
  name : V → String
  sortKey : V → Nat
  timestamp : V → Bool
  empty : V → V
  aggregate : V → V → Except Err V
  print : V → String

variable {V : Type} (vals : Values V)

/-- The value of the first label with the task, stage.rs:479-483, :523-526, :559-563, :600-603. The name of the label is
`/repo/src/metrics/mod.rs:17`. -/
def taskLabel (m : Metric V) : Option String := (m.labels.find? fun l => l.1 == "task_id").map (·.2)

/-- `str::parse::<u64>`, and `usize`, which is as long. Rust's std; called at `/repo/src/stage.rs:487-503`. -/
def parseU64 (s : String) : Option Nat := (Session.parseUsize s.toList).map (·.val)

/-- The key of the map of `aggregate_by_task_id`. `/repo/src/stage.rs:473-511`. -/
abbrev Key := String × Option String

/-- The key a metric is entered under, `/repo/src/stage.rs:487-503`. -/
def keyOf (m : Metric V) : Key := (vals.name m.value, taskLabel m)

/-- The labels of an aggregated metric, stage.rs:492-494. -/
def labelsOf (k : Key) : List (String × String) :=
  match k.2 with
  | some id => [("task_id", id)]
  | none => []

/-- Entering a metric into the map, stage.rs:487-503. The map is a list of pairs. -/
def enter (m : Metric V) : List (Key × Metric V) → Except Err (List (Key × Metric V))
  | [] => do
    let v ← vals.aggregate (vals.empty m.value) m.value
    .ok [(keyOf vals m, ⟨v, none, labelsOf (keyOf vals m)⟩)]
  | (k, a) :: rest =>
    if k = keyOf vals m then do
      let v ← vals.aggregate a.value m.value
      .ok ((k, { a with value := v }) :: rest)
    else do
      let rest ← enter m rest
      .ok ((k, a) :: rest)

/-- The loop of `aggregate_by_task_id`, `/repo/src/stage.rs:473-511`. -/
def enterAll : List (Metric V) → List (Key × Metric V) → Except Err (List (Key × Metric V))
  | [], map => .ok map
  | m :: ms, map => do
    let map ← enter vals m map
    enterAll ms map

/-- `aggregate_by_task_id`, stage.rs:473-511, up to the order of the result: that of a `HashMap`. -/
def aggregateByTask (ms : List (Metric V)) : Except Err (List (Metric V)) := do
  let map ← enterAll vals ms []
  .ok (map.map (·.2))

/-- `Option<u64>` is ordered with `None` first. Rust's std; used by the sort of `/repo/src/stage.rs:517-535`. -/
def taskLe : Option Nat → Option Nat → Bool
  | none, _ => true
  | some _, none => false
  | some a, some b => decide (a ≤ b)

/-- The order of the tuples at stage.rs:527-531. -/
def sortLe (a b : Metric V) : Bool :=
  let (ka, na, ta) := (vals.sortKey a.value, vals.name a.value, (taskLabel a).bind parseU64)
  let (kb, nb, tb) := (vals.sortKey b.value, vals.name b.value, (taskLabel b).bind parseU64)
  decide (ka < kb) || (ka == kb && (decide (na < nb) || (na == nb && taskLe ta tb)))

/-- A group of `format_metrics_by_task`, stage.rs:555: the entries are written out in `render`. -/
structure Group (V : Type) where
  name : String
  hasTask : Bool
  entries : List (Option String × V)

/-- The loop at stage.rs:556-572. `groups` are the groups so far, the last one first. -/
def groupLoop : List (Metric V) → List (Group V) → List (Group V)
  | [], groups => groups.reverse
  | m :: ms, groups =>
    let entry := (taskLabel m, m.value)
    match groups with
    | g :: gs =>
      if g.name = vals.name m.value then groupLoop ms ({ g with entries := g.entries ++ [entry] } :: gs)
      else groupLoop ms (⟨vals.name m.value, (taskLabel m).isSome, [entry]⟩ :: g :: gs)
    | [] => groupLoop ms [⟨vals.name m.value, (taskLabel m).isSome, [entry]⟩]

/-- stage.rs:564-567. -/
def renderEntry : Option String × V → String
  | (some id, v) => id ++ ":" ++ vals.print v
  | (none, v) => vals.print v

/-- stage.rs:576-579. -/
def render (g : Group V) : String :=
  let entries := ", ".intercalate (g.entries.map (renderEntry vals))
  if g.hasTask then g.name ++ "={" ++ entries ++ "}" else g.name ++ "=" ++ entries

/-- `format_metrics_by_task`, stage.rs:548-582. `order` is the order in which the `HashMap` gives its values: `sort_unstable` may
leave equal ones in any order, which a stable sort of an arbitrary order does, too. -/
def format (order : List (Metric V) → List (Metric V)) (ms : List (Metric V)) : Except Err String := do
  let aggregated ← aggregateByTask vals ms
  let sorted := ((order aggregated).mergeSort (sortLe vals)).filter fun m => !vals.timestamp m.value
  .ok (", ".intercalate ((groupLoop vals sorted []).map (render vals)))

/-- `metrics_suffix`, stage.rs:587-592. -/
def suffix (formatted : Option String) : String :=
  match formatted with
  | some s => if s = "" then ", metrics=[]" else ", metrics=[" ++ s ++ "]"
  | none => ", metrics=[]"

/-- `metrics_by_task_id`, stage.rs:597-613: the metrics of a task; the map has the tasks with at least one. -/
def byTask (ms : List (Metric V)) (task : Nat) : List (Metric V) :=
  ms.filter fun m => (taskLabel m).bind parseU64 == some task

/-- The metrics written next to the variant of a leaf, stage.rs:420-423, for the metrics of its task: an entry of the map is
never empty. -/
def leafText (order : List (Metric V) → List (Metric V)) : List (Metric V) → Except Err String
  | [] => .ok (suffix none)
  | m :: own => do
    let s ← format vals order (m :: own)
    .ok (suffix (some s))

/-- The metrics written next to the variants of a leaf, stage.rs:411-425, if there are metrics with a task: one text for each of
the tasks from `i` on, of which there are `n`. -/
def leafTexts (order : List (Metric V) → List (Metric V)) (ms : List (Metric V)) : Nat → Nat → Except Err (List String)
  | _, 0 => .ok []
  | i, n + 1 => do
    let text ← leafText vals order (byTask ms i)
    let rest ← leafTexts order ms (i + 1) n
    .ok (text :: rest)

/-- The loop of `gather_stage_header_metrics`, stage.rs:449-464: `store` has the metrics of the tasks of the stage. `fuel`
bounds the number of tasks. -/
def gatherHeader (store : Nat → Option (List (Metric V))) : Nat → Nat → List (Metric V)
  | 0, _ => []
  | fuel + 1, task => match store task with
    | none => []
    | some ms => ms.map (annotate task) ++ gatherHeader store fuel (task + 1)

/-- `gather_stage_header_metrics`, stage.rs:442-466: `own` are the metrics of the stage on the coordinator. -/
def headerMetrics (own : List (Metric V)) (store : Nat → Option (List (Metric V))) (fuel : Nat) : List (Metric V) :=
  own ++ gatherHeader store fuel 0

end DD.MetricsDisplay
