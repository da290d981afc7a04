import Verif.Model.InProcess
import Verif.Model.PlanTree
/-
Filters that hash joins learn while they run. A hash join puts the keys of its build side, once it has read them, into a filter that
the scans of its probe side apply to the rows they have not read yet (DataFusion's dynamic filters). The filter is one object in the
plan the coordinator holds. A task on another worker decodes a copy of its own, with join and scan sharing the copy if both are in the
task; a task at the coordinator's own URL is given the plan as it is, so that it sees the coordinator's object.

Models `/repo/src/coordinator/query_coordinator.rs:150-163,193-215,344-388` (the plan is passed as `MaybeEncoded::Decoded` and
specialising it keeps the expressions), `/repo/src/common/maybe_encoded.rs:48-66`, `/repo/src/codec/physical_plan.rs:22-24` (a decoded
plan keeps the identity of its expressions), `/repo/src/protocol/in_process/worker_client.rs:30-43`,
`/repo/src/distributed_planner/normalize_collect_joins.rs:198-202` (a join that is rewritten into a partitioned one keeps its filter)
and `/repo/src/events/defaults/file_scan_config.rs:59-70` (the scans of all tasks are clones, with the same filter).

Filters of sorts with a limit are in `Model/LearnedTop`. Contract of DataFusion, assumed: the filter a join publishes lets every row pass that matches a row of its build side; filters are only
published for join types that return no unmatched row of the probe side. Scans may apply a filter to any row they read after it was
published, or not. Partitioned joins with the scan of the probe side in the same stage (inputs that are partitioned on disk) are in
`Model/LearnedLocal`. Not modelled: the order in which consumers start their producers.
-/
namespace DD.Learned

open Tree InProcess

variable {Row Url : Type}

/-- The objects of one filter: the coordinator's, and the one a task decoded. `/repo/src/coordinator/query_coordinator.rs:193-203`. -/
inductive Place where
  | shared
  | own (scan : Bool) (task : Nat)
  deriving DecidableEq, Repr

/-- How the join gets its rows: both sides shuffled on the keys into `parts` partitions for each task
(`/repo/src/execution_plans/network_shuffle.rs:158-165`), or the whole build side in every task
(`/repo/src/execution_plans/network_broadcast.rs:240-275`) with the row `r` of scan task `i` going to task `reach i r`. With `same`,
the scan runs in the tasks of the join. -/
inductive Mode (Row : Type) where
  | partitioned (parts : Nat)
  | collect (same : Bool) (reach : Nat → Row → Nat)

/-- A join in `tasks` tasks at `joinUrls` over a scan of its probe side in `scans` tasks at `scanUrls`; `self` is the URL of the
coordinator if it is a worker too (`/repo/src/protocol/in_process/local_worker_context.rs:12-20`). -/
structure Query (Row Url : Type) where
  spec : JoinSpec Row
  mode : Mode Row
  tasks : Nat
  scans : Nat
  self : Option Url
  joinUrls : List Url
  scanUrls : List Url
  build : List Row
  probe : Nat → List Row

variable [DecidableEq Url] (q : Query Row Url)

/-- `/repo/src/coordinator/query_coordinator.rs:193-203`: in process when the task's URL is the coordinator's own. -/
def placeOf (self : Option Url) (scan : Bool) (urls : List Url) (t : Nat) : Place :=
  match nodeOf self urls t with
  | .shared => .shared
  | .own t => .own scan t

/-- The object task `t` of the join updates. `/repo/src/coordinator/query_coordinator.rs:193-203`. -/
def Query.joinPlace (t : Nat) : Place := placeOf q.self false q.joinUrls t

/-- The object scan task `i` reads: that of the join if they are in the same task.
`/repo/src/coordinator/query_coordinator.rs:193-203`, `/repo/src/codec/physical_plan.rs:22-24`. -/
def Query.scanPlace (i : Nat) : Place :=
  match q.mode with
  | .collect true _ => q.joinPlace i
  | _ => placeOf q.self true q.scanUrls i

/-- The rows of the build side in task `t`: those of its partitions, or all.
`/repo/src/execution_plans/network_shuffle.rs:221-251`, `network_broadcast.rs:240-275`. -/
def Query.buildOf (t : Nat) : List Row :=
  match q.mode with
  | .partitioned parts => (List.range parts).flatMap fun p => hashPart q.spec.lk (parts * q.tasks) (parts * t + p) q.build
  | .collect _ _ => q.build

/-- What is in the objects of the filter, how much each scan has read, and the rows the scans have let pass.
`DynamicFilterPhysicalExpr` of DataFusion. -/
structure State (Row : Type) where
  filter : Place → Option (Row → Bool) := fun _ => none
  read : Nat → Nat := fun _ => 0
  got : List (Nat × Row) := []

/-- A plan is encoded for another worker; a task of the join has read its build side and publishes a filter; a scan reads its next
row, with or without applying the filter. -/
inductive Step (Row : Type) where
  | sent (scan : Bool) (task : Nat)
  | learn (task : Nat) (f : Row → Bool)
  | read (scan : Nat) (apply : Bool)

/-- Encoding copies what the coordinator's object holds at that moment (`/repo/src/common/maybe_encoded.rs:52-57`, called by the
spawned sender, `/repo/src/coordinator/query_coordinator.rs:190-213`); the others are DataFusion's. -/
def State.step (st : State Row) : Step Row → State Row
  | .sent scan t => { st with filter := fun p => if p = .own scan t then st.filter .shared else st.filter p }
  | .learn t f => { st with filter := fun p => if p = q.joinPlace t then some f else st.filter p }
  | .read i apply => match (q.probe i)[st.read i]? with
    | none => st
    | some r =>
      { st with
        read := fun j => if j = i then st.read i + 1 else st.read j
        got := match apply, st.filter (q.scanPlace i) with
          | true, some f => if f r then st.got ++ [(i, r)] else st.got
          | _, _ => st.got ++ [(i, r)] }

/-- The state after some steps. `/repo/src/coordinator/query_coordinator.rs:193-215`. -/
def runFrom (st : State Row) (steps : List (Step Row)) : State Row := steps.foldl (State.step q) st

/-- The state after some steps from the start of the query. `/repo/src/coordinator/query_coordinator.rs:193-215`. -/
def run (steps : List (Step Row)) : State Row := runFrom q {} steps

/-- What the tasks of the join return together, for the rows that were let pass: partition by partition, or task by task.
`/repo/src/execution_plans/network_shuffle.rs:221-251`, `network_broadcast.rs:240-275`. -/
def Query.result (got : List (Nat × Row)) : List Row :=
  match q.mode with
  | .partitioned parts => (List.range (parts * q.tasks)).flatMap fun b =>
      joinRows q.spec (hashPart q.spec.lk (parts * q.tasks) b q.build) (hashPart q.spec.rk (parts * q.tasks) b (got.map (·.2)))
  | .collect _ reach => (List.range q.tasks).flatMap fun t =>
      joinRows q.spec q.build ((got.filter fun x => reach x.1 x.2 == t).map (·.2))

end DD.Learned
