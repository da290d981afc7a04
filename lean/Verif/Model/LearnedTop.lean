import Verif.Model.Learned
import Mathlib.Data.List.Sort
/-
Filters that sorts with a limit learn while they run: once a task of `ORDER BY … LIMIT k` has seen `k` rows, it publishes the greatest
key of the best `k`, and scans skip rows that are not better (DataFusion's TopK). The objects of the filter are those of
`Model/Learned`, with the same citations: `/repo/src/coordinator/query_coordinator.rs:150-163,193-215,344-388`,
`/repo/src/common/maybe_encoded.rs:48-66`.

Simplification: rows are compared by keys of a linear order (rows that compare as equal have the same key). That the sort keeps the best
`k` rows, and what it publishes, is a contract of DataFusion.
-/
namespace DD.Learned

open InProcess

variable {Row Url K : Type}

/-- A sort with limit `k` in `tasks` tasks at `sortUrls` over a scan in `scans` tasks at `scanUrls`, whose rows go to task `reach i r`;
with `same` the scan is in the tasks of the sort. `/repo/src/coordinator/query_coordinator.rs:193-203`. -/
structure TopQuery (Row Url K : Type) where
  k : Nat
  key : Row → K
  same : Bool
  reach : Nat → Row → Nat
  tasks : Nat
  scans : Nat
  self : Option Url
  sortUrls : List Url
  scanUrls : List Url
  probe : Nat → List Row

/-- The keys of the best `k` rows, best first: what a sort with a limit returns. `SortExec` and `SortPreservingMergeExec` of DataFusion,
as left in place by `/repo/src/distributed_planner/insert_network_boundaries.rs`. -/
def top [LinearOrder K] (k : Nat) (keys : List K) : List K := (keys.insertionSort (· ≤ ·)).take k

variable [DecidableEq Url] [LinearOrder K] (q : TopQuery Row Url K)

/-- The object task `t` of the sort updates. `/repo/src/coordinator/query_coordinator.rs:193-203`. -/
def TopQuery.sortPlace (t : Nat) : Place := placeOf q.self false q.sortUrls t

/-- The object scan task `i` reads. `/repo/src/coordinator/query_coordinator.rs:193-203`, `/repo/src/codec/physical_plan.rs:22-24`. -/
def TopQuery.scanPlace (i : Nat) : Place := if q.same then q.sortPlace i else placeOf q.self true q.scanUrls i

/-- The published keys, how much each scan has read, and the rows that were let pass. `DynamicFilterPhysicalExpr` of DataFusion. -/
structure TopState (Row K : Type) where
  filter : Place → Option K := fun _ => none
  read : Nat → Nat := fun _ => 0
  got : List (Nat × Row) := []

/-- The keys task `t` has been given. `/repo/src/execution_plans/network_coalesce.rs:267-342`. -/
def TopQuery.keysOf (got : List (Nat × Row)) (t : Nat) : List K := (got.filter fun x => q.reach x.1 x.2 = t).map fun x => q.key x.2

/-- A plan is encoded for another worker; a task of the sort publishes its `k`-th best key; a scan reads its next row. -/
inductive TopStep where
  | sent (scan : Bool) (task : Nat)
  | learn (task : Nat)
  | read (scan : Nat) (apply : Bool)
  deriving DecidableEq, Repr

/-- Encoding copies the coordinator's object (`/repo/src/common/maybe_encoded.rs:52-57`); a sort that has `k` rows publishes the key of
the worst of its best `k`; a scan that applies the filter skips rows that are not better than what was published (DataFusion). -/
def TopState.step (st : TopState Row K) : TopStep → TopState Row K
  | .sent scan t => { st with filter := fun p => if p = .own scan t then st.filter .shared else st.filter p }
  | .learn t => match (top q.k (q.keysOf st.got t))[q.k - 1]? with
    | none => st
    | some v => { st with filter := fun p => if p = q.sortPlace t then some v else st.filter p }
  | .read i apply => match (q.probe i)[st.read i]? with
    | none => st
    | some r =>
      { st with
        read := fun j => if j = i then st.read i + 1 else st.read j
        got := match apply, st.filter (q.scanPlace i) with
          | true, some v => if q.key r < v then st.got ++ [(i, r)] else st.got
          | _, _ => st.got ++ [(i, r)] }

/-- The state after some steps from the start of the query. `/repo/src/coordinator/query_coordinator.rs:193-215`. -/
def topRun (steps : List TopStep) : TopState Row K := steps.foldl (TopState.step q) {}

/-- What the query returns: the best `k` of the best `k` of every task. `SortPreservingMergeExec` with a fetch over a
`NetworkCoalesceExec`, `/repo/src/execution_plans/network_coalesce.rs:267-342`. -/
def TopQuery.result (got : List (Nat × Row)) : List K :=
  top q.k ((List.range q.tasks).flatMap fun t => top q.k (q.keysOf got t))

end DD.Learned
