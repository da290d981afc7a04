/-
Parts of a query that are executed several times.

The recursive term of `WITH RECURSIVE` is executed once per step (DataFusion, `RecursiveQueryExec`): before each step its nodes are
rebuilt with their own children, and partition 0 is executed. Models what happens to an exchange in such a term, in a stage of a single
task: the rebuilt exchange has an empty connection pool (`/repo/src/execution_plans/network_shuffle.rs:203-219`, `Clone` of
`/repo/src/worker/worker_connection_pool.rs:165-169`), so that it asks the same tasks of its input stage again
(`/repo/src/worker/impl_execute_task.rs:19-59`), whose plans are kept until the query ends and are not rebuilt.

Simplifications: the term reads all of its exchanges in every step, one after the other; the streams of an exchange arrive one after
the other; memory suffices (`Model/Requests.lean` says what happens otherwise). How plans of DataFusion behave when one of their
partitions is executed again is a parameter.
-/
import Verif.Model.Requests

namespace DD.Again

open DD.Requests

variable {Row : Type}

/-- What a consumer gets of one partition of a task: rows, and the error it ends with.
`SendableRecordBatchStream` as returned at `/repo/src/worker/impl_execute_task.rs:46-58`. -/
structure Stream (Row : Type) where
  rows : List Row
  error : Option Err := none

/-- What a repartitioning (DataFusion) does when one of its partitions is executed again. A panic is in the task that forwards the
stream: the stream ends as if it were complete (`/repo/src/protocol/grpc/spawn_select_all.rs:31-53`). -/
inductive Taken where
  | panics
  | fails (e : Err)

/-- DataFusion's `RepartitionExec`, the producer head of a shuffle (`/repo/src/distributed_planner/prepare_network_boundaries.rs`). -/
def repartition (again : Taken) (n : Nat) (rows : Nat → List Row) : Plan (Stream Row) :=
  ⟨n, fun done i => .ok (if i ∈ done then match again with
      | .panics => ⟨[], none⟩
      | .fails e => ⟨[], some e⟩
    else ⟨rows i, none⟩)⟩

/-- The producer head of a broadcast, `/repo/src/execution_plans/broadcast.rs:158-215`. -/
def broadcast (b : BroadcastExec) (rows : Nat → List Row) : Plan (Stream Row) :=
  ⟨b.outPartitions, fun done i => match (b.execute (b.run BroadcastSt.init done).1 i).2 with
    | .ok r => .ok ⟨rows r, none⟩
    | .error e => .error e⟩

/-- A stage that is gathered has no producer head (`/repo/src/worker/task_data.rs:103-115`). `exec k i` is what its plan delivers of
partition `i` when it was executed `k` times before (DataFusion). -/
def gathered (n : Nat) (exec : Nat → Nat → Stream Row) : Plan (Stream Row) :=
  ⟨n, fun done i => .ok (exec (done.count i) i)⟩

/-- The rows of the streams, or the error of one. `select_all` at `/repo/src/execution_plans/network_shuffle.rs:247-250`. -/
def collect : List (Stream Row) → Except Err (List Row)
  | [] => .ok []
  | s :: ss => match s.error with
    | some e => .error e
    | none => (collect ss).map (s.rows ++ ·)

/-- One request for partitions `0..n` of a task, `/repo/src/worker/worker_connection_pool.rs:76-106`, answered at
`/repo/src/worker/impl_execute_task.rs:44-58`: the partitions executed by then, and what arrives. -/
def ask (n : Nat) (p : Plan (Stream Row)) (done : List Nat) : List Nat × Except Err (List Row) :=
  let r := executeAll p done (range 0 n)
  (r.1, match r.2 with
    | .error e => .error e
    | .ok ss => collect (ss.map (·.2)))

/-- Reading all partitions of an exchange with an empty pool: one request to each task of its input stage,
`/repo/src/execution_plans/network_shuffle.rs:221-251`. -/
def read (n : Nat) : List (Plan (Stream Row) × List Nat) → List (Plan (Stream Row) × List Nat) × Except Err (List Row)
  | [] => ([], .ok [])
  | (p, done) :: ts =>
    let r := ask n p done
    let rest := read n ts
    ((p, r.1) :: rest.1, match r.2, rest.2 with
      | .ok a, .ok b => .ok (a ++ b)
      | .error e, _ => .error e
      | .ok _, .error e => .error e)

/-- The steps of a recursive query (DataFusion, `RecursiveQueryExec`): `work` are the rows of the last step. A step executes the
term, rebuilt (`/repo/src/execution_plans/network_shuffle.rs:203-219`). `none`: not ended after so many steps. -/
def steps (term : List Row → List Row → List Row) (n : Nat) :
    Nat → List (Plan (Stream Row) × List Nat) → List Row → Except Err (Option (List Row))
  | 0, _, _ => .ok none
  | k + 1, ts, work =>
    if work.isEmpty then .ok (some [])
    else match read n ts with
      | (_, .error e) => .error e
      | (ts', .ok x) => (steps term n k ts' (term work x)).map (Option.map (work ++ ·))

/-- A recursive query whose term has an exchange over the tasks `plans`, none of whose partitions was executed before;
`first` are the rows of its static term (DataFusion, `RecursiveQueryExec`; the tasks are those of
`/repo/src/worker/impl_coordinator_channel.rs:84-96`). -/
def recursive (term : List Row → List Row → List Row) (n k : Nat) (plans : List (Plan (Stream Row))) (first : List Row) :
    Except Err (Option (List Row)) :=
  steps term n k (plans.map fun p => (p, [])) first

/-! ### Several exchanges, and `UNION` -/

/-- Reading the exchanges of a term one after the other, each with an empty pool,
`/repo/src/execution_plans/network_shuffle.rs:221-251`; `.1` is the number of partitions of an exchange. -/
def readAll : List (Nat × List (Plan (Stream Row) × List Nat)) →
    List (Nat × List (Plan (Stream Row) × List Nat)) × Except Err (List (List Row))
  | [] => ([], .ok [])
  | (n, ts) :: xs =>
    let r := read n ts
    let rest := readAll xs
    ((n, r.1) :: rest.1, match r.2, rest.2 with
      | .ok a, .ok b => .ok (a :: b)
      | .error e, _ => .error e
      | .ok _, .error e => .error e)

/-- As `steps` for a term with any number of exchanges. `keep seen new` are the rows of a step that are used: all of them for
`UNION ALL`, the new ones for `UNION` (DataFusion, `RecursiveQueryExec`). The exchanges are rebuilt as at
`/repo/src/execution_plans/network_shuffle.rs:203-219`. -/
def stepsMany (keep : List Row → List Row → List Row) (term : List Row → List (List Row) → List Row) :
    Nat → List (Nat × List (Plan (Stream Row) × List Nat)) → List Row → List Row → Except Err (Option (List Row))
  | 0, _, _, _ => .ok none
  | k + 1, xs, seen, work =>
    if work.isEmpty then .ok (some seen)
    else match readAll xs with
      | (_, .error e) => .error e
      | (xs', .ok rows) => stepsMany keep term k xs' (seen ++ work) (keep (seen ++ work) (term work rows))

/-- As `recursive` for a term with any number of exchanges (DataFusion, `RecursiveQueryExec`; the tasks are those of
`/repo/src/worker/impl_coordinator_channel.rs:84-96`). -/
def recursiveMany (keep : List Row → List Row → List Row) (term : List Row → List (List Row) → List Row) (k : Nat)
    (exchanges : List (Nat × List (Plan (Stream Row)))) (first : List Row) : Except Err (Option (List Row)) :=
  stepsMany keep term k (exchanges.map fun x => (x.1, x.2.map fun p => (p, []))) [] (keep [] first)

end DD.Again
