/-
`EXPLAIN ANALYZE` of a distributed query.

Models `/repo/src/explain_analyze.rs` (`DistributedAnalyzeExec`), `explain_analyze` (`/repo/src/stage.rs:249-262`) with the
first lines of `rewrite_distributed_plan_with_metrics` (`/repo/src/metrics/task_metrics_rewriter.rs:44-59`), and
`DistributedExec::execute` (`/repo/src/coordinator/distributed.rs:175-245`) as far as its caller sees it.

Simplifications: the text of a plan is a function of the metrics shown on it (`Model/Display.lean` and
`Model/MetricsDisplay.lean` model this function); the time the query took is given as text.
-/
import Verif.Model.Create
import Verif.Model.MetricsRewrite

namespace DD.Analyze

open DD.Tree DD.Tree.Rec DD.Metrics

variable {Row V : Type}

/-- A stream of record batches: what `next` returns until the end.
`SendableRecordBatchStream` (DataFusion) as polled in `/repo/src/explain_analyze.rs:83-118`; batches are lists of rows. -/
abbrev Stream (Row : Type) := List (Except Err (List Row))

/-- `DistributedExec::execute`, distributed.rs:175-245. `prepared` is the result of preparing the plan (:219-222): the head
stage, which can be executed. `pending` is what the requests to workers that were still pending end with (:238). What the
spawned task returns comes last in the stream (`RecordBatchReceiverStreamBuilder`, DataFusion). -/
def distExecute (prepared : Except Err (Nat → Except Err (Stream Row))) (pending : Except Err Unit) (partition : Nat) :
    Except Err (Stream Row) :=
  if partition > 0 then .error (.exec "DistributedExec must only have 1 partition")
  else .ok (match prepared with
    | .error e => [.error e]
    | .ok head => match head partition with
      | .error e => [.error e]
      | .ok s => s ++ match pending with
        | .error e => [.error e]
        | .ok () => [])

/-- The loop over the batches of the input, explain_analyze.rs:99-102. -/
def drain : Stream Row → Nat → Except Err Nat
  | [], n => .ok n
  | .error e :: _, _ => .error e
  | .ok b :: rest, n => drain rest (n + b.length)

/-- `explain_analyze`, stage.rs:249-262, of a `DistributedExec`, after the wait: with `rewrite_distributed_plan_with_metrics`
(task_metrics_rewriter.rs:44-98). `display none` is the text of the plan as it is (:54-56), `started` is what the
`DistributedExec` keeps of the last execution (distributed.rs:224-231): `plan_for_viz`, and what the nodes of the head
stage recorded. -/
def explain (display : Option (Shown V) → String) (addr : Nat → Path → Nat) (query : Nat) (store : Option (Store V))
    (started : Option (Plan Row × (Path → List (Metric V)))) (f : Format) : M String :=
  match store with
  | none => .ok (display none)
  | some s => match started with
    | none => .error (some (.internal "No head stage found. Was execute() called?"))
    | some (p, recorded) => do
      let shown ← rewritePlan f addr query s p recorded
      .ok (display (some shown))

/-- `create_output_batch`, explain_analyze.rs:121-153: the rows of the two columns. -/
def outputBatch (rows : Nat) (duration plan : String) (full : Option String) : List (String × String) :=
  [("Plan with Metrics", plan)] ++ match full with
    | some full => [("Plan with Full Metrics", full), ("Output Rows", toString rows), ("Duration", duration)]
    | none => []

/-- `DistributedAnalyzeExec::execute`, explain_analyze.rs:81-118, when its stream is polled after the input has produced
everything and while the metrics store contains `store`: `none` as long as it waits for metrics. Both texts are made
from the store as it is when the wait is over. -/
def execute (verbose : Bool) (input : Nat → Except Err (Stream Row)) (display : Option (Shown V) → String)
    (addr : Nat → Path → Nat) (query : Nat) (store : Option (Store V))
    (started : Option (Plan Row × (Path → List (Metric V)))) (duration : String) (partition : Nat) :
    Option (M (List (String × String))) :=
  if partition ≠ 0 then some (.error (some (.internal "DistributedAnalyzeExec invalid partition")))
  else match input 0 with
    | .error e => some (.error (some e))
    | .ok s => match drain s 0 with
      | .error e => some (.error (some e))
      | .ok rows =>
        if !waitReady query store (started.map (·.1)) then none
        else some (do
          let plan ← explain display addr query store started .aggregated
          let full ← (if verbose then (do
              let t ← explain display addr query store started .perTask
              .ok (some t)) else .ok none)
          .ok (outputBatch rows duration plan full))

end DD.Analyze
