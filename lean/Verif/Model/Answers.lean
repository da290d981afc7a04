/-
What a worker sends back about a task, and what the coordinator does with it.

Models the response stream of `/repo/src/worker/impl_coordinator_channel.rs:174-195` and
`worker_to_coordinator_task`, `/repo/src/coordinator/query_coordinator.rs:225-265`, with
`/repo/src/coordinator/metrics_store.rs:9-28`.
-/
import Verif.Spec.Answers

namespace DD.Answers

/-- `WorkerToCoordinatorMsg`, `/repo/src/protocol/worker_channel.rs:117-127`: a report of a sampler, the end of
the reports, and the metrics of the task. -/
inductive Msg (R M : Type) where
  | loadInfo (r : R)
  | loadInfoEos
  | taskMetrics (m : M)
deriving DecidableEq, Repr

/-- `load_info_stream`, `/repo/src/worker/impl_coordinator_channel.rs:174-182`. `samplers` are the receivers in the
order in which they are done; `none` is one whose sender was dropped. -/
def loadInfoStream {R M : Type} (samplers : List (Option R)) : List (Msg R M) :=
  samplers.filterMap (fun x => x.map Msg.loadInfo) ++ [.loadInfoEos]

/-- `metrics_stream`, `/repo/src/worker/impl_coordinator_channel.rs:184-191`; `none` if the sender was dropped. -/
def metricsStream {R M : Type} (metrics : Option M) : List (Msg R M) :=
  match metrics with
  | none => []
  | some m => [.taskMetrics m]

/-- `futures::stream::select(load_info_stream, metrics_stream)`,
`/repo/src/worker/impl_coordinator_channel.rs:193-195`: which stream is polled first is free. -/
def Answer {R M : Type} (samplers : List (Option R)) (metrics : Option M) (l : List (Msg R M)) : Prop :=
  Spec.Mixed (loadInfoStream samplers) (metricsStream metrics) l

/-- `TaskKey` of one query, `/repo/src/coordinator/query_coordinator.rs:233-237`: stage and task number. -/
abbrev Key := Nat × Nat

/-- The channel of the reports of a task, `/repo/src/coordinator/query_coordinator.rs:239-240`: what was sent, and
whether the sender still exists. -/
structure Chan (R : Type) where
  sent : List R
  isOpen : Bool
deriving DecidableEq, Repr

/-- The channels of all tasks, and `MetricsStore`, `/repo/src/coordinator/metrics_store.rs:9-28`. -/
structure State (R M : Type) where
  chan : Key → Chan R
  store : Key → Option M

/-- At the start, `/repo/src/coordinator/query_coordinator.rs:239-240`, `/repo/src/coordinator/metrics_store.rs:15-18`. -/
def State.init {R M : Type} : State R M := ⟨fun _ => ⟨[], true⟩, fun _ => none⟩

/-- What happens to the task of `key`: a message arrives (`some`), or its stream ends (`none`), which ends the
spawned task and drops the sender. `/repo/src/coordinator/query_coordinator.rs:245-263`. `collect` tells whether
there is a `MetricsStore`. -/
def State.step {R M : Type} (collect : Bool) (st : State R M) (ev : Key × Option (Msg R M)) : State R M :=
  match ev with
  | (key, some (.taskMetrics m)) =>
    if collect then { st with store := fun k => if k = key then some m else st.store k } else st
  | (key, some (.loadInfo r)) =>
    if (st.chan key).isOpen then
      { st with chan := fun k => if k = key then ⟨(st.chan key).sent ++ [r], true⟩ else st.chan k }
    else st
  | (key, some .loadInfoEos) =>
    { st with chan := fun k => if k = key then ⟨(st.chan key).sent, false⟩ else st.chan k }
  | (key, none) =>
    { st with chan := fun k => if k = key then ⟨(st.chan key).sent, false⟩ else st.chan k }

/-- The coordinator after a history of all tasks, `/repo/src/coordinator/query_coordinator.rs:245-263`. -/
def run {R M : Type} (collect : Bool) (es : List (Key × Option (Msg R M))) : State R M :=
  es.foldl (State.step collect) .init

end DD.Answers
