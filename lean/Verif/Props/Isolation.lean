/-
**C82**: queries that use the same worker at the same time do not disturb each other.

For every history of a worker - channels, plans, requests, ends, evictions and crashes, of any number of queries in any
interleaving - a query sees the same as if the worker had served it alone. Two runs of one plan are two queries in this
sense only if their task counts are decided while they run: a plan made statically carries the identifier of its tasks,
so runs of it meet on the workers.
-/
import Verif.Lemmas.Isolation
import Verif.Model.Runs
import Verif.Props.MetricsRewrite

namespace DD.Worker

open Swmr

variable {Key Plan Head : Type} [DecidableEq Key]

/-- At the start, when everything before is over as far as the tasks `own` are concerned. -/
theorem sim_start (insert : Head → Plan → Except Err Plan) (pre : List (Step Key Plan Head)) (own : Key → Bool)
    (mc mx : Nat → Bool) (hcache : ∀ k, own k = true → (run insert State.init pre).cache k = none)
    (hover : ∀ c k ph, (run insert State.init pre).chan c = some ⟨k, ph⟩ → own k = true → ph.active = none)
    (hc : ∀ c, mc c = true → (run insert State.init pre).chan c = none)
    (hx : ∀ x, mx x = true → (run insert State.init pre).exec x = none) :
    Sim own mc mx (fun _ => False) id (run insert State.init pre) State.init := by
  have h0 : Sim (fun _ : Key => false) (fun _ => false) (fun _ => false) (fun _ => False) id
      (State.init : State Key Plan Head) (State.init : State Key Plan Head) := by
    constructor <;> simp [State.init, Cell.new]
  obtain ⟨D, ρ, h⟩ := h0.run insert pre (by intro st _; cases st <;> simp [Step.Fits])
  obtain ⟨o, inv⟩ := inv_run insert pre
  constructor
  · intro k hk; rw [hcache k hk]; rfl
  · intro k e he
    refine ⟨fun hk => ?_, False.elim⟩
    rw [hcache k hk] at he; cases he
  · intro c hm; rw [hc c hm]; rfl
  · intro c ch hch hm; rw [hc c hm] at hch; cases hch
  · intro c ch hch _ e he
    refine ⟨id, ?_⟩
    cases hk : own ch.key with
    | false => rfl
    | true => rw [hover c ch.key ch.phase hch hk] at he; cases he
  · intro x hm; rw [hx x hm]; rfl
  · intro x k hd e he
    refine ⟨fun hm => ?_, False.elim⟩
    rw [hx x hm] at he; cases he
  · intro e he; exact he.elim
  · intro e td c hv ht
    refine ⟨fun hm => ?_, False.elim⟩
    obtain ⟨-, k, ph, hch, -⟩ := inv.tx_holder e td c hv ht
    rw [hc c hm] at hch; cases hch
  · intro c hm
    show [] = _
    cases hmet : (run insert State.init pre).metrics c with
    | nil => rfl
    | cons a l =>
      have := inv.metrics_holder c (by rw [hmet]; simp)
      rw [hc c hm] at this
      exact absurd rfl this
  · intro e e₂ he; exact he.elim
  · intro e he; exact he.elim
  · exact h.cacheLt
  · exact h.chanLt
  · exact h.execLt
  · exact h.fresh
  · intro e _; rfl

/-- **C82** Queries do not disturb each other. Take any history of a worker, and of the queries it served one: `own` are
its tasks, `mc` the channels its coordinator opened, `mx` the requests for the outputs of its tasks. What the query saw -
the fate of its channels, the metrics they carried, the answers to its requests - is what it would have seen if only its
own events had happened. -/
theorem C82_queries_do_not_disturb (insert : Head → Plan → Except Err Plan) (steps : List (Step Key Plan Head))
    (own : Key → Bool) (mc mx : Nat → Bool) (hfit : ∀ st ∈ steps, st.Fits own mc mx) :
    (run insert State.init steps).view mc mx =
      (run insert State.init (steps.filter (Step.of own mc mx))).view mc mx := by
  have h0 := sim_start insert ([] : List (Step Key Plan Head)) own mc mx (fun _ _ => rfl) (fun _ _ _ h => by cases h)
    (fun _ _ => rfl) (fun _ _ => rfl)
  obtain ⟨D, ρ, h⟩ := h0.run insert steps hfit
  exact h.view_eq

/-- **C82** A query whose tasks have the identifiers of an earlier one is not disturbed by it either if the earlier one is
over on the worker: there is no entry for these tasks and none of its channels is still served. -/
theorem C82_after_an_earlier_run (insert : Head → Plan → Except Err Plan) (pre steps : List (Step Key Plan Head))
    (own : Key → Bool) (mc mx : Nat → Bool) (hfit : ∀ st ∈ steps, st.Fits own mc mx)
    (hcache : ∀ k, own k = true → (run insert State.init pre).cache k = none)
    (hover : ∀ c k ph, (run insert State.init pre).chan c = some ⟨k, ph⟩ → own k = true →
      ph.seen = .closed ∨ ph.seen = .lost ∨ ∃ err, ph.seen = .failed err)
    (hc : ∀ c, mc c = true → (run insert State.init pre).chan c = none)
    (hx : ∀ x, mx x = true → (run insert State.init pre).exec x = none) :
    (run insert State.init (pre ++ steps)).view mc mx =
      (run insert State.init (steps.filter (Step.of own mc mx))).view mc mx := by
  have h0 := sim_start insert pre own mc mx hcache (fun c k ph h hk => by
    have := hover c k ph h hk
    cases ph <;> simp [ChanPhase.seen, ChanPhase.active] at this ⊢) hc hx
  obtain ⟨D, ρ, h⟩ := h0.run insert steps hfit
  rw [show run insert State.init (pre ++ steps) = run insert (run insert State.init pre) steps from List.foldl_append]
  exact h.view_eq

/-- **C82** Runs of plans whose task counts are decided while they run are different queries: every run, of the same plan
or another one, gets what it would get alone, in every interleaving on every worker. `runC` and `runX` say which run opened
a channel or asked for an output. -/
theorem C82_dynamic_runs (insert : Head → Plan → Except Err Plan) (planned : Nat → Nat) (drawn : Nat → Nat → Nat)
    (hdrawn : ∀ q r q' r', drawn q r = drawn q' r' → q = q' ∧ r = r')
    (runC runX : Nat → Nat × Nat) (steps : List (Step Metrics.Key Plan Head))
    (hc : ∀ c k, .openChannel c k ∈ steps →
      k.query = Runs.queryId true (planned (runC c).1) (drawn (runC c).1) (runC c).2)
    (hx : ∀ x k h, .openExec x k h ∈ steps →
      k.query = Runs.queryId true (planned (runX x).1) (drawn (runX x).1) (runX x).2) (q r : Nat) :
    let own := fun k : Metrics.Key => k.query == drawn q r
    let mc := fun c => runC c == (q, r)
    let mx := fun x => runX x == (q, r)
    (run insert State.init steps).view mc mx =
      (run insert State.init (steps.filter (Step.of own mc mx))).view mc mx := by
  refine C82_queries_do_not_disturb insert steps _ _ _ fun st hst => ?_
  have key : ∀ p : Nat × Nat, (p == (q, r)) = (drawn p.1 p.2 == drawn q r) := by
    intro p
    rw [Bool.eq_iff_iff, beq_iff_eq, beq_iff_eq]
    constructor
    · rintro rfl; rfl
    · intro h; exact Prod.ext (hdrawn _ _ _ _ h).1 (hdrawn _ _ _ _ h).2
  cases st with
  | openChannel c k =>
    have := hc c k hst
    simp only [Runs.queryId, if_true] at this
    simp only [Step.Fits, this]; exact key _
  | openExec x k h =>
    have := hx x k h hst
    simp only [Runs.queryId, if_true] at this
    simp only [Step.Fits, this]; exact key _
  | _ => exact True.intro

/-! ### Runs of one static plan -/

/-- **C82 is false** of a plan made statically that runs twice at the same time: `queryId` is the same for both runs, and a
worker that is given a task of both refuses the second. -/
theorem C82_same_plan_at_once_false : ∃ (steps : List (Step Metrics.Key Nat Nat)) (k : Metrics.Key),
    (∀ r, Runs.queryId false k.query (· + 100) r = k.query) ∧
    ∃ mine : List (Step Metrics.Key Nat Nat), mine.Sublist steps ∧
      ((run (fun h p => .ok (h + p)) State.init steps).view (· == 1) (· == 1)).chan 1 =
        some (k, .failed (.exec "already written")) ∧
      ((run (fun h p => .ok (h + p)) State.init mine).view (· == 1) (· == 1)).chan 1 = some (k, .running) :=
  ⟨[.openChannel 0 ⟨7, 1, 0⟩, .setPlan 0 (.ok (5, true)), .openChannel 1 ⟨7, 1, 0⟩, .setPlan 1 (.ok (5, true))], ⟨7, 1, 0⟩,
    fun _ => rfl, [.openChannel 1 ⟨7, 1, 0⟩, .setPlan 1 (.ok (5, true))], .cons _ (.cons _ (List.Sublist.refl _)), rfl, rfl⟩

/-- **C82 is false** of a plan made statically that runs again after a run that is over for everybody outside the worker:
its channel has ended and its metrics have arrived, but the worker removes the entry only after it sent the metrics. -/
theorem C82_run_again_at_once_false : ∃ (first again : List (Step Metrics.Key Nat Nat)) (k : Metrics.Key),
    (let s := run (fun h p => .ok (h + p)) State.init first;
      (s.view (· == 0) (· == 0)).chan 0 = some (k, .ended) ∧ (s.view (· == 0) (· == 0)).metrics 0 = [6] ∧
      (s.view (· == 0) (· == 0)).exec 0 = some (k, 1, some (.ok 6))) ∧
    ((run (fun h p => .ok (h + p)) State.init (first ++ again)).view (· == 1) (· == 1)).chan 1 =
      some (k, .failed (.exec "already written")) ∧
    ((run (fun h p => .ok (h + p)) State.init again).view (· == 1) (· == 1)).chan 1 = some (k, .running) :=
  ⟨[.openChannel 0 ⟨7, 1, 0⟩, .setPlan 0 (.ok (5, true)), .openExec 0 ⟨7, 1, 0⟩ 1, .pollExec 0 false, .eos 0],
    [.openChannel 1 ⟨7, 1, 0⟩, .setPlan 1 (.ok (5, true))], ⟨7, 1, 0⟩, ⟨rfl, rfl, rfl⟩, rfl, rfl⟩

/-- **C82 is false** of a plan made statically that runs again: a request of the second run can be answered with the plan of
the first run, which names the workers chosen for the first run and whose inputs may have been consumed. -/
theorem C82_plan_of_an_earlier_run_false : ∃ (first again : List (Step Metrics.Key Nat Nat)) (k : Metrics.Key),
    ((run (fun h p => .ok (h + p)) State.init (first ++ again)).view (· == 1) (· == 1)).exec 1 = some (k, 1, some (.ok 6)) ∧
    ((run (fun h p => .ok (h + p)) State.init (again.filter (Step.of (fun _ => true) (· == 1) (· == 1)))).view (· == 1) (· == 1)).exec 1 =
      some (k, 1, some (.ok 9)) ∧
    ((run (fun h p => .ok (h + p)) State.init (first ++ again)).view (· == 1) (· == 1)).chan 1 = some (k, .running) :=
  ⟨[.openChannel 0 ⟨7, 1, 0⟩, .setPlan 0 (.ok (5, true)), .openExec 0 ⟨7, 1, 0⟩ 1, .pollExec 0 false, .eos 0],
    [.openExec 1 ⟨7, 1, 0⟩ 1, .invalidate 0, .openChannel 1 ⟨7, 1, 0⟩, .setPlan 1 (.ok (8, true)), .pollExec 1 false],
    ⟨7, 1, 0⟩, rfl, rfl, rfl⟩

/-! ### Cases it applies to -/

/-- Two queries interleaved: query 1 fails to decode its plan, ends and is removed, while query 2 runs. -/
def Demo.history : List (Step Metrics.Key Nat Nat) :=
  [.openChannel 0 ⟨1, 1, 0⟩, .openExec 1 ⟨2, 1, 0⟩ 10, .openChannel 1 ⟨2, 1, 0⟩, .setPlan 0 (.error (.user 3)),
    .setPlan 1 (.ok (5, true)), .evict ⟨1, 1, 0⟩, .pollExec 1 false, .eos 1, .openExec 0 ⟨1, 1, 0⟩ 1, .invalidate 1,
    .pollExec 0 true]

example : ∀ st ∈ Demo.history, st.Fits (fun k => k.query == 2) (· == 1) (· == 1) := by
  intro st hst
  simp only [Demo.history, List.mem_cons, List.not_mem_nil, or_false] at hst
  rcases hst with rfl | rfl | rfl | rfl | rfl | rfl | rfl | rfl | rfl | rfl | rfl <;> exact (by first | rfl | exact True.intro)

example : ((run (fun h p => .ok (h + p)) State.init Demo.history).view (· == 1) (· == 1)).chan 1 = some (⟨2, 1, 0⟩, .closed) ∧
    ((run (fun h p => .ok (h + p)) State.init Demo.history).view (· == 1) (· == 1)).exec 1 = some (⟨2, 1, 0⟩, 10, some (.ok 15)) ∧
    ((run (fun h p => .ok (h + p)) State.init Demo.history).view (· == 1) (· == 1)).metrics 1 = [15] := ⟨rfl, rfl, rfl⟩

example : (Demo.history.filter (Step.of (fun k => k.query == 2) (· == 1) (· == 1))).length = 6 := rfl

/-- A run after one that is over. -/
example : let first : List (Step Metrics.Key Nat Nat) :=
      [.openChannel 0 ⟨7, 1, 0⟩, .setPlan 0 (.ok (5, true)), .openExec 0 ⟨7, 1, 0⟩ 1, .pollExec 0 false, .eos 0, .invalidate 0]
    let s := run (fun h p => .ok (h + p)) State.init first
    s.cache ⟨7, 1, 0⟩ = none ∧ (∃ ch, s.chan 0 = some ch ∧ ch.phase.seen = .closed) ∧ s.chan 1 = none ∧ s.exec 1 = none :=
  ⟨rfl, ⟨_, rfl, rfl⟩, rfl, rfl⟩

end DD.Worker

namespace DD.Metrics

open DD.Tree

variable {Row V : Type}

/-- **C82 is false** of the metrics of a plan made statically that runs again: waiting for the metrics of the second run
returns at once, before any of its tasks has reported, whatever the plan; and what is shown then are the metrics of the
first run. -/
theorem C82_metrics_of_an_earlier_run_false (planned : Nat) (drawn : Nat → Nat) (p : Plan Row)
    (first : List (Key × List (List (Metric V))))
    (hfirst : waitReady (Runs.queryId false planned drawn 0) (some (arrived first)) (some p) = true) :
    waitReady (Runs.queryId false planned drawn 1) (some (arrived first)) (some p) = true ∧
    ∀ f addr recorded, rewritePlan f addr (Runs.queryId false planned drawn 1) (arrived first) p recorded =
      rewritePlan f addr (Runs.queryId false planned drawn 0) (arrived first) p recorded :=
  ⟨hfirst, fun _ _ _ => rfl⟩

/-- **C82** The metrics of a run of a plan whose task counts are decided while it runs are waited for: as long as a task of the run has
not reported, the wait goes on, whatever earlier runs reported. -/
theorem C82_dynamic_metrics (planned : Nat) (drawn : Nat → Nat) (hdrawn : ∀ r r', drawn r = drawn r' → r = r') (p : Plan Row)
    (r : Nat) (rs : List (Key × List (List (Metric V))))
    (hno : ∀ k m, (k, m) ∈ rs → ∃ r' ≠ r, k.query = Runs.queryId true planned drawn r')
    {t : Nat} {x : Plan Row} (hat : At 1 p t x) (hnet : x.kind.isNet = true) (htasks : 0 < x.kind.tasks) :
    waitReady (Runs.queryId true planned drawn r) (some (arrived rs)) (some p) = false := by
  cases h : waitReady (Runs.queryId true planned drawn r) (some (arrived rs)) (some p) with
  | false => rfl
  | true =>
    obtain ⟨m, hm⟩ := (C37_wait_exact _ p rs).1 h t x hat hnet 0 htasks
    obtain ⟨r', hne, e⟩ := hno _ m hm
    exact absurd (hdrawn _ _ e.symm) hne

end DD.Metrics
