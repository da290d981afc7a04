/-
C95: recursive queries with an exchange in their recursive term.

The full property would be: for every query, the distributed execution returns the rows of the single-node execution or fails. It holds
when the input stage of the exchange is gathered and can be executed again, and it is false for shuffles over the network when a
repartitioning panics on a second execution. Missing from the positive statements: terms in stages of several tasks, terms that
stop reading early.
-/
import Verif.Lemmas.Again
import Verif.Props.Pool

namespace DD.Again

open DD.Requests

variable {Row : Type}

/-- A recursive query whose term gathers a stage that delivers the same rows each time it is executed returns what it returns on a
single node, however many steps it takes. -/
theorem C95_gathered_partial (term : List Row → List Row → List Row) (n fuel : Nat) (tasks : List (Nat → List Row)) (first : List Row) :
    recursive term n fuel (tasks.map fun rows => gathered n fun _ i => ⟨rows i, none⟩) first
      = .ok (answer term (stageRows n tasks) fuel first) := by
  have := steps_same (mk := fun rows => gathered n fun _ i => ⟨rows i, none⟩) (f := fun rows _ i => .ok ⟨rows i, none⟩)
    (fun r => counts_gathered n _) (fun r => r) tasks term 0 (fun _ _ _ _ _ _ => rfl) fuel 0 (Nat.le_refl _) _
    (tasks_start n _ tasks) first
  rw [List.map_id'] at this
  exact this

/-- Whatever the plans of the input stage are: if each execution of a partition delivers its rows or an error, a recursive query
returns what it returns on a single node or fails. -/
theorem C95_right_or_fails_partial (term : List Row → List Row → List Row) (n fuel : Nat)
    (tasks : List ((Nat → List Row) × Plan (Stream Row))) (hp : ∀ t ∈ tasks, RightOrFails n t.1 t.2) (first : List Row) :
    recursive term n fuel (tasks.map (·.2)) first = .ok (answer term (stageRows n (tasks.map (·.1))) fuel first)
      ∨ ∃ e, recursive term n fuel (tasks.map (·.2)) first = .error e :=
  steps_rightOrFails tasks hp term fuel _ (by simp [Function.comp_def]) first

/-- So it is with every broadcast, for any number of consumers, and with every repartitioning that fails rather than panics when it is
executed again. -/
theorem C95_heads_right_or_fail_partial (n consumers : Nat) (e : Err) (rows : Nat → List Row) :
    RightOrFails n rows (repartition (.fails e) n rows) ∧ RightOrFails n rows (broadcast ⟨n, consumers⟩ rows) := by
  constructor
  · intro done i s _ h
    unfold repartition at h
    simp only [Except.ok.injEq] at h
    subst h
    by_cases hd : i ∈ done
    · exact .inr ⟨e, by simp [hd]⟩
    · exact .inl (by simp [hd])
  · intro done i s hi h
    unfold broadcast BroadcastExec.execute at h
    simp only [show n ≠ 0 by omega, if_false] at h
    split at h
    · rename_i r hr
      split at hr
      · simp at hr
      · simp only [Except.ok.injEq] at hr h
        subst hr h
        left
        rw [Nat.mod_eq_of_lt hi]
    · simp at h

/-- If the stage that is gathered cannot be executed again, as when there is another exchange in it (which hands out each partition
once), then a query that takes a second step fails: no rows are missing without an error. -/
theorem C95_gathered_once_fails_partial (term : List Row → List Row → List Row) (n fuel : Nat) (hn : 0 < n) (e : Err)
    (tasks : List (Nat → List Row)) (ht : tasks ≠ []) (first : List Row) (h0 : first ≠ [])
    (h1 : term first (stageRows n tasks) ≠ []) :
    recursive term n (fuel + 2) (tasks.map fun rows => gathered n fun k i => if k = 0 then ⟨rows i, none⟩ else ⟨[], some e⟩) first
      = .error e := by
  have hp : ∀ r : Nat → List Row, Counts n (gathered n fun k i => if k = 0 then ⟨r i, none⟩ else ⟨[], some e⟩)
      (fun k i => .ok (if k = 0 then ⟨r i, none⟩ else ⟨[], some e⟩)) := fun r => counts_gathered n _
  obtain ⟨ts, hts, hr⟩ := steps_first hp tasks term (fun _ _ _ _ => rfl) (fuel + 1) first h0
  rw [hr, steps_error term _ h1 (read_error hp hn e tasks ht (fun _ => .inr fun _ _ => rfl) ts hts)]
  rfl

/-- Why such a stage cannot be executed again: its plan is not rebuilt, so the exchange in it keeps its pool, and of two executions of
one partition of that exchange at least one ends with an error, in every history of the pool. -/
theorem C95_exchange_kept_fails_again (srv : Pool.Server) (hsrv : Pool.Honest srv) (w m : Nat) (ops : List Pool.Op)
    (hr : Pool.SameRanges (Pool.run srv w m ops).handles) (k k' : Nat) (hk : k ≠ k') (c c' : Pool.Call)
    (r r' : Except Err Pool.Stream)
    (h : (Pool.run srv w m ops).handles[k]? = some c) (h' : (Pool.run srv w m ops).handles[k']? = some c')
    (hin : c.lo ≤ c.partition ∧ c.partition < c.hi) (hin' : c'.lo ≤ c'.partition ∧ c'.partition < c'.hi)
    (same : c.task = c'.task ∧ c.partition = c'.partition)
    (ho : (Pool.run srv w m ops).outcome k = some r) (ho' : (Pool.run srv w m ops).outcome k' = some r') :
    (∃ e, r = .error e) ∨ ∃ e, r' = .error e := by
  have h1 := Pool.C07_caller_gets_its_partition srv hsrv w m ops hr k c r h hin ho
  have h2 := Pool.C07_caller_gets_its_partition srv hsrv w m ops hr k' c' r' h' hin' ho'
  cases r with
  | error e => exact .inl ⟨e, rfl⟩
  | ok st =>
    cases r' with
    | error e => exact .inr ⟨e, rfl⟩
    | ok st' =>
      simp only at h1 h2
      subst h1 h2
      rw [← same.1, ← same.2] at ho'
      exact absurd (Pool.C07_stream_handed_once srv hsrv w m ops k k' _ ho ho') hk

/-- A query whose term has a broadcast fails at its second step, with any number of tasks, partitions and rows. -/
theorem C95_broadcast_fails_partial (term : List Row → List Row → List Row) (n fuel : Nat) (hn : 0 < n)
    (tasks : List (Nat → List Row)) (ht : tasks ≠ []) (first : List Row) (h0 : first ≠ [])
    (h1 : term first (stageRows n tasks) ≠ []) :
    recursive term n (fuel + 2) (tasks.map (broadcast ⟨n, 1⟩)) first = .error (.internal "Too many consumers") := by
  have hp : ∀ r : Nat → List Row, Counts n (broadcast ⟨n, 1⟩ r) _ := fun r => counts_broadcast n r
  obtain ⟨ts, hts, hr⟩ := steps_first hp tasks term (fun _ _ _ _ => rfl) (fuel + 1) first h0
  rw [hr, steps_error term _ h1 (read_error hp hn _ tasks ht (fun _ => .inl fun _ _ => rfl) ts hts)]
  rfl

/-- The same for a shuffle, if a repartitioning fails when a partition is executed again. -/
theorem C95_shuffle_fails_partial (term : List Row → List Row → List Row) (n fuel : Nat) (hn : 0 < n) (e : Err)
    (tasks : List (Nat → List Row)) (ht : tasks ≠ []) (first : List Row) (h0 : first ≠ [])
    (h1 : term first (stageRows n tasks) ≠ []) :
    recursive term n (fuel + 2) (tasks.map (repartition (.fails e) n)) first = .error e := by
  have hp : ∀ r : Nat → List Row, Counts n (repartition (.fails e) n r) _ := fun r => counts_repartition (.fails e) n r
  obtain ⟨ts, hts, hr⟩ := steps_first hp tasks term (fun _ _ _ _ => rfl) (fuel + 1) first h0
  rw [hr, steps_error term _ h1 (read_error hp hn _ tasks ht (fun _ => .inr fun _ _ => rfl) ts hts)]
  rfl

/-- If it panics instead, the query goes on as if the table were empty from its second step on, and does not fail. -/
theorem C95_shuffle_reads_nothing_again_partial (term : List Row → List Row → List Row) (n fuel : Nat)
    (tasks : List (Nat → List Row)) (first : List Row) (h0 : first ≠ []) :
    recursive term n (fuel + 1) (tasks.map (repartition .panics n)) first
      = .ok ((answer term [] fuel (term first (stageRows n tasks))).map (first ++ ·)) := by
  have hp : ∀ r : Nat → List Row, Counts n (repartition .panics n r) _ := fun r => counts_repartition .panics n r
  obtain ⟨ts, hts, hr⟩ := steps_first hp tasks term (fun _ _ _ _ => rfl) fuel first h0
  have hs := steps_same hp (fun _ _ => []) tasks term 1
    (fun k hk _ _ _ _ => by simp [show k ≠ 0 by omega]) fuel 1 (Nat.le_refl _) ts hts
    (term first (stageRows n tasks))
  have hz : stageRows n (tasks.map fun _ => fun _ => ([] : List Row)) = [] := by simp [stageRows]
  rw [hr, hs, hz]
  rfl

/-- Queries that end with their first step are right whatever the exchange is. -/
theorem C95_one_step_partial (again : Taken) (term : List Row → List Row → List Row) (n fuel : Nat)
    (tasks : List (Nat → List Row)) (first : List Row) (h0 : first ≠ []) (h1 : term first (stageRows n tasks) = []) :
    recursive term n (fuel + 2) (tasks.map (repartition again n)) first = .ok (some first)
    ∧ recursive term n (fuel + 2) (tasks.map (broadcast ⟨n, 1⟩)) first = .ok (some first)
    ∧ answer term (stageRows n tasks) (fuel + 2) first = some first := by
  have hp : ∀ r : Nat → List Row, Counts n (repartition again n r) _ := fun r => counts_repartition again n r
  have hb : ∀ r : Nat → List Row, Counts n (broadcast ⟨n, 1⟩ r) _ := fun r => counts_broadcast n r
  obtain ⟨ts, _, hr⟩ := steps_first hp tasks term (fun _ _ _ _ => rfl) (fuel + 1) first h0
  obtain ⟨ts', _, hr'⟩ := steps_first hb tasks term (fun _ _ _ _ => rfl) (fuel + 1) first h0
  refine ⟨?_, ?_, ?_⟩
  · rw [hr, h1]; simp [steps, Except.map]
  · rw [hr', h1]; simp [steps, Except.map]
  · have he : first.isEmpty = false := by cases first <;> simp_all
    simp [answer, h1]

/-- Terms with any number of exchanges, with `UNION` and `UNION ALL`: right or failing, under the same condition. -/
theorem C95_many_right_or_fails_partial (keep : List Row → List Row → List Row) (term : List Row → List (List Row) → List Row)
    (fuel : Nat) (exchanges : List (Nat × List ((Nat → List Row) × Plan (Stream Row))))
    (hp : ∀ x ∈ exchanges, ∀ t ∈ x.2, RightOrFails x.1 t.1 t.2) (first : List Row) :
    recursiveMany keep term fuel (exchanges.map fun x => (x.1, x.2.map (·.2))) first
        = .ok (answerMany keep term (exchanges.map fun x => stageRows x.1 (x.2.map (·.1))) fuel [] (keep [] first))
      ∨ ∃ e, recursiveMany keep term fuel (exchanges.map fun x => (x.1, x.2.map (·.2))) first = .error e :=
  stepsMany_rightOrFails exchanges hp keep term fuel _ (by simp [Function.comp_def]) [] (keep [] first)

/-- They return the answer of a single node if all exchanges gather stages that can be executed again. -/
theorem C95_many_gathered_partial (keep : List Row → List Row → List Row) (term : List Row → List (List Row) → List Row)
    (fuel : Nat) (exchanges : List (Nat × List (Nat → List Row))) (first : List Row) :
    recursiveMany keep term fuel
        (exchanges.map fun x => (x.1, x.2.map fun rows => gathered x.1 fun _ i => ⟨rows i, none⟩)) first
      = .ok (answerMany keep term (exchanges.map fun x => stageRows x.1 x.2) fuel [] (keep [] first)) := by
  have h := stepsMany_gathered keep term fuel (gathers_start exchanges) [] (keep [] first)
  unfold recursiveMany
  rw [List.map_map]
  exact h

/-! ### A chain of edges -/

/-- `SELECT dst FROM work JOIN edges ON work.node = edges.src`, rows being pairs. -/
def follow (work edges : List (Nat × Nat)) : List (Nat × Nat) :=
  work.flatMap fun w => edges.filter fun e => e.1 = w.2

/-- The edges 1→2, 2→3, 3→4, in two tasks of two partitions. -/
def edges : List (Nat → List (Nat × Nat)) :=
  [fun i => if i = 0 then [(2, 3)] else [(1, 2)], fun i => if i = 0 then [] else [(3, 4)]]

/-- Rows are missing from the answer of a query over a shuffle without an error, if a repartitioning panics when a partition is
executed again. -/
theorem C95_shuffle_false : ∃ (term : List (Nat × Nat) → List (Nat × Nat) → List (Nat × Nat)) (n : Nat)
    (tasks : List (Nat → List (Nat × Nat))) (first all some' : List (Nat × Nat)),
    (∀ fuel, 5 ≤ fuel → answer term (stageRows n tasks) fuel first = some all)
    ∧ (∀ fuel, 5 ≤ fuel → recursive term n fuel (tasks.map (repartition .panics n)) first = .ok (some some'))
    ∧ some'.length < all.length := by
  refine ⟨follow, 2, edges, [(0, 1)], [(0, 1), (1, 2), (2, 3), (3, 4)], [(0, 1), (1, 2)], ?_, ?_, by decide⟩
  · intro fuel h
    obtain ⟨m, rfl⟩ : ∃ m, fuel = m + 5 := ⟨fuel - 5, by omega⟩
    simp [answer, follow, stageRows, edges, List.range_succ]
  · intro fuel h
    obtain ⟨m, rfl⟩ : ∃ m, fuel = m + 5 := ⟨fuel - 5, by omega⟩
    rw [show m + 5 = (m + 4) + 1 by omega, C95_shuffle_reads_nothing_again_partial _ _ _ _ _ (by simp)]
    simp [answer, follow, stageRows, edges, List.range_succ]

/-- Gathered, the query finds all of them; its second step is not empty. -/
example : recursive follow 2 5 (edges.map fun rows => gathered 2 fun _ i => ⟨rows i, none⟩) [(0, 1)]
      = .ok (some [(0, 1), (1, 2), (2, 3), (3, 4)])
    ∧ follow [(0, 1)] (stageRows 2 edges) ≠ [] ∧ edges ≠ [] := by
  refine ⟨?_, by decide, by simp [edges]⟩
  rw [C95_gathered_partial]
  simp [answer, follow, stageRows, edges, List.range_succ]

/-- Broadcast, it fails. -/
example : recursive follow 2 5 (edges.map (broadcast ⟨2, 1⟩)) [(0, 1)] = .error (.internal "Too many consumers") :=
  C95_broadcast_fails_partial follow 2 3 (by decide) edges (by simp [edges]) [(0, 1)] (by simp) (by decide)

/-- Shuffled by a repartitioning that fails, it fails. -/
example (e : Err) : recursive follow 2 5 (edges.map (repartition (.fails e) 2)) [(0, 1)] = .error e :=
  C95_shuffle_fails_partial follow 2 3 (by decide) e edges (by simp [edges]) [(0, 1)] (by simp) (by decide)

/-- The tasks of that query meet `RightOrFails`. -/
example (e : Err) : ∀ t ∈ edges.map (fun r => (r, repartition (.fails e) 2 r)), RightOrFails 2 t.1 t.2 := by
  intro t ht
  obtain ⟨r, _, rfl⟩ := List.mem_map.mp ht
  exact (C95_heads_right_or_fail_partial 2 1 e r).1

/-- From the last node there is no step. -/
example : recursive follow 2 5 (edges.map (broadcast ⟨2, 1⟩)) [(3, 4)] = .ok (some [(3, 4)]) :=
  (C95_one_step_partial .panics follow 2 3 edges [(3, 4)] (by simp) (by decide)).2.1

/-- Both directions of the edges of a ring 1→2→3→1, each in an exchange of its own; with `UNION` the query ends. -/
example : recursiveMany unionKeep (fun work xs => xs.flatMap fun x => work.flatMap fun w => (x.filter fun e => e.1 = w.1).map
        fun e => (e.2, 0)) 5
      ([(2, [fun i => if i = 0 then [(1, 2)] else [(2, 3), (3, 1)]]), (1, [fun _ => [(2, 1), (1, 3)], fun _ => [(3, 2)]])].map fun x =>
        (x.1, x.2.map fun rows => gathered x.1 fun _ i => ⟨rows i, none⟩)) [(1, 0)]
    = .ok (some [(1, 0), (2, 0), (3, 0)]) := by
  rw [C95_many_gathered_partial]
  simp only [List.map_cons, List.map_nil, stageRows, List.range_succ, List.range_zero]
  decide +kernel

/-- The tasks of a query with a broadcast and a repartitioning meet `RightOrFails`. -/
example (e : Err) : ∀ x ∈ [((2 : Nat), edges.map fun r => (r, broadcast ⟨2, 1⟩ r)), (2, edges.map fun r => (r, repartition (.fails e) 2 r))],
    ∀ t ∈ x.2, RightOrFails x.1 t.1 t.2 := by
  intro x hx t ht
  simp only [List.mem_cons, List.not_mem_nil, or_false] at hx
  rcases hx with rfl | rfl
  · obtain ⟨r, _, rfl⟩ := List.mem_map.mp ht
    exact (C95_heads_right_or_fail_partial 2 1 e r).2
  · obtain ⟨r, _, rfl⟩ := List.mem_map.mp ht
    exact (C95_heads_right_or_fail_partial 2 1 e r).1

/-- Partition 0 of an exchange, executed twice in one pool: the second execution ends with an error. -/
example : (Pool.run Pool.goodServer 1 1 [.execute ⟨0, 2, 0, 0⟩, .poll 0, .execute ⟨0, 2, 0, 0⟩, .poll 1]).outcome 0 = some (.ok ⟨0, 0⟩)
    ∧ (Pool.run Pool.goodServer 1 1 [.execute ⟨0, 2, 0, 0⟩, .poll 0, .execute ⟨0, 2, 0, 0⟩, .poll 1]).outcome 1
      = some (.error (.internal "already consumed")) := by
  decide +kernel

end DD.Again
