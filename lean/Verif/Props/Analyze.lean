/-
**C83**: `EXPLAIN ANALYZE` runs the query as the query itself would be run and says what happened.
-/
import Verif.Spec.Analyze
import Verif.Props.Create
import Verif.Props.Placed
import Verif.Props.Progress

namespace DD.Analyze

open DD.Tree DD.Tree.Rec DD.Tree.Create DD.Metrics

variable {Row V : Type}

theorem drain_spec : ∀ (s : Stream Row) (n : Nat), drain s n = match rowsOf s with
    | .ok rows => .ok (n + rows.length)
    | .error e => .error e
  | [], n => rfl
  | .error e :: _, n => rfl
  | .ok b :: rest, n => by
    rw [drain, drain_spec rest, rowsOf]
    cases rowsOf rest with
    | error e => rfl
    | ok rows => simp [bind, Except.bind, Nat.add_assoc]

theorem Yields.rowsOf {s : Stream Row} {rows : List Row} (h : Yields s rows) : rowsOf s = .ok rows := by
  obtain ⟨bs, rfl, rfl⟩ := h
  induction bs with
  | nil => rfl
  | cons b bs ih => simp [Analyze.rowsOf, ih, bind, Except.bind]

/-- What collecting one partition gives. -/
theorem collect_one (input : Nat → Except Err (Stream Row)) : collect 1 input = match input 0 with
    | .error e => .error e
    | .ok s => rowsOf s := by
  unfold collect
  simp only [List.range_one, List.mapM_cons, List.mapM_nil, bind, Except.bind, pure, Except.pure]
  cases input 0 with
  | error e => rfl
  | ok s =>
    simp only [List.mapM_cons, List.mapM_nil, bind, Except.bind, pure, Except.pure]
    cases Analyze.rowsOf s with
    | error e => rfl
    | ok rows => simp

variable {verbose : Bool} {input : Nat → Except Err (Stream Row)} {display : Option (Shown V) → String}
  {addr : Nat → Path → Nat} {query : Nat} {store : Option (Store V)} {started : Option (Plan Row × (Path → List (Metric V)))}
  {duration : String}

/-- What `EXPLAIN ANALYZE` does after the query has ended. -/
theorem execute_of_rows {rows : List Row} (hq : collect 1 input = .ok rows) :
    execute verbose input display addr query store started duration 0 =
      if waitReady query store (started.map (·.1)) = true then some (do
          let plan ← explain display addr query store started .aggregated
          let full ← (if verbose then (do
              let t ← explain display addr query store started .perTask
              .ok (some t)) else .ok none)
          .ok (outputBatch rows.length duration plan full))
        else none := by
  rw [collect_one] at hq
  unfold execute
  simp only [ne_eq, not_true_eq_false, if_false]
  cases hi : input 0 with
  | error e' => rw [hi] at hq; cases hq
  | ok s =>
    rw [hi] at hq
    dsimp only at hq
    simp only [drain_spec, hq, Nat.zero_add]
    by_cases hb : waitReady query store (started.map (·.1)) = true
    · simp [hb]
    · simp [hb]

/-- **C83** (errors) If the query fails, `EXPLAIN ANALYZE` of it fails with the error the query fails with; it does not wait
for metrics and shows nothing. -/
theorem C83_errors_are_reported {e : Err} (h : collect 1 input = .error e) :
    execute verbose input display addr query store started duration 0 = some (.error (some e)) := by
  rw [collect_one] at h
  unfold execute
  simp only [ne_eq, not_true_eq_false, if_false]
  cases hi : input 0 with
  | error e' => rw [hi] at h; cases h; rfl
  | ok s =>
    rw [hi] at h
    dsimp only at h
    simp only [drain_spec, h]

/-- A stream that ends without error has no error in it. -/
theorem rowsOf_ok : ∀ {s : Stream Row} {rows : List Row}, rowsOf s = .ok rows → ∀ b ∈ s, ∃ r, b = .ok r
  | [], _, _, b, hb => by cases hb
  | .error e :: s, _, h, b, hb => by cases h
  | .ok r :: s, rows, h, b, hb => by
    rw [rowsOf] at h
    cases hr : rowsOf s with
    | error e => rw [hr] at h; cases h
    | ok r' =>
      rcases List.mem_cons.1 hb with rfl | hb
      · exact ⟨r, rfl⟩
      · exact rowsOf_ok hr b hb

/-- **C83** (no failure is hidden) If `EXPLAIN ANALYZE` of a distributed query returns a table, or waits for metrics, then the
plan was prepared, the head stage was executed, none of its batches was an error, and none of the requests to workers
failed. -/
theorem C83_nothing_hidden {prepared : Except Err (Nat → Except Err (Stream Row))} {pending : Except Err Unit}
    (h : ∀ e, execute verbose (distExecute prepared pending) display addr query store started duration 0 ≠ some (.error e)) :
    ∃ head s rows, prepared = .ok head ∧ head 0 = .ok s ∧ rowsOf s = .ok rows ∧ pending = .ok () := by
  have hok : ∃ rows, collect 1 (distExecute prepared pending) = .ok rows := by
    cases hc : collect 1 (distExecute prepared pending) with
    | error e => exact absurd (C83_errors_are_reported hc) (h _)
    | ok rows => exact ⟨rows, rfl⟩
  obtain ⟨rows, hc⟩ := hok
  rw [collect_one] at hc
  unfold distExecute at hc
  simp only [gt_iff_lt, Nat.lt_irrefl, if_false] at hc
  cases prepared with
  | error e => cases hc
  | ok head =>
    simp only at hc
    cases hh : head 0 with
    | error e => rw [hh] at hc; cases hc
    | ok s =>
      rw [hh] at hc
      simp only at hc
      cases pending with
      | error e =>
        obtain ⟨_, hr⟩ := rowsOf_ok hc (.error e) (by simp)
        cases hr
      | ok u => exact ⟨head, s, rows, rfl, hh, by simpa using hc, rfl⟩

/-- **C83** (waits) `EXPLAIN ANALYZE` of a query that succeeded shows nothing before every task of every stage of the plan
has reported its metrics, and does not wait any longer. -/
theorem C83_waits_for_all {p : Plan Row} {recorded : Path → List (Metric V)} {rows : List Row} (hq : collect 1 input = .ok rows)
    (rs : List (Key × List (List (Metric V)))) :
    execute verbose input display addr query (some (arrived rs)) (some (p, recorded)) duration 0 = none ↔
      ∃ t x, At 1 p t x ∧ x.kind.isNet = true ∧ ∃ i < x.kind.tasks, ∀ m, (⟨query, x.kind.num, i⟩, m) ∉ rs := by
  have hw := C37_wait_exact query p rs
  rw [execute_of_rows hq]
  simp only [Option.map_some]
  by_cases hb : waitReady query (some (arrived rs)) (some p) = true
  · rw [if_pos hb]
    simp only [reduceCtorEq, false_iff]
    rintro ⟨t, x, hat, hn, i, hi, hno⟩
    obtain ⟨m, hm⟩ := hw.1 hb t x hat hn i hi
    exact hno m hm
  · rw [if_neg hb]
    simp only [true_iff]
    refine Classical.byContradiction fun hc => hb (hw.2 fun t x hat hn i hi => ?_)
    exact Classical.byContradiction fun hno => hc ⟨t, x, hat, hn, i, hi, fun m hm => hno ⟨m, hm⟩⟩

/-- **C83** (result) If the query succeeded and the metrics are there, the result is the documented table: the number of
output rows is that of the query. -/
theorem C83_table {rows : List Row} (hq : collect 1 input = .ok rows) (hw : waitReady query store (started.map (·.1)) = true)
    {plan full : String} (h1 : explain display addr query store started .aggregated = .ok plan)
    (h2 : explain display addr query store started .perTask = .ok full) :
    execute verbose input display addr query store started duration 0 =
      some (.ok (table verbose rows.length duration plan full)) := by
  rw [execute_of_rows hq, if_pos hw, h1, h2]
  cases verbose <;> rfl

/-- **C83** (metrics not collected) Then nothing is waited for, and the plan is shown without the metrics of the workers. -/
theorem C83_without_collection {rows : List Row} (hq : collect 1 input = .ok rows) :
    execute verbose input display addr query none started duration 0 =
      some (.ok (table verbose rows.length duration (display none) (display none))) :=
  C83_table hq rfl rfl rfl

/-! ### Planned queries -/

/-- **C83** (what runs) `EXPLAIN ANALYZE` of a query runs the plan the query itself is given, distributed or not. -/
theorem C83_runs_the_query {env : Env Row} {fuel : Nat} {p : Plan Row} (hn : hasNet p = false) {q : Phys Row}
    (h : create env false fuel (.analyze (.plan p)) = .ok q) :
    (q = .analyze (.plan p) ∧ create env false fuel (.plan p) = .ok (.plan p)) ∨
    ∃ p', q = .distAnalyze (.distributed (.plan p')) ∧ create env false fuel (.plan p) = .ok (.distributed (.plan p'))
      ∧ plan env p = .ok (some p') := by
  obtain ⟨r, h1, h2⟩ := C23_analyze h
  rcases create_plan hn h1 with ⟨e, _⟩ | ⟨_, h3, rfl⟩ | ⟨_, p', h3, rfl⟩
  · cases e
  · rcases h2 with ⟨r', e, _⟩ | ⟨_, rfl⟩
    · cases e
    · exact .inl ⟨rfl, h1⟩
  · rcases h2 with ⟨r', e, rfl⟩ | ⟨e, _⟩
    · cases e; exact .inr ⟨p', rfl, h1, h3⟩
    · exact absurd rfl (e _)

/-- `EXPLAIN ANALYZE` of a plan the metrics of which are shown and all tasks of which reported. -/
theorem analyze_of_shown {p p' : Plan Row} {d : List Row} (hd : Answer p d) (hperm : (distributed p').Perm d)
    {I : Info Row} (hl : Legal false 1 p' I)
    {addr : Nat → Path → Nat} {query : Nat} {store : Store V} {headRecorded : Path → List (Metric V)}
    {recorded : Nat → Nat → Path → List (Metric V)}
    (hstore : ∀ t x c, At 1 p' t x → x.kind.isNet = true → x.children = [c] → ∀ i < x.kind.tasks,
      ∃ w r, workerPlan x.kind t (share ⟨i, x.kind.tasks⟩ c) = .ok w
        ∧ report w ⟨i, x.kind.tasks⟩ (recorded x.kind.num i) = .ok r ∧ store ⟨query, x.kind.num, i⟩ = some r)
    (hsh : ∀ f, ∃ shown, rewritePlan f addr query store p' headRecorded = .ok shown
      ∧ shown.head = (nodes p').map (fun x => (x, (headRecorded x).map (shownFor f 0)))
      ∧ (shown.stages.map (·.1)).Perm (stageNums p') ∧ (shown.stages.map (·.1)).Nodup
      ∧ ∀ t x c, At 1 p' t x → x.kind.isNet = true → x.children = [c] →
        (x.kind.num, (nodes c).map fun y => (y, expected f x.kind.tasks c (recorded x.kind.num) y)) ∈ shown.stages)
    {head : Nat → Except Err (Stream Row)} {s : Stream Row} (hrun : head 0 = .ok s) (hy : Yields s (distributed p'))
    (verbose : Bool) (display : Option (Shown V) → String) (duration : String) :
    ∃ (d : List Row) (shown : Format → Shown V), Answer p d ∧
      execute verbose (distExecute (.ok head) (.ok ())) display addr query (some store) (some (p', headRecorded)) duration 0 =
        some (.ok (table verbose d.length duration (display (some (shown .aggregated))) (display (some (shown .perTask))))) ∧
      ∀ f, (shown f).head = (nodes p').map (fun x => (x, (headRecorded x).map (shownFor f 0)))
        ∧ ((shown f).stages.map (·.1)).Perm (stageNums p') ∧ ((shown f).stages.map (·.1)).Nodup
        ∧ ∀ t x c, At 1 p' t x → x.kind.isNet = true → x.children = [c] →
          (x.kind.num, (nodes c).map fun y => (y, expected f x.kind.tasks c (recorded x.kind.num) y)) ∈ (shown f).stages := by
  obtain ⟨shown, hshown⟩ := Classical.axiomOfChoice hsh
  refine ⟨d, shown, hd, ?_, fun f => (hshown f).2⟩
  have hcol : collect 1 (distExecute (.ok head) (.ok ())) = .ok (distributed p') := by
    rw [collect_one]
    simp only [distExecute, gt_iff_lt, Nat.lt_irrefl, if_false, hrun, List.append_nil]
    exact hy.rowsOf
  have hlen : (distributed p').length = d.length := hperm.length_eq
  have hw : waitReady query (some store) (some p') = true := by
    unfold waitReady
    rw [Bool.or_eq_true]
    refine .inr (List.all_eq_true.2 fun k hk => ?_)
    unfold expectedKeys at hk
    obtain ⟨b, hb, hk⟩ := List.mem_flatMap.1 hk
    obtain ⟨i, hi, rfl⟩ := List.mem_map.1 hk
    obtain ⟨t, hat, hn⟩ := (mem_boundaries b p' 1).mp hb
    obtain ⟨c, I', h1, _⟩ := legal_sub hl hat hn
    obtain ⟨_, r, _, _, e⟩ := hstore t b c hat hn h1 i (List.mem_range.1 hi)
    rw [e]; rfl
  rw [← hlen]
  refine C83_table hcol hw ?_ ?_
  · have h1 := (hshown .aggregated).1
    unfold explain
    dsimp only
    rw [h1]
    rfl
  · have h1 := (hshown .perTask).1
    unfold explain
    dsimp only
    rw [h1]
    rfl

/-- **C83** For every query the planner accepts and distributes, if it runs without error and every task reports, `EXPLAIN
ANALYZE` returns the documented table: the number of output rows is that of an answer of the query; the plan is shown
with all metrics, those of each node on that node, once added up over the tasks, and (`VERBOSE`) once per task.
Missing: partial reduction, as in **C44**. Plans made while the query runs: `C83_dynamic`. -/
theorem C83_planned_partial {env : Env Row} (he : EnvOk env) (hs : ScalesLeaves env) {p p' : Plan Row}
    (hu : Undistributed p) {J : SInfo Row} (hsrc : Src env .pre p J) (hE : J.eqv = .perm) (hrep : J.rep = false)
    (hroot : RootOk env p J) (hp : plan env p = .ok (some p')) (hpr : env.partialReduce = false)
    {addr : Nat → Path → Nat} {query : Nat} {store : Store V} {headRecorded : Path → List (Metric V)}
    {recorded : Nat → Nat → Path → List (Metric V)}
    (hdist : ∀ t x c, At 1 p' t x → x.kind.isNet = true → x.children = [c] → Distinct (addr x.kind.num) c)
    (hstore : ∀ t x c, At 1 p' t x → x.kind.isNet = true → x.children = [c] → ∀ i < x.kind.tasks,
      ∃ w r, workerPlan x.kind t (share ⟨i, x.kind.tasks⟩ c) = .ok w
        ∧ report w ⟨i, x.kind.tasks⟩ (recorded x.kind.num i) = .ok r ∧ store ⟨query, x.kind.num, i⟩ = some r)
    {head : Nat → Except Err (Stream Row)} {s : Stream Row} (hrun : head 0 = .ok s) (hy : Yields s (distributed p'))
    (verbose : Bool) (display : Option (Shown V) → String) (duration : String) :
    ∃ (d : List Row) (shown : Format → Shown V), Answer p d ∧
      execute verbose (distExecute (.ok head) (.ok ())) display addr query (some store) (some (p', headRecorded)) duration 0 =
        some (.ok (table verbose d.length duration (display (some (shown .aggregated))) (display (some (shown .perTask))))) ∧
      ∀ f, (shown f).head = (nodes p').map (fun x => (x, (headRecorded x).map (shownFor f 0)))
        ∧ ((shown f).stages.map (·.1)).Perm (stageNums p') ∧ ((shown f).stages.map (·.1)).Nodup
        ∧ ∀ t x c, At 1 p' t x → x.kind.isNet = true → x.children = [c] →
          (x.kind.num, (nodes c).map fun y => (y, expected f x.kind.tasks c (recorded x.kind.num) y)) ∈ (shown f).stages := by
  obtain ⟨_, d, hd, hperm⟩ := C08_distributed_is_an_answer_partial he hsrc hE hrep hroot hp
  obtain ⟨_, hl, _⟩ := plan_src he hsrc hrep hroot hp
  exact analyze_of_shown hd hperm hl hstore (fun f => C44_shown_where_recorded_partial (V := V) he hs hu hsrc hrep hroot hp hpr
    hdist hstore (headRecorded := headRecorded) f) hrun hy verbose display duration

/-- **C83** If the query has only one answer, the number of output rows is that of the query on a single node.
Missing: as above. -/
theorem C83_output_rows_partial {env : Env Row} (he : EnvOk env) {p p' : Plan Row} {J : SInfo Row} (hsrc : Src env .pre p J)
    (hE : J.eqv = .perm) (hrep : J.rep = false) (hroot : RootOk env p J) (hone : OneAnswer p) (hp : plan env p = .ok (some p'))
    {store : Option (Store V)} {started : Option (Plan Row × (Path → List (Metric V)))}
    {head : Nat → Except Err (Stream Row)} {s : Stream Row} (hrun : head 0 = .ok s) (hy : Yields s (distributed p'))
    {rows : List (String × String)}
    (h : execute true (distExecute (.ok head) (.ok ())) display addr query store started duration 0 = some (.ok rows)) :
    rows[2]? = some ("Output Rows", toString (singleNode p).length) := by
  have hlen := (C08_distributed_eq_single_node_partial he hsrc hE hrep hroot hone hp).2.length_eq
  have hcol : collect 1 (distExecute (.ok head) (.ok ())) = .ok (distributed p') := by
    rw [collect_one]
    simp only [distExecute, gt_iff_lt, Nat.lt_irrefl, if_false, hrun, List.append_nil]
    exact hy.rowsOf
  rw [execute_of_rows hcol] at h
  split at h
  · simp only [Option.some.injEq, if_true] at h
    obtain ⟨plan, _, h⟩ := mbind_ok h
    obtain ⟨full, h2, h⟩ := mbind_ok h
    obtain ⟨t, _, h2⟩ := mbind_ok h2
    cases h2; cases h
    simp [outputBatch, hlen]
  · cases h

/-! ### Cases it applies to -/

/-- `EXPLAIN ANALYZE VERBOSE` of a query with a broadcast join, whatever its nodes record and however its rows come in
batches. -/
example (recorded : Nat → Nat → Path → List (Metric Nat)) (headRecorded : Path → List (Metric Nat))
    (display : Option (Shown Nat) → String) :
    ∃ p' store d, plan Metrics.Demo.plainSess Tree.Demo.input = .ok (some p') ∧ Answer Tree.Demo.input d ∧
      ∀ s : Stream (Nat × Nat), Yields s (distributed p') → ∃ plan full,
        execute true (distExecute (.ok fun _ => .ok s) (.ok ())) display (fun _ => Encodable.encode) 7 (some store)
          (some (p', headRecorded)) "1ms" 0 = some (.ok (table true d.length "1ms" plan full)) := by
  have hsrc : Src Metrics.Demo.plainSess .pre Tree.Demo.input _ := src_plain (b := false) Tree.Demo.input_src
  have hroot : RootOk Metrics.Demo.plainSess Tree.Demo.input ⟨none, false, false, .perm, false⟩ := .inr (by
    intro p1 h1
    have : normalize Metrics.Demo.plainSess Tree.Demo.input = .ok Tree.Demo.input := by rfl
    rw [this] at h1; cases h1
    exact ⟨by decide +kernel, rfl⟩)
  have hu : Undistributed Tree.Demo.input := undistributed_of (by decide +kernel)
  obtain ⟨p', hp⟩ := Tree.planned_of (env := Metrics.Demo.plainSess) (p := Tree.Demo.input) (by decide +kernel)
  obtain ⟨store, hstore⟩ := C44_reports_exist Metrics.Demo.plain_ok Metrics.Demo.plain_scales hu hsrc rfl hroot hp rfl 7 recorded
  have key : ∀ s, Yields s (distributed p') → ∃ (d : List (Nat × Nat)) (plan full : String), Answer Tree.Demo.input d ∧
      execute true (distExecute (.ok fun _ => .ok s) (.ok ())) display (fun _ => Encodable.encode) 7 (some store)
        (some (p', headRecorded)) "1ms" 0 = some (.ok (table true d.length "1ms" plan full)) := by
    intro s hy
    obtain ⟨d, shown, hd, h, _⟩ := C83_planned_partial Metrics.Demo.plain_ok Metrics.Demo.plain_scales hu hsrc rfl rfl hroot hp rfl
      (addr := fun _ => Encodable.encode) (headRecorded := headRecorded)
      (fun _ _ _ _ _ _ x y _ _ h => Encodable.encode_injective h) hstore (head := fun _ => .ok s) rfl hy true display "1ms"
    exact ⟨d, _, _, hd, h⟩
  obtain ⟨_, d, hd, hperm⟩ := C08_distributed_is_an_answer_partial Metrics.Demo.plain_ok hsrc rfl rfl hroot hp
  refine ⟨p', store, d, hp, hd, fun s hy => ?_⟩
  obtain ⟨d', plan, full, hd', h⟩ := key s hy
  have hcol : collect 1 (distExecute (.ok fun _ => .ok s) (.ok ())) = .ok (distributed p') := by
    rw [collect_one]
    simp only [distExecute, gt_iff_lt, Nat.lt_irrefl, if_false, List.append_nil]
    exact hy.rowsOf
  refine ⟨plan, full, ?_⟩
  rw [execute_of_rows hcol] at h ⊢
  rw [← hperm.length_eq]
  split at h
  · rename_i hw
    rw [if_pos hw]
    simp only [Option.some.injEq, if_true] at h
    obtain ⟨t1, e1, h⟩ := mbind_ok h
    obtain ⟨t2, e2, h⟩ := mbind_ok h
    obtain ⟨t3, e3, e4⟩ := mbind_ok e2
    cases e4
    rw [e1, e3]
    simp only [outputBatch, table, Except.ok.injEq, List.cons_append, List.nil_append, List.cons.injEq, Prod.mk.injEq, true_and,
      and_true] at h
    obtain ⟨rfl, rfl, _⟩ := h
    rfl
  · cases h

/-- A query that fails in the middle. -/
example (display : Option (Shown Nat) → String) : execute (Row := Nat) true
    (distExecute (.ok fun _ => .ok [.ok [1, 2], .error (.user 3), .ok [4]]) (.ok ())) display (fun _ _ => 0) 7 none none "1ms" 0 =
    some (.error (some (.user 3))) := rfl

/-- A query all rows of which arrived, but one of whose workers failed. -/
example (display : Option (Shown Nat) → String) : execute (Row := Nat) true
    (distExecute (.ok fun _ => .ok [.ok [1, 2]]) (.error (.user 3))) display (fun _ _ => 0) 7 none none "1ms" 0 =
    some (.error (some (.user 3))) := rfl

/-! ### Plans with several partitions -/

/-- A shuffle the user put at the root: its reader, the coordinator, has two partitions. -/
def Demo.twoParts : Plan (Nat × Nat) :=
  fresh (.shuffle Prod.fst 2 3 0) [fresh (.hashRepart Prod.fst 2 none) [Tree.Demo.big]]

/-- **C83 is false** of plans with user-placed boundaries whose root has several partitions: running the query fails, but
`EXPLAIN ANALYZE` of it succeeds and counts the rows of one partition only. -/
theorem C83_several_partitions_false : ∃ p' : Plan (Nat × Nat),
    create Tree.Demo.sess false 9 (.plan Demo.twoParts) = .ok (.distributed (.plan p'))
    ∧ create Tree.Demo.sess false 9 (.analyze (.plan Demo.twoParts)) = .ok (.distAnalyze (.distributed (.plan p')))
    ∧ ∀ head : Nat → Except Err (Stream (Nat × Nat)), (∀ q, head q = .ok [.ok ((run p').exec false ⟨0, 1⟩ q)]) →
      collect p'.parts (distExecute (.ok head) (.ok ())) = .error (.exec "DistributedExec must only have 1 partition")
      ∧ (∀ display : Option (Shown Nat) → String, execute true (distExecute (.ok head) (.ok ())) display (fun _ _ => 0) 7 none
          (some (p', fun _ => [])) "1ms" 0 = some (.ok (table true 2 "1ms" (display none) (display none))))
      ∧ (singleNode p').length = 7 := by
  have hsome : (match create Tree.Demo.sess false 9 (.plan Demo.twoParts) with
      | .ok (.distributed (.plan p')) => some (p'.parts, (distributed p').length, (singleNode p').length)
      | _ => none) = some (2, 2, 7) := by decide +kernel
  split at hsome
  · rename_i p' hc
    simp only [Option.some.injEq, Prod.mk.injEq] at hsome
    refine ⟨p', hc, by rw [create, hc]; rfl, fun head hh => ⟨?_, fun display => ?_, hsome.2.2⟩⟩
    · rw [hsome.1]
      simp [collect, distExecute, hh, List.range_succ, bind, Except.bind]
    · have hcol : collect 1 (distExecute (.ok head) (.ok ())) = .ok (distributed p') := by
        rw [collect_one]
        simp only [distExecute, gt_iff_lt, Nat.lt_irrefl, if_false, hh, List.append_nil]
        simp [rowsOf, bind, Except.bind, distributed]
      rw [C83_without_collection hcol, hsome.2.1]
  · cases hsome

end DD.Analyze
