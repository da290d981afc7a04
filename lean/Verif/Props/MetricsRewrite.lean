/-
**C44** Metrics are shown on the node that recorded them. **C37** (second half) Waiting for metrics is exact.
-/
import Mathlib.Logic.Encodable.Basic
import Mathlib.Logic.Equiv.List
import Verif.Lemmas.MetricsRewrite

namespace DD.Metrics

open DD.Tree DD.Tree.Rec

variable {Row V : Type}

/-! ### **C44**: one stage -/

/-- If the plan of a stage has the head its consumers ask for, a worker runs just the share of it the task was sent. -/
theorem insert_share {ctx : TaskCtx} {c : Plan Row} (h : CtxOk ctx (strip c) ∧ LeavesOk ctx (strip c)) {hd : Head Row}
    (hfix : hd.insert c = .ok c) : hd.insert (share ctx c) = .ok (share ctx c) := by
  have hs := share_same (strip c) ctx h.1 h.2
  have hone : ∀ (k : Kind Row) (tc : TaskCount) (y : Plan Row), k.isHead = true → c = .node k tc [y] →
      share ctx c = .node k c.tc [share ctx (strip c)] := by
    rintro k tc y hk rfl
    rw [share_node (by rintro _ _ rfl; cases hk), isHead_isNet hk]
    have hcc : childCtx k ctx 0 = some ctx := by cases k <;> first | rfl | cases hk
    simp [shareAll, hcc, strip, hk, Plan.tc]
  unfold Head.insert at hfix ⊢
  rw [strip_share, share_tc]
  cases hd with
  | none =>
    have e : strip c = c := Except.ok.inj hfix
    simp only [e]
  | repartition g n =>
    have e : Plan.node (.hashRepart g n none) c.tc [strip c] = c := Except.ok.inj hfix
    show Except.ok _ = Except.ok _
    rw [hone _ _ _ rfl e.symm]
  | broadcast n =>
    simp only at hfix ⊢
    obtain ⟨b, hb, hw⟩ := bind_ok hfix
    have e : Plan.node (.broadcast b.consumerTasks) c.tc [strip c] = c := Except.ok.inj hw
    have hparts : (share ctx (strip c)).parts = (strip c).parts := hs.1
    rw [hparts, hb]
    show Except.ok _ = Except.ok _
    rw [hone _ _ _ rfl e.symm]

/-- **C44** (one stage) The plan `c` of a stage has the head `hd` the stage's consumers ask for and can be executed by `N`
tasks. Each task runs its share of it and reports what its nodes recorded. Then showing the metrics succeeds, and every
node of the stage gets, for each task that runs it, what the task recorded for the node at that position. -/
theorem C44_stage {ph : Bool} {N : Nat} {c : Plan Row} {I : Info Row} (h : Legal ph N (strip c) I)
    (hh : c.kind.isHead = true → c.children.length = 1) {hd : Head Row} (hfix : hd.insert c = .ok c)
    {addr : Path → Nat} (hdist : Distinct addr c) {query num : Nat} {store : Store V}
    {recorded : Nat → Path → List (Metric V)}
    (hstore : ∀ i < N, ∃ w r, hd.insert (share ⟨i, N⟩ c) = .ok w ∧ report w ⟨i, N⟩ (recorded i) = .ok r
      ∧ store ⟨query, num, i⟩ = some r) (f : Format) :
    stageRewrite f addr query num N store c = .ok ((nodes c).map fun x => (x, expected f N c recorded x)) := by
  classical
  have hvs : ∀ i, ∃ l, i < N → visit c ⟨i, N⟩ = .ok l ∧ visit (share ⟨i, N⟩ c) ⟨i, N⟩ = .ok l ∧ l.Nodup
      ∧ ∀ x, x ∈ l ↔ Runs ⟨i, N⟩ c x := by
    intro i
    by_cases hi : i < N
    · have hok := ok_of_strip hh (legal_ok h ⟨i, N⟩ hi)
      obtain ⟨l, hl⟩ := visit_spec c ⟨i, N⟩ hok.1 hok.2
      exact ⟨l, fun _ => hl⟩
    · exact ⟨[], fun h => absurd h hi⟩
  choose vs hvs using hvs
  rw [stageRewrite_spec f addr query num N store c recorded vs hdist]
  · congr 1
    apply List.map_congr_left
    intro x _
    unfold expected
    congr 1
    apply List.flatMap_congr
    intro i hi
    have := (hvs i (List.mem_range.mp hi)).2.2.2 x
    by_cases hx : x ∈ vs i
    · rw [if_pos hx, if_pos (this.mp hx)]
    · rw [if_neg hx, if_neg (fun hr => hx (this.mpr hr))]
  · intro i hi
    obtain ⟨h1, h2, h3, h4⟩ := hvs i hi
    refine ⟨h1, h3, fun x hx => ((h4 x).mp hx).mem, ?_⟩
    obtain ⟨w, r, g1, g2, g3⟩ := hstore i hi
    rw [insert_share (legal_ok h ⟨i, N⟩ hi) hfix] at g1
    cases g1
    unfold report at g2
    rw [h2] at g2
    cases g2
    exact ⟨_, g3, fun j x hj => by rw [List.getElem?_map, hj]; rfl⟩

/-- **C44** A stage with a task that has not reported is not shown with fewer metrics: it is an error. -/
theorem C44_missing_task_is_an_error (f : Format) (addr : Path → Nat) (query num tasks : Nat) (store : Store V)
    (c : Plan Row) {i : Nat} (hi : i < tasks) (hm : store ⟨query, num, i⟩ = none) :
    ∃ e, stageRewrite f addr query num tasks store c = .error e := by
  have key : ∀ (is : List Nat) (map : NodeMap V), i ∈ is → ∃ e, enterTasks f addr query num tasks store c is map = .error e := by
    intro is
    induction is with
    | nil => intro _ h; cases h
    | cons j is ih =>
      intro map h
      unfold enterTasks
      cases hs : store ⟨query, num, j⟩ with
      | none => exact ⟨_, rfl⟩
      | some ms =>
        have hne : j ≠ i := by rintro rfl; rw [hm] at hs; cases hs
        simp only
        cases hv : visit c ⟨j, tasks⟩ with
        | error e => exact ⟨e, rfl⟩
        | ok xs =>
          simp only [bind, Except.bind]
          cases he : enterTask f addr j ms 0 xs map with
          | error e => exact ⟨e, rfl⟩
          | ok map' =>
            simp only
            exact ih map' ((List.mem_cons.mp h).resolve_left (fun h => hne h.symm))
  obtain ⟨e, he⟩ := key (List.range tasks) (fun _ => []) (List.mem_range.mpr hi)
  exact ⟨e, by unfold stageRewrite; rw [he]; rfl⟩

/-- **C44** A task that reports fewer nodes than it runs is an error as well. -/
theorem C44_short_report_is_an_error (f : Format) (addr : Path → Nat) (task : Nat) (ms : List (List (Metric V))) :
    ∀ (xs : List Path) (n : Nat) (map : NodeMap V), ms.length < n + xs.length → n ≤ ms.length →
    enterTask f addr task ms n xs map = .error (some (.internal "not enough metrics provided to rewrite task"))
  | [], n, map, h, h' => by simp at h; omega
  | x :: xs, n, map, h, h' => by
    unfold enterTask
    by_cases hn : n < ms.length
    · rw [List.getElem?_eq_getElem hn]
      simp only
      exact C44_short_report_is_an_error f addr task ms xs (n + 1) _ (by simp at h; omega) hn
    · rw [List.getElem?_eq_none (by omega)]

/-! ### **C44**: planned plans -/

/-- The input of a boundary is what its consumers ask for, once the boundaries have been prepared. -/
theorem heads_of_post {t : Nat} {x c : Plan Row} (hx : PostNet False t x) (hc : x.children = [c])
    (hco : ∀ P n i, x.kind = .netCoalesce P n i → c.kind.isHead = false) (hn : x.kind.isNet = true) :
    (x.kind.head t).insert c = .ok c := by
  cases hk : x.kind with
  | shuffle h P n i =>
    obtain ⟨tc, tc', y, e⟩ := hx.shuffle h P n i hk
    rw [e] at hc
    cases hc
    rfl
  | netBroadcast P n i =>
    obtain ⟨tc, b, tc', y, e, h4, h5⟩ := hx.broadcast P n i hk
    rw [e] at hc
    cases hc
    have hst : strip (.node (.broadcast b) tc' [y]) = y := rfl
    have hdiv : P * t / y.parts = b := by rw [← h5]; exact Nat.mul_div_cancel_left b h4
    simp only [Kind.head, Head.insert, hst, BroadcastExec.ofHead, Nat.pos_iff_ne_zero.mp h4, if_false, hdiv]
    rfl
  | netCoalesce P n i =>
    show Except.ok (strip c) = _
    rw [strip_noop (hco P n i hk)]
  | _ => rw [hk] at hn; cases hn

/-- The inputs of the boundaries of a plan planned without partial reduction have the heads their consumers ask for. -/
theorem planned_heads {env : Env Row} (he : EnvOk env) (hs : ScalesLeaves env) {p p' : Plan Row} (hu : Undistributed p)
    (hp : plan env p = .ok (some p')) (hpr : env.partialReduce = false) {t : Nat} {x c : Plan Row} (hx : At 1 p' t x)
    (hn : x.kind.isNet = true) (hc : x.children = [c])
    (hco : ∀ P n i, x.kind = .netCoalesce P n i → c.kind.isHead = false) : (x.kind.head t).insert c = .ok c := by
  obtain ⟨p1, p2, p3, id, h1, h2, h3, _, rfl⟩ := plan_steps hp
  have a : Every (PostNet False) 1 p3 := prepare_post h3 ((inject_shape (D := False) he hs False.elim
    (preparePlan_plain hu h1) False.elim h2).2 rfl)
  rw [hpr] at hx
  simp only [Bool.false_eq_true, if_false] at hx
  exact heads_of_post (a t x hx) hc hco hn

/-- Showing the metrics of a plan the stages of which have the heads their consumers ask for. -/
theorem shown_of_heads {p' : Plan Row} {I : Info Row} (hl : Legal false 1 p' I) (hnd : (stageNums p').Nodup)
    (hheads : ∀ t x c, At 1 p' t x → x.kind.isNet = true → x.children = [c] →
      (∀ P n i, x.kind = .netCoalesce P n i → c.kind.isHead = false) → (x.kind.head t).insert c = .ok c)
    {addr : Nat → Path → Nat} {query : Nat} {store : Store V} {headRecorded : Path → List (Metric V)}
    {recorded : Nat → Nat → Path → List (Metric V)}
    (hdist : ∀ t x c, At 1 p' t x → x.kind.isNet = true → x.children = [c] → Distinct (addr x.kind.num) c)
    (hstore : ∀ t x c, At 1 p' t x → x.kind.isNet = true → x.children = [c] → ∀ i < x.kind.tasks,
      ∃ w r, workerPlan x.kind t (share ⟨i, x.kind.tasks⟩ c) = .ok w
        ∧ report w ⟨i, x.kind.tasks⟩ (recorded x.kind.num i) = .ok r ∧ store ⟨query, x.kind.num, i⟩ = some r)
    (f : Format) :
    ∃ shown, rewritePlan f addr query store p' headRecorded = .ok shown
      ∧ shown.head = (nodes p').map (fun x => (x, (headRecorded x).map (shownFor f 0)))
      ∧ (shown.stages.map (·.1)).Perm (stageNums p') ∧ (shown.stages.map (·.1)).Nodup
      ∧ ∀ t x c, At 1 p' t x → x.kind.isNet = true → x.children = [c] →
        (x.kind.num, (nodes c).map fun y => (y, expected f x.kind.tasks c (recorded x.kind.num) y)) ∈ shown.stages := by
  have hstage : ∀ b ∈ boundaries p', ∃ c, b.children = [c] ∧ stageRewrite f (addr b.kind.num) query b.kind.num b.kind.tasks
      store c = .ok ((nodes c).map fun y => (y, expected f b.kind.tasks c (recorded b.kind.num) y)) := by
    intro b hb
    obtain ⟨t, hat, hn⟩ := (mem_boundaries b p' 1).mp hb
    obtain ⟨c, I', h1, h2, h3, h4⟩ := legal_sub hl hat hn
    exact ⟨c, h1, C44_stage h3 h2 (hheads t b c hat hn h1 h4) (hdist t b c hat hn h1)
      (hstore t b c hat hn h1) f⟩
  have hlist : ∀ bs : List (Plan Row), (∀ b ∈ bs, b ∈ boundaries p') → ∃ l, rewriteStages f addr query store bs = .ok l
      ∧ l.map (·.1) = bs.map (fun b => b.kind.num) ∧ ∀ b ∈ bs, ∀ c, b.children = [c] →
        (b.kind.num, (nodes c).map fun y => (y, expected f b.kind.tasks c (recorded b.kind.num) y)) ∈ l := by
    intro bs
    induction bs with
    | nil => intro _; exact ⟨[], rfl, rfl, by simp⟩
    | cons b bs ih =>
      intro hsub
      obtain ⟨l, g1, g2, g3⟩ := ih (fun b hb => hsub b (by simp [hb]))
      obtain ⟨c, e, hr⟩ := hstage b (hsub b (by simp))
      refine ⟨(b.kind.num, (nodes c).map fun y => (y, expected f b.kind.tasks c (recorded b.kind.num) y)) :: l, ?_, ?_, ?_⟩
      · unfold rewriteStages
        rw [e]
        simp only
        rw [hr, g1]
        rfl
      · simp [g2]
      · intro b' hb' c' hc'
        rcases List.mem_cons.mp hb' with rfl | hb'
        · rw [e] at hc'
          cases hc'
          simp
        · exact List.mem_cons_of_mem _ (g3 b' hb' c' hc')
  obtain ⟨l, g1, g2, g3⟩ := hlist (boundaries p') (fun _ h => h)
  have hloc := localRewrite_spec f 0 headRecorded (nodes p') []
  simp only [List.nil_append, List.length_nil] at hloc
  have hperm : (l.map (·.1)).Perm (stageNums p') := by rw [g2]; exact boundaries_nums p'
  refine ⟨⟨_, l⟩, ?_, rfl, hperm, ?_, ?_⟩
  · unfold rewritePlan
    rw [hloc, g1]
    rfl
  · exact hperm.nodup_iff.mpr hnd
  · intro t x c hat hn hc
    exact g3 x ((mem_boundaries x p' 1).mpr ⟨t, hat, hn⟩) c hc

/-- **C44** A distributed plan was made without partial reduction, and every task of every stage reported what the nodes of
the plan it ran recorded. Then showing the metrics succeeds; every node of the head stage has what it recorded itself;
every stage is shown once; every node of a stage has, for each task that runs it, what that task recorded for it; and
each metric is labelled with its task. With partial reduction this fails, `C44_partial_reduce_false`. -/
theorem C44_shown_where_recorded_partial {env : Env Row} (he : EnvOk env) (hs : ScalesLeaves env) {p p' : Plan Row}
    (hu : Undistributed p) {J : SInfo Row} (hsrc : Src env .pre p J) (hrep : J.rep = false) (hroot : RootOk env p J)
    (hp : plan env p = .ok (some p')) (hpr : env.partialReduce = false)
    {addr : Nat → Path → Nat} {query : Nat} {store : Store V} {headRecorded : Path → List (Metric V)}
    {recorded : Nat → Nat → Path → List (Metric V)}
    (hdist : ∀ t x c, At 1 p' t x → x.kind.isNet = true → x.children = [c] → Distinct (addr x.kind.num) c)
    (hstore : ∀ t x c, At 1 p' t x → x.kind.isNet = true → x.children = [c] → ∀ i < x.kind.tasks,
      ∃ w r, workerPlan x.kind t (share ⟨i, x.kind.tasks⟩ c) = .ok w
        ∧ report w ⟨i, x.kind.tasks⟩ (recorded x.kind.num i) = .ok r ∧ store ⟨query, x.kind.num, i⟩ = some r)
    (f : Format) :
    ∃ shown, rewritePlan f addr query store p' headRecorded = .ok shown
      ∧ shown.head = (nodes p').map (fun x => (x, (headRecorded x).map (shownFor f 0)))
      ∧ (shown.stages.map (·.1)).Perm (stageNums p') ∧ (shown.stages.map (·.1)).Nodup
      ∧ ∀ t x c, At 1 p' t x → x.kind.isNet = true → x.children = [c] →
        (x.kind.num, (nodes c).map fun y => (y, expected f x.kind.tasks c (recorded x.kind.num) y)) ∈ shown.stages := by
  obtain ⟨d, hl, _⟩ := plan_src he hsrc hrep hroot hp
  exact shown_of_heads hl (C21_stage_numbers he hs hu hp).2.1
    (fun _ _ _ hat hn hc hco => planned_heads he hs hu hp hpr hat hn hc hco) hdist hstore f

/-- **C44** The reports the theorem asks for exist, whatever the nodes recorded: no task fails to report because of the
shape of its plan. -/
theorem C44_tasks_can_report {ph : Bool} {N : Nat} {c : Plan Row} {I : Info Row} (h : Legal ph N (strip c) I)
    (hh : c.kind.isHead = true → c.children.length = 1) {hd : Head Row} (hfix : hd.insert c = .ok c)
    (recorded : Nat → Path → List (Metric V)) {i : Nat} (hi : i < N) :
    ∃ w r, hd.insert (share ⟨i, N⟩ c) = .ok w ∧ report w ⟨i, N⟩ (recorded i) = .ok r := by
  have hok := ok_of_strip hh (legal_ok h ⟨i, N⟩ hi)
  obtain ⟨l, _, h2, _⟩ := visit_spec c ⟨i, N⟩ hok.1 hok.2
  refine ⟨_, l.map (recorded i), insert_share (legal_ok h ⟨i, N⟩ hi) hfix, ?_⟩
  unfold report
  rw [h2]
  rfl

/-- There are such reports for every plan whose stages have the heads their consumers ask for. -/
theorem reports_of_heads {p' : Plan Row} {I : Info Row} (hl : Legal false 1 p' I) (hnd : (stageNums p').Nodup)
    (hheads : ∀ t x c, At 1 p' t x → x.kind.isNet = true → x.children = [c] →
      (∀ P n i, x.kind = .netCoalesce P n i → c.kind.isHead = false) → (x.kind.head t).insert c = .ok c) (query : Nat)
    (recorded : Nat → Nat → Path → List (Metric V)) :
    ∃ store : Store V, ∀ t x c, At 1 p' t x → x.kind.isNet = true → x.children = [c] → ∀ i < x.kind.tasks,
      ∃ w r, workerPlan x.kind t (share ⟨i, x.kind.tasks⟩ c) = .ok w
        ∧ report w ⟨i, x.kind.tasks⟩ (recorded x.kind.num i) = .ok r ∧ store ⟨query, x.kind.num, i⟩ = some r := by
  have hnd : ((boundaries p').map fun b => b.kind.num).Nodup := (boundaries_nums p').nodup_iff.mpr hnd
  refine ⟨fun k => match (boundaries p').find? (fun b => b.kind.num == k.stage) with
    | none => none
    | some b => match b.children with
      | c :: _ => match report (share ⟨k.task, b.kind.tasks⟩ c) ⟨k.task, b.kind.tasks⟩ (recorded k.stage k.task) with
        | .ok r => some r
        | .error _ => none
      | [] => none, ?_⟩
  intro t x c hat hn hc i hi
  obtain ⟨c', I', h1, h2, h3, h4⟩ := legal_sub hl hat hn
  rw [hc] at h1
  cases h1
  have hfix := hheads t x c hat hn hc h4
  obtain ⟨w, r, g1, g2⟩ := C44_tasks_can_report h3 h2 hfix (recorded x.kind.num) hi
  have hw : w = share ⟨i, x.kind.tasks⟩ c := by
    rw [insert_share (legal_ok h3 ⟨i, _⟩ hi) hfix] at g1
    exact (Except.ok.inj g1).symm
  refine ⟨w, r, g1, g2, ?_⟩
  have hx := (mem_boundaries x p' 1).mpr ⟨t, hat, hn⟩
  have hfind : (boundaries p').find? (fun b => b.kind.num == x.kind.num) = some x := by
    generalize boundaries p' = bs at hnd hx
    induction bs with
    | nil => cases hx
    | cons b bs ih =>
      simp only [List.map_cons, List.nodup_cons, List.mem_map, not_exists, not_and] at hnd
      rw [List.find?_cons]
      rcases List.mem_cons.mp hx with rfl | hx
      · simp
      · have : (b.kind.num == x.kind.num) = false := by
          rw [beq_eq_false_iff_ne]
          exact fun h => hnd.1 x hx h.symm
        rw [this]
        exact ih hnd.2 hx
  rw [hw] at g2
  simp only [hfind, hc, g2]

/-- **C44** For every planned plan and whatever its nodes record there is a store in which every task has reported. -/
theorem C44_reports_exist {env : Env Row} (he : EnvOk env) (hs : ScalesLeaves env) {p p' : Plan Row}
    (hu : Undistributed p) {J : SInfo Row} (hsrc : Src env .pre p J) (hrep : J.rep = false) (hroot : RootOk env p J)
    (hp : plan env p = .ok (some p')) (hpr : env.partialReduce = false) (query : Nat)
    (recorded : Nat → Nat → Path → List (Metric V)) :
    ∃ store : Store V, ∀ t x c, At 1 p' t x → x.kind.isNet = true → x.children = [c] → ∀ i < x.kind.tasks,
      ∃ w r, workerPlan x.kind t (share ⟨i, x.kind.tasks⟩ c) = .ok w
        ∧ report w ⟨i, x.kind.tasks⟩ (recorded x.kind.num i) = .ok r ∧ store ⟨query, x.kind.num, i⟩ = some r := by
  obtain ⟨d, hl, _⟩ := plan_src he hsrc hrep hroot hp
  exact reports_of_heads hl (C21_stage_numbers he hs hu hp).2.1
    (fun _ _ _ hat hn hc hco => planned_heads he hs hu hp hpr hat hn hc hco) query recorded

/-! ### **C44**: the coordinator's own copies of the nodes -/

/-- **C44** If the copies of the nodes on the coordinator recorded nothing (all workers are remote), the metrics displayed
are the ones the node is wrapped with. The same holds if they recorded nothing else (the node was run in the same
process). -/
theorem C44_displayed [DecidableEq V] (wrapped own : List (Metric V))
    (h : ∀ m ∈ own, ∃ w ∈ wrapped, w.value = m.value ∧ w.partition = m.partition) : shownOf wrapped own = wrapped := by
  unfold shownOf
  have : (own.filter fun m => !(wrapped.any fun w => w.value == m.value && w.partition == m.partition)) = [] := by
    rw [List.filter_eq_nil_iff]
    intro m hm
    obtain ⟨w, hw, e1, e2⟩ := h m hm
    have : (wrapped.any fun w => w.value == m.value && w.partition == m.partition) = true := by
      rw [List.any_eq_true]
      exact ⟨w, hw, by simp [e1, e2]⟩
    simp [this]
  rw [this, List.append_nil]

/-- **C44 is false** for metrics the coordinator's copy recorded itself (as network boundaries of the head stage do): one
that has the value and partition of a wrapped one is not displayed, although it is another measurement. -/
theorem C44_equal_metrics_dropped_false : ∃ (wrapped own : List (Metric Nat)) (m : Metric Nat), m ∈ own
    ∧ m ∉ shownOf wrapped own :=
  ⟨[⟨5, some 0, [("a", "1")]⟩], [⟨5, some 0, [("b", "2")]⟩], ⟨5, some 0, [("b", "2")]⟩, by decide, by decide⟩

/-! ### **C44**: partial reduction -/

/-- With partial reduction, the plan of a stage is a merge of partial states above the repartitioning the boundary asks
for; the worker puts a second repartitioning on top. So the tasks report one node more than the plan of the stage has, and
what is shown for the merge is what the tasks recorded for the second repartitioning. -/
theorem C44_partial_reduce_shifts {ph : Bool} {N : Nat} {g : Op Row} {r} {tc tc' : TaskCount} {h : Row → Nat}
    {n m : Nat} {y : Plan Row} {I : Info Row} (hl : Legal ph N (.node (.op g r) tc [.node (.hashRepart h n o) tc' [y]]) I)
    {addr : Path → Nat} (hdist : Distinct addr (.node (.op g r) tc [.node (.hashRepart h n o) tc' [y]]))
    {query num : Nat} {store : Store V} {recorded : Nat → Path → List (Metric V)} {w : Nat → Plan Row}
    (hw : ∀ i < N, (Head.repartition h m).insert (share ⟨i, N⟩ (.node (.op g r) tc [.node (.hashRepart h n o) tc' [y]])) = .ok (w i))
    (hstore : ∀ i < N, ∃ r, report (w i) ⟨i, N⟩ (recorded i) = .ok r ∧ store ⟨query, num, i⟩ = some r) :
    (∀ i < N, ∃ z, NodeAt (w i) [] z ∧ z.kind = .hashRepart h m none) ∧
    (∀ i < N, ∃ z, NodeAt (w i) [0] z ∧ z.kind = .op g r) ∧
    ∃ rest, stageRewrite .aggregated addr query num N store (.node (.op g r) tc [.node (.hashRepart h n o) tc' [y]])
      = .ok (([], (List.range N).flatMap fun i => recorded i []) :: rest) := by
  have hshare : ∀ ctx, ∃ s, share ctx (.node (.op g r) tc [.node (.hashRepart h n o) tc' [y]]) = .node (.op g r) tc s := by
    intro ctx
    exact ⟨_, share_node (by rintro _ _ ⟨⟩) ctx _ _⟩
  have hws : ∀ i < N, w i = .node (.hashRepart h m none) tc [share ⟨i, N⟩ (.node (.op g r) tc [.node (.hashRepart h n o) tc' [y]])] := by
    intro i hi
    obtain ⟨s, e⟩ := hshare ⟨i, N⟩
    have := hw i hi
    rw [e] at this ⊢
    have hst : strip (.node (.op g r) tc s) = .node (.op g r) tc s := strip_noop rfl
    have hw := (Except.ok.inj this).symm
    rw [hst] at hw
    exact hw
  refine ⟨fun i hi => ⟨_, .root, by rw [hws i hi]; rfl⟩, fun i hi => ?_, ?_⟩
  · obtain ⟨s, e⟩ := hshare ⟨i, N⟩
    refine ⟨_, by rw [hws i hi]; exact .child rfl rfl .root, by rw [e]; rfl⟩
  · generalize hc : Plan.node (.op g r) tc [.node (.hashRepart h n o) tc' [y]] = c at *
    have hvs : ∀ i, ∃ l, i < N → visit c ⟨i, N⟩ = .ok ([] :: l) ∧ visit (share ⟨i, N⟩ c) ⟨i, N⟩ = .ok ([] :: l)
        ∧ ([] :: l).Nodup ∧ ∀ x, x ∈ [] :: l ↔ Runs ⟨i, N⟩ c x := by
      intro i
      by_cases hi : i < N
      · have hok := legal_ok hl ⟨i, N⟩ hi
        obtain ⟨l, h1, h2, h3, h4⟩ := visit_spec c ⟨i, N⟩ hok.1 hok.2
        have h1' := h1
        rw [← hc, visit_other (by rintro _ _ ⟨⟩)] at h1'
        obtain ⟨rest, _, e⟩ := bind_ok h1'
        cases e
        exact ⟨rest, fun _ => ⟨h1, h2, h3, h4⟩⟩
      · exact ⟨[], fun h => absurd h hi⟩
    choose vs hvs using hvs
    have hrep : ∀ i < N, report (w i) ⟨i, N⟩ (recorded i) = .ok (recorded i [] :: (([] :: vs i).map fun x => recorded i (0 :: x))) := by
      intro i hi
      rw [hws i hi]
      unfold report
      rw [visit_other (by rintro _ _ ⟨⟩)]
      simp only [Kind.isNet, Bool.false_eq_true, if_false, visitAll]
      rw [(hvs i hi).2.1]
      simp [bind, Except.bind]
    have key := stageRewrite_spec .aggregated addr query num N store c
      (fun i x => (recorded i [] :: (([] :: vs i).map fun x => recorded i (0 :: x))).getD (([] :: vs i).idxOf x) [])
      (fun i => [] :: vs i) hdist (by
        intro i hi
        obtain ⟨h1, h2, h3, h4⟩ := hvs i hi
        refine ⟨h1, h3, fun x hx => ((h4 x).mp hx).mem,
          recorded i [] :: (([] :: vs i).map fun x => recorded i (0 :: x)), ?_, fun j x hj => ?_⟩
        · obtain ⟨r', g1, g2⟩ := hstore i hi
          rw [hrep i hi] at g1
          cases g1
          exact g2
        · have hlt := (List.getElem?_eq_some_iff.mp hj).1
          have hx := (List.getElem?_eq_some_iff.mp hj).2
          have : ([] :: vs i).idxOf x = j := by rw [← hx]; exact List.Nodup.idxOf_getElem h3 j hlt
          simp only [this]
          have hlen : j < (recorded i [] :: (([] :: vs i).map fun x => recorded i (0 :: x))).length := by
            simp only [List.length_cons, List.length_map] at hlt ⊢
            omega
          rw [List.getElem?_eq_getElem hlen, List.getD_eq_getElem?_getD, List.getElem?_eq_getElem hlen]
          rfl)
    have hnodes : ∃ rest, nodes c = [] :: rest := by
      rw [← hc]
      unfold nodes
      exact ⟨_, rfl⟩
    obtain ⟨rest, hrest⟩ := hnodes
    rw [hrest, List.map_cons] at key
    have e : ((List.range N).flatMap fun i => if [] ∈ [] :: vs i then List.map (shownFor .aggregated i)
        ((recorded i [] :: (([] :: vs i).map fun x => recorded i (0 :: x))).getD (([] :: vs i).idxOf []) []) else [])
        = (List.range N).flatMap fun i => recorded i [] := by
      apply List.flatMap_congr
      intro i hi
      simp only [List.mem_cons, true_or, if_true, List.idxOf_cons_self, List.getD_cons_zero]
      exact List.map_id _
    rw [e] at key
    exact ⟨_, key⟩

/-- A shuffle over a merge of partial states. -/
def Demo.reduced : Plan (Nat × Nat) → Bool
  | .node (.shuffle _ _ n _) _ [.node (.op _ _) _ [.node (.hashRepart ..) _ [_]]] => decide (0 < n)
  | _ => false

/-- **C44 is false** with partial reduction: in this query's plan, a stage has a merge of partial states (`.op`) at the top,
but whatever the nodes record, what is shown for it is what the tasks recorded for a repartitioning. -/
theorem C44_partial_reduce_false : ∃ p', plan Tree.Demo.sess (twoStep Tree.Demo.sum id 2 Tree.Demo.input) = .ok (some p')
    ∧ ∃ t x c g r, At 1 p' t x ∧ x.kind.isNet = true ∧ 0 < x.kind.tasks ∧ x.children = [c] ∧ c.kind = .op g r
      ∧ ∃ w : Nat → Plan (Nat × Nat), (∀ i < x.kind.tasks, workerPlan x.kind t (share ⟨i, x.kind.tasks⟩ c) = .ok (w i)
        ∧ ∃ z h n, NodeAt (w i) [] z ∧ z.kind = .hashRepart h n none)
      ∧ ∀ (addr : Path → Nat) (store : Store V) (recorded : Nat → Path → List (Metric V)), Distinct addr c →
        (∀ i < x.kind.tasks, ∃ r, report (w i) ⟨i, x.kind.tasks⟩ (recorded i) = .ok r ∧ store ⟨0, x.kind.num, i⟩ = some r) →
        ∃ rest, stageRewrite .aggregated addr 0 x.kind.num x.kind.tasks store c
          = .ok (([], (List.range x.kind.tasks).flatMap fun i => recorded i []) :: rest) := by
  obtain ⟨p', hp⟩ := planned_of (env := Tree.Demo.sess) (p := twoStep Tree.Demo.sum id 2 Tree.Demo.input) (by decide +kernel)
  refine ⟨p', hp, ?_⟩
  have hany : (match plan Tree.Demo.sess (twoStep Tree.Demo.sum id 2 Tree.Demo.input) with
      | .ok (some p') => (boundaries p').any Demo.reduced
      | _ => false) = true := by decide +kernel
  rw [hp] at hany
  simp only [List.any_eq_true] at hany
  obtain ⟨x, hx, hr⟩ := hany
  obtain ⟨t, hat, hn⟩ := (mem_boundaries x p' 1).mp hx
  have hsrc := twoStep_src Tree.Demo.sum id (n := 2) (by decide) Tree.Demo.input_src
  have hroot : RootOk Tree.Demo.sess (twoStep Tree.Demo.sum id 2 Tree.Demo.input) ⟨none, false, false, .perm, false⟩ := by
    refine .inr fun p1 h1 => ?_
    have : normalize Tree.Demo.sess (twoStep Tree.Demo.sum id 2 Tree.Demo.input)
        = .ok (twoStep Tree.Demo.sum id 2 Tree.Demo.input) := by rfl
    rw [this] at h1; cases h1
    exact ⟨by decide +kernel, rfl⟩
  obtain ⟨d, hl, _⟩ := plan_src Tree.Demo.sess_ok hsrc rfl hroot hp
  obtain ⟨c, I', h1, h2, h3, hco⟩ := legal_sub hl hat hn
  clear hco
  unfold Demo.reduced at hr
  split at hr
  · rename_i h P n num tc g r tc1 h' m o tc2 y
    cases h1
    have hst : strip (.node (.op g r) tc1 [.node (.hashRepart h' m o) tc2 [y]])
      = .node (.op g r) tc1 [.node (.hashRepart h' m o) tc2 [y]] := strip_noop rfl
    rw [hst] at h3
    have hb := (plan_planned (D := False) Tree.Demo.sess_ok Tree.Demo.sess_scales False.elim
      (undistributed_of (by decide +kernel)) (fun _ d => d.elim) hp t _ hat).shuffle h P n num rfl
    obtain ⟨tc', c', e, hb⟩ := hb
    cases e
    rcases hb with ⟨_, _, e⟩ | ⟨_, _, _, _, _, e⟩
    · cases e
    · cases e
      refine ⟨t, _, _, g, r, hat, rfl, of_decide_eq_true hr, rfl, rfl, ?_⟩
      have hw : ∀ i : Nat, ∃ w, workerPlan (.shuffle h P n num) t (share ⟨i, n⟩
          (.node (.op g r) tc1 [.node (.hashRepart h (P * t) none) tc2 [y]])) = .ok w := fun i => ⟨_, rfl⟩
      choose w hw using hw
      refine ⟨w, fun i hi => ⟨hw i, ?_⟩, fun addr store recorded hd hs => ?_⟩
      · have e : _ = w i := Except.ok.inj (hw i)
        exact ⟨w i, h, P * t, .root, by rw [← e]; rfl⟩
      · exact (C44_partial_reduce_shifts h3 hd (fun i _ => hw i) hs).2.2
  · cases hr

/-! ### **C37**: waiting -/

/-- The store after the given reports have arrived. -/
def arrived (rs : List (Key × List (List (Metric V)))) : Store V := rs.foldl (fun s r => s.insert r.1 r.2) fun _ => none

theorem arrived_isSome (rs : List (Key × List (List (Metric V)))) (k : Key) :
    (arrived rs k).isSome = true ↔ ∃ r, (k, r) ∈ rs := by
  have gen : ∀ (rs : List (Key × List (List (Metric V)))) (s : Store V),
      (rs.foldl (fun s r => s.insert r.1 r.2) s k).isSome = true ↔ ((s k).isSome = true ∨ ∃ r, (k, r) ∈ rs) := by
    intro rs
    induction rs with
    | nil => intro s; simp
    | cons r rs ih =>
      intro s
      rw [List.foldl_cons, ih]
      unfold Store.insert
      by_cases hk : k = r.1
      · subst hk
        simp only [if_true, Option.isSome_some, true_or, true_iff]
        exact .inr ⟨r.2, by simp⟩
      · simp only [hk, if_false]
        constructor
        · rintro (h | ⟨r', h⟩)
          · exact .inl h
          · exact .inr ⟨r', by simp [h]⟩
        · rintro (h | ⟨r', h⟩)
          · exact .inl h
          · rcases List.mem_cons.mp h with h | h
            · rw [← h] at hk; exact absurd rfl hk
            · exact .inr ⟨r', h⟩
  rw [arrived, gen]
  simp

/-- **C37** (waiting) Whatever reports have arrived, in whatever order: a poll of the wait for the metrics of an executed
query returns if and only if every task of every stage has reported. -/
theorem C37_wait_exact (query : Nat) (p : Plan Row) (rs : List (Key × List (List (Metric V)))) :
    waitReady query (some (arrived rs)) (some p) = true ↔
      ∀ t x, At 1 p t x → x.kind.isNet = true → ∀ i < x.kind.tasks, ∃ r, (⟨query, x.kind.num, i⟩, r) ∈ rs := by
  have h1 : waitReady query (some (arrived rs)) (some p) = true
      ↔ ∀ k ∈ expectedKeys query p, (arrived rs k).isSome = true := by
    unfold waitReady
    rw [Bool.or_eq_true, List.all_eq_true, List.isEmpty_iff]
    constructor
    · rintro (h | h) k hk
      · rw [h] at hk; cases hk
      · exact h k hk
    · exact .inr
  rw [h1]
  unfold expectedKeys
  constructor
  · intro h t x hat hn i hi
    rw [← arrived_isSome]
    exact h _ (List.mem_flatMap.mpr ⟨x, (mem_boundaries x p 1).mpr ⟨t, hat, hn⟩, List.mem_map.mpr ⟨i, List.mem_range.mpr hi, rfl⟩⟩)
  · intro h k hk
    obtain ⟨x, hx, hk⟩ := List.mem_flatMap.mp hk
    obtain ⟨i, hi, rfl⟩ := List.mem_map.mp hk
    obtain ⟨t, hat, hn⟩ := (mem_boundaries x p 1).mp hx
    rw [arrived_isSome]
    exact h t x hat hn i (List.mem_range.mp hi)

/-- **C37** (waiting) There is nothing to wait for if metrics are not collected or the query was not executed. -/
theorem C37_nothing_to_wait_for (query : Nat) (store : Option (Store V)) (p : Option (Plan Row))
    (h : store = none ∨ p = none) : waitReady query store p = true := by
  rcases h with rfl | rfl
  · rfl
  · cases store <;> rfl

/-- **C37** (waiting) The reports are there once the wait returned: the report shown for a task is one that arrived for it. -/
theorem C37_store_keeps_reports (rs : List (Key × List (List (Metric V)))) (k : Key) (r : List (List (Metric V)))
    (h : arrived rs k = some r) : (k, r) ∈ rs := by
  have gen : ∀ (rs : List (Key × List (List (Metric V)))) (s : Store V),
      rs.foldl (fun s r => s.insert r.1 r.2) s k = some r → s k = some r ∨ (k, r) ∈ rs := by
    intro rs
    induction rs with
    | nil => intro s h; exact .inl h
    | cons a rs ih =>
      intro s h
      rcases ih _ h with h | h
      · have h : (if k = a.1 then some a.2 else s k) = some r := h
        by_cases hk : k = a.1
        · rw [if_pos hk] at h
          cases h
          right
          rw [hk]
          simp
        · rw [if_neg hk] at h
          exact .inl h
      · exact .inr (by simp [h])
  rcases gen rs _ h with h | h
  · cases h
  · exact h

/-! ### The theorems apply -/

/-- The session of `Tree.Demo` without partial reduction. -/
def Demo.plainSess : Env (Nat × Nat) := { Tree.Demo.sess with partialReduce := false }

theorem Demo.plain_ok : EnvOk Demo.plainSess :=
  { desired := Tree.Demo.sess_ok.desired, maxTasks := Tree.Demo.sess_ok.maxTasks, factor := Tree.Demo.sess_ok.factor,
    target := Tree.Demo.sess_ok.target }

theorem Demo.plain_scales : ScalesLeaves Demo.plainSess := Tree.Demo.sess_scales

/-- The conditions on the plan do not depend on partial reduction. -/
theorem src_plain {env : Env Row} {b : Bool} {ph : Phase} {p : Plan Row} {J : SInfo Row} (h : Src env ph p J) :
    Src { env with partialReduce := b } ph p J := by
  induction h with
  | leaf a0 a1 a2 => exact .leaf a0 a1 a2
  | opLocal a0 a1 a2 a3 ih0 => exact .opLocal a0 a1 a2 ih0
  | opKeyed a0 a1 a2 a3 a4 a5 a6 a7 a8 ih0 => exact .opKeyed a0 a1 a2 a3 a4 a5 a6 a7 ih0
  | opSingle a0 a1 a2 a3 a4 a5 a6 ih0 => exact .opSingle a0 a1 a2 a3 a4 a5 ih0
  | joinSafe a0 a1 a2 a3 a4 a5 a6 a7 a8 a9 ih0 ih1 => exact .joinSafe a0 a1 a2 a3 a4 a5 a6 a7 ih0 ih1
  | joinPinned a0 a1 a2 a3 a4 a5 a6 a7 a8 ih0 ih1 => exact .joinPinned a0 a1 a2 a3 a4 a5 a6 ih0 ih1
  | joinCollect a0 a1 a2 a3 a4 a5 ih0 ih1 => exact .joinCollect a0 a1 a2 a3 ih0 ih1
  | joinNested a0 a1 a2 a3 a4 a5 a6 a7 ih0 ih1 => exact .joinNested a0 a1 a2 a3 a4 a5 ih0 ih1
  | joinPart a0 a1 a2 a3 a4 a5 ih0 ih1 => exact .joinPart a0 a1 a2 a3 ih0 ih1
  | union a0 a1 a2 ih0 => exact .union a0 a1 ih0
  | ciu a0 a1 a2 a3 ih0 => exact .ciu a0 a1 a2 ih0
  | hashRepart a0 a1 a2 ih0 => exact .hashRepart a0 a1 ih0
  | otherRepart a0 a1 a2 a3 ih0 => exact .otherRepart a0 a1 a2 ih0
  | gather a0 a1 a2 a3 a4 ih0 => exact .gather a0 a1 a2 a3 ih0
  | fetch a0 a1 a2 a3 a4 a5 ih0 => exact .fetch a0 a1 a2 a3 a4 ih0
  | broadcast a0 a1 ih0 => exact .broadcast a0 ih0
  | forget a0 a1 a2 a3 ih => exact .forget ih a1 a2 a3
  | coarsen a0 a1 ih0 => exact .coarsen a0 ih0

/-- The metrics of a plan with a broadcast join, whatever its nodes record: all tasks can report, and with their
reports they are shown. -/
example (recorded : Nat → Nat → Path → List (Metric Nat)) (headRecorded : Path → List (Metric Nat)) :
    ∃ p' store shown, plan Demo.plainSess Tree.Demo.input = .ok (some p')
      ∧ rewritePlan .perTask (fun _ => Encodable.encode) 7 store p' headRecorded = .ok shown
      ∧ ∃ (t : Nat) (x c : Plan (Nat × Nat)), At 1 p' t x ∧ x.kind.isNet = true ∧ x.kind.tasks = 3
        ∧ (x.kind.num, (nodes c).map fun y => (y, expected .perTask 3 c (recorded x.kind.num) y)) ∈ shown.stages := by
  have hsrc : Src Demo.plainSess .pre Tree.Demo.input _ := src_plain (b := false) Tree.Demo.input_src
  have hroot : RootOk Demo.plainSess Tree.Demo.input ⟨none, false, false, .perm, false⟩ := .inr (by
    intro p1 h1
    have : normalize Demo.plainSess Tree.Demo.input = .ok Tree.Demo.input := by rfl
    rw [this] at h1; cases h1
    exact ⟨by decide +kernel, rfl⟩)
  have hu : Undistributed Tree.Demo.input := undistributed_of (by decide +kernel)
  obtain ⟨p', hp⟩ := Tree.planned_of (env := Demo.plainSess) (p := Tree.Demo.input) (by decide +kernel)
  obtain ⟨store, hstore⟩ := C44_reports_exist Demo.plain_ok Demo.plain_scales hu hsrc rfl hroot hp rfl 7 recorded
  obtain ⟨shown, h1, _, _, _, h5⟩ := C44_shown_where_recorded_partial Demo.plain_ok Demo.plain_scales hu hsrc rfl hroot hp
    rfl (addr := fun _ => Encodable.encode) (headRecorded := headRecorded)
    (fun _ _ _ _ _ _ x y _ _ h => Encodable.encode_injective h) hstore .perTask
  refine ⟨p', store, shown, hp, h1, ?_⟩
  have hshape : (match plan Demo.plainSess Tree.Demo.input with
      | .ok (some (.node k _ [.node k' _ [_]])) => k.isNet == false && k'.isNet && k'.tasks == 3 &&
        (match k with | .coalesce none => true | _ => false)
      | _ => false) = true := by decide +kernel
  rw [hp] at hshape
  match p', h5, hshape with
  | .node k tc [.node k' tc' [c]], h5, hshape =>
    simp only [Bool.and_eq_true, beq_iff_eq] at hshape
    obtain ⟨⟨⟨g1, g2⟩, g3⟩, g4⟩ := hshape
    have hat : At 1 (.node k tc [.node k' tc' [c]]) 1 (.node k' tc' [c]) := by
      refine .child (i := 0) rfl ?_
      have : childCount k 1 0 = 1 := by cases k <;> first | rfl | cases g4
      rw [this]
      exact .root
    refine ⟨1, _, c, hat, g2, g3, ?_⟩
    have := h5 1 _ c hat g2 rfl
    rwa [show (Plan.node k' tc' [c]).kind.tasks = 3 from g3] at this

/-- Three tasks of a stage with an isolated union: the first two run its first branch, the third the second one. -/
example : stageRewrite (V := Nat) .perTask (fun x => x.sum + 10 * x.length) 7 2 3
    (Store.insert (Store.insert (Store.insert (fun _ => none) ⟨7, 2, 0⟩ [[⟨1, none, []⟩], [⟨10, some 0, []⟩]])
      ⟨7, 2, 1⟩ [[], [⟨20, some 0, []⟩]]) ⟨7, 2, 2⟩ [[], [⟨30, some 1, []⟩]]) Tree.Rec.Demo.branches
    = .ok [([], [⟨1, none, [("task_id", "0")]⟩]),
      ([0], [⟨10, some 0, [("task_id", "0")]⟩, ⟨20, some 0, [("task_id", "1")]⟩]),
      ([1], [⟨30, some 1, [("task_id", "2")]⟩])] := by
  have v0 : visit Tree.Rec.Demo.branches ⟨0, 3⟩ = .ok [[], [0]] := by
    simp [Tree.Rec.Demo.branches, fresh, visit, visitEntries, visitNth, visitAll, Kind.isNet, bind, Except.bind]
  have v1 : visit Tree.Rec.Demo.branches ⟨1, 3⟩ = .ok [[], [0]] := by
    simp [Tree.Rec.Demo.branches, fresh, visit, visitEntries, visitNth, visitAll, Kind.isNet, bind, Except.bind]
  have v2 : visit Tree.Rec.Demo.branches ⟨2, 3⟩ = .ok [[], [1]] := by
    simp [Tree.Rec.Demo.branches, fresh, visit, visitEntries, visitNth, visitAll, Kind.isNet, bind, Except.bind]
  have hn : nodes Tree.Rec.Demo.branches = [[], [0], [1]] := by
    simp [Tree.Rec.Demo.branches, fresh, nodes, nodesAll, Kind.isNet]
  unfold stageRewrite
  rw [hn]
  simp only [show List.range 3 = [0, 1, 2] from rfl, enterTasks, Store.insert, v0, v1, v2, bind, Except.bind]
  rfl

end DD.Metrics
