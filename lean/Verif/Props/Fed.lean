/-
C73: a query that feeds work units and ends without an error has read all of them, and when it has not.
-/
import Verif.Model.Fed
import Verif.Props.WorkUnit

namespace DD.Fed

open DD.Worker (upd upd_same upd_ne)

variable {U : Type}

/-- What is known about one task at any time, if every message decodes. -/
structure TaskInv (ns : List (WU.Node U)) (collect : Bool) (cut : Bool) (t : Task U) : Prop where
  inv : WU.Inv ns cut t.wu
  complete : WU.EndComplete ns cut t.wu
  cutLost : cut = true → t.lost = true
  commCut : collect = true → t.comm = some true → cut = false
  connected : t.loopDone = false → t.lost = false ∧ t.wu.connected = true
  done : t.loopDone = true → t.wu.sendersAlive = false
  resp : collect = true → t.respDone = true → t.loopDone = true
  commResp : t.comm = some true → t.respDone = true
  eos : t.wu.connected = true → t.wu.phase ≠ .running →
    t.wu.sendersAlive = false ∨ WU.hasEos t.wu.wire = true

theorem hasEos_append (ws : List (WU.Msg U)) (m : WU.Msg U) :
    WU.hasEos (ws ++ [m]) = (WU.hasEos ws || WU.hasEos [m]) := by
  induction ws with
  | nil => rfl
  | cons w ws ih => cases w <;> simp [WU.hasEos, ih]

/-- The end-of-feed message is on its way or was handled once the feed task has returned. -/
theorem eos_step (ns : List (WU.Node U)) (s : WU.State U) (st : WU.Step)
    (h : s.connected = true → s.phase ≠ .running → s.sendersAlive = false ∨ WU.hasEos s.wire = true)
    (hc : (WU.step ns (WU.declaredBy ns) s st).connected = true)
    (hp : (WU.step ns (WU.declaredBy ns) s st).phase ≠ .running) :
    (WU.step ns (WU.declaredBy ns) s st).sendersAlive = false ∨
      WU.hasEos (WU.step ns (WU.declaredBy ns) s st).wire = true := by
  cases st with
  | pull id p =>
    simp only [WU.step] at *
    split at hc <;> rename_i h1 <;> simp_all
  | flush id =>
    simp only [WU.step] at *
    split at hc
    · rename_i h1 h2
      split at hc
      · split at hc <;> simp_all
      · simp_all [WU.sendMsg, hasEos_append, WU.hasEos]
    · simp_all
  | finish =>
    simp only [WU.step] at *
    split at hc
    · split at hc
      · simp_all [WU.sendMsg, hasEos_append, WU.hasEos]
      · simp_all
    · simp_all
  | abort =>
    simp only [WU.step] at *
    split at hc
    · simp_all [WU.sendMsg, hasEos_append, WU.hasEos]
    · simp_all
  | deliver =>
    simp only [WU.step] at *
    split at hc
    · simp_all
    · simp_all
    · rename_i us rest hw
      rw [hw] at h
      split at hc <;> simp_all [WU.hasEos]
  | close => simp [WU.step] at hc
  | recv k =>
    simp only [WU.step] at *
    split at hc
    · simp_all
    · split at hc
      · simp_all
      · split at hc <;> simp_all
  | dropRx k => simp only [WU.step] at *; exact h hc hp

theorem own_connected (ns : List (WU.Node U)) (s : WU.State U) (st : WU.Step) (h : st ≠ .close) :
    (WU.step ns (WU.declaredBy ns) s st).connected = s.connected := by
  cases st with
  | close => exact absurd rfl h
  | _ =>
    simp only [WU.step]
    repeat' split
    all_goals rfl

theorem dead_stays (ns : List (WU.Node U)) (s : WU.State U) (st : WU.Step)
    (h : s.sendersAlive = false) : (WU.step ns (WU.declaredBy ns) s st).sendersAlive = false := by
  cases st <;> simp only [WU.step] <;> (repeat' split) <;> first | exact h | rfl

/-- A step of the feeding that does not end the stream. -/
theorem TaskInv.feed {ns : List (WU.Node U)} {collect cut : Bool} {t : Task U}
    (h : TaskInv ns collect cut t) (st : WU.Step) (hst : st ≠ .close) :
    TaskInv ns collect cut (feedStep ns t st) := by
  have h1 : WU.Inv ns cut (WU.step ns (WU.declaredBy ns) t.wu st) := by
    have := WU.inv_step ns h.inv st
    cases st with
    | close => exact absurd rfl hst
    | _ => simpa only [Bool.or_false] using this
  have h2 : WU.EndComplete ns cut (WU.step ns (WU.declaredBy ns) t.wu st) := by
    have := WU.endComplete_step ns h.inv h.complete st
    cases st with
    | close => exact absurd rfl hst
    | _ => simpa only [Bool.or_false] using this
  refine ⟨h1, h2, h.cutLost, h.commCut, ?_, ?_, h.resp, h.commResp, ?_⟩
  · intro hl
    refine ⟨(h.connected hl).1, ?_⟩
    rw [← (h.connected hl).2]
    exact own_connected ns t.wu st hst
  · intro hl; exact dead_stays ns t.wu st (h.done hl)
  · exact eos_step ns t.wu st h.eos

/-- The loop ends after everything was handled. -/
theorem TaskInv.graceful {ns : List (WU.Node U)} {collect cut : Bool} {t : Task U}
    (h : TaskInv ns collect cut t) (ha : t.wu.sendersAlive = false) :
    TaskInv ns collect cut (endLoop ns t) := by
  have h1 := WU.inv_step ns h.inv .close
  have h2 := WU.endComplete_step ns h.inv h.complete .close
  simp only [ha, Bool.or_false] at h1 h2
  refine ⟨h1, h2, h.cutLost, h.commCut, ?_, fun _ => rfl, fun _ _ => rfl, h.commResp, ?_⟩
  · intro hl; cases hl
  · intro hc; cases hc

/-- The loop ends because the connection broke. -/
theorem TaskInv.lose {ns : List (WU.Node U)} {collect cut : Bool} {t : Task U}
    (h : TaskInv ns collect cut t) :
    ∃ cut', TaskInv ns collect cut' { endLoop ns t with lost := true } := by
  have h1 := WU.inv_step ns h.inv .close
  have h2 := WU.endComplete_step ns h.inv h.complete .close
  refine ⟨_, h1, h2, fun _ => rfl, ?_, ?_, fun _ => rfl, fun _ _ => rfl, h.commResp, ?_⟩
  · intro hc hk
    have hk' : t.comm = some true := hk
    have := h.done (h.resp hc (h.commResp hk'))
    simp only [this, h.commCut hc hk', Bool.or_self]
  · intro hl; cases hl
  · intro hc; cases hc

/-- Every message decodes on the worker. -/
def Decodes (steps : List Step) : Prop := ∀ t, Step.garble t ∉ steps

/-- No connection breaks. -/
def NoLoss (steps : List Step) : Prop := ∀ t, Step.lose t ∉ steps

theorem taskInv_step (n : Nat) (nodes : Nat → List (WU.Node U)) (collect : Bool) (s : State U)
    (h : ∀ t, ∃ cut, TaskInv (nodes t) collect cut (s.tasks t)) (st : Step)
    (hst : ∀ t, st ≠ .garble t) (i : Nat) :
    ∃ cut, TaskInv (nodes i) collect cut ((step n nodes collect s st).tasks i) := by
  -- a step of task `t` matters only to task `t`
  have one : ∀ (t : Nat) (x : Task U), (∃ cut, TaskInv (nodes t) collect cut x) →
      ∃ cut, TaskInv (nodes i) collect cut (upd s.tasks t x i) := by
    intro t x hx
    by_cases hi : i = t
    · subst hi; rw [upd_same]; exact hx
    · rw [upd_ne hi]; exact h i
  cases st with
  | feeds t st =>
    simp only [step]
    split
    · rename_i ho
      refine one t _ ?_
      obtain ⟨cut, hc⟩ := h t
      refine ⟨cut, hc.feed st ?_⟩
      rintro rfl
      cases ho
    · exact h i
  | requestEnds t =>
    simp only [step]
    split
    · rename_i hg
      refine one t _ ?_
      obtain ⟨cut, hc⟩ := h t
      refine ⟨cut, hc.graceful ?_⟩
      rcases hc.eos (hc.connected hg.2.2.2).2 hg.2.1 with ha | he
      · exact ha
      · have hw : (s.tasks t).wu.wire = [] := List.isEmpty_iff.mp hg.2.2.1
        rw [hw] at he
        cases he
    · exact h i
  | lose t =>
    simp only [step]
    refine one t _ ?_
    obtain ⟨cut, hc⟩ := h t
    exact hc.lose
  | garble t => exact absurd rfl (hst t)
  | responseEnds t =>
    simp only [step]
    split
    · exact h i
    · rename_i hg
      refine one t _ ?_
      obtain ⟨cut, hc⟩ := h t
      refine ⟨cut, hc.inv, hc.complete, hc.cutLost, hc.commCut, hc.connected, hc.done, ?_, fun _ => rfl,
        hc.eos⟩
      intro hcol _
      change (s.tasks t).loopDone = true
      cases hl : (s.tasks t).loopDone with
      | true => rfl
      | false => exact absurd ⟨hcol, hl⟩ hg
  | commOk t =>
    simp only [step]
    split
    · rename_i hg
      refine one t _ ?_
      obtain ⟨cut, hc⟩ := h t
      refine ⟨cut, hc.inv, hc.complete, hc.cutLost, ?_, hc.connected, hc.done, hc.resp, fun _ => hg.2.1,
        hc.eos⟩
      intro _ _
      cases cut with
      | false => rfl
      | true =>
        have := hc.cutLost rfl
        rw [hg.2.2] at this
        cases this
    · exact h i
  | commErr t =>
    simp only [step]
    split
    · refine one t _ ?_
      obtain ⟨cut, hc⟩ := h t
      refine ⟨cut, hc.inv, hc.complete, hc.cutLost, ?_, hc.connected, hc.done, hc.resp, ?_, hc.eos⟩
      · intro _ hk; cases hk
      · intro hk; cases hk
    · exact h i
  | headEnds =>
    simp only [step]
    split <;> exact h i
  | drained =>
    simp only [step]
    split <;> exact h i
  | drop =>
    simp only [step]
    split
    · obtain ⟨cut, hc⟩ := h i
      exact (hc.feed .abort (by intro h; cases h)).lose
    · exact h i

theorem taskInv_run (n : Nat) (nodes : Nat → List (WU.Node U)) (collect : Bool) (steps : List Step)
    (hdec : Decodes steps) (i : Nat) :
    ∃ cut, TaskInv (nodes i) collect cut ((run n nodes collect steps).tasks i) := by
  suffices H : ∀ (steps : List Step) (s : State U), Decodes steps →
      (∀ t, ∃ cut, TaskInv (nodes t) collect cut (s.tasks t)) →
      ∀ t, ∃ cut, TaskInv (nodes t) collect cut ((steps.foldl (step n nodes collect) s).tasks t) by
    refine H steps _ hdec ?_ i
    intro t
    refine ⟨false, WU.inv_init _, ?_, ?_, ?_, ?_, ?_, ?_, ?_, ?_⟩
    · intro _ h; cases h
    · intro h; cases h
    · intro _ h; cases h
    · intro _; exact ⟨rfl, rfl⟩
    · intro h; cases h
    · intro _ h; cases h
    · intro h; cases h
    · intro _ h; exact absurd rfl h
  intro steps
  induction steps with
  | nil => intro s _ h; exact h
  | cons st rest ih =>
    intro s hd h
    refine ih _ (fun t ht => hd t (List.mem_cons_of_mem _ ht)) ?_
    intro t
    refine taskInv_step n nodes collect s h st ?_ t
    rintro u rfl
    exact hd u (List.mem_cons_self ..)

/-- Without `lose` steps nothing is lost until the client drops its stream. -/
theorem lost_run (n : Nat) (nodes : Nat → List (WU.Node U)) (collect : Bool) (steps : List Step)
    (hl : NoLoss steps) : (run n nodes collect steps).driver ≠ .dropped →
    ∀ t, ((run n nodes collect steps).tasks t).lost = false := by
  suffices H : ∀ (steps : List Step) (s : State U), NoLoss steps →
      (s.driver ≠ .dropped → ∀ t, (s.tasks t).lost = false) →
      (steps.foldl (step n nodes collect) s).driver ≠ .dropped →
      ∀ t, ((steps.foldl (step n nodes collect) s).tasks t).lost = false from
    H steps _ hl (fun _ _ => rfl)
  intro steps
  induction steps with
  | nil => intro s _ h; exact h
  | cons st rest ih =>
    intro s hd h
    refine ih _ (fun t ht => hd t (List.mem_cons_of_mem _ ht)) ?_
    have one : ∀ (t : Nat) (x : Task U), (x.lost = (s.tasks t).lost) → s.driver ≠ .dropped →
        ∀ i, (upd s.tasks t x i).lost = false := by
      intro t x hx hd i
      by_cases hi : i = t
      · subst hi; rw [upd_same, hx]; exact h hd i
      · rw [upd_ne hi]; exact h hd i
    cases st with
    | feeds t st => simp only [step]; split; exacts [one t _ rfl, h]
    | requestEnds t => simp only [step]; split; exacts [one t _ rfl, h]
    | lose t => exact absurd (List.mem_cons_self ..) (hd t)
    | garble t => simp only [step]; split; exacts [one t _ rfl, h]
    | responseEnds t => simp only [step]; split; exacts [h, one t _ rfl]
    | commOk t => simp only [step]; split; exacts [one t _ rfl, h]
    | commErr t => simp only [step]; split; exacts [one t _ rfl, h]
    | headEnds =>
      simp only [step]
      split
      · rename_i hr
        intro _
        exact h (by rw [hr]; intro h; cases h)
      · exact h
    | drained =>
      simp only [step]
      split
      · rename_i hr
        intro _
        exact h (by rw [hr.1]; intro h; cases h)
      · exact h
    | drop =>
      simp only [step]
      split
      · intro h'; exact absurd rfl h'
      · exact h

/-- What the driver knew when it finished stays true. -/
theorem finished_run (n : Nat) (nodes : Nat → List (WU.Node U)) (collect : Bool) (steps : List Step) :
    (run n nodes collect steps).driver = .finished →
    ∀ t < n, ((run n nodes collect steps).tasks t).comm = some true ∧
      ((run n nodes collect steps).tasks t).wu.phase = .finished := by
  suffices H : ∀ (steps : List Step) (s : State U),
      (s.driver = .finished → ∀ t < n, (s.tasks t).comm = some true ∧
        (s.tasks t).wu.phase = .finished) →
      (steps.foldl (step n nodes collect) s).driver = .finished →
      ∀ t < n, ((steps.foldl (step n nodes collect) s).tasks t).comm = some true ∧
        ((steps.foldl (step n nodes collect) s).tasks t).wu.phase = .finished from
    H steps _ (fun h => by cases h)
  have phase : ∀ (ns : List (WU.Node U)) (w : WU.State U) (st : WU.Step), w.phase = .finished →
      (WU.step ns (WU.declaredBy ns) w st).phase = .finished := by
    intro ns w st h
    cases st <;> simp only [WU.step, h] <;> (repeat' split) <;> simp_all
  intro steps
  induction steps with
  | nil => intro s h; exact h
  | cons st rest ih =>
    intro s h
    refine ih _ ?_
    have one : ∀ (t : Nat) (x : Task U),
        ((s.tasks t).comm = some true ∧ (s.tasks t).wu.phase = .finished →
          x.comm = some true ∧ x.wu.phase = .finished) → s.driver = .finished →
        ∀ i < n, (upd s.tasks t x i).comm = some true ∧ (upd s.tasks t x i).wu.phase = .finished := by
      intro t x hx hd i hi
      by_cases he : i = t
      · subst he; rw [upd_same]; exact hx (h hd i hi)
      · rw [upd_ne he]; exact h hd i hi
    cases st with
    | feeds t st =>
      simp only [step]; split
      · exact one t _ fun q => ⟨q.1, phase _ _ _ q.2⟩
      · exact h
    | requestEnds t =>
      simp only [step]; split
      · exact one t _ fun q => ⟨q.1, phase _ _ _ q.2⟩
      · exact h
    | lose t => exact one t _ fun q => ⟨q.1, phase _ _ _ q.2⟩
    | garble t =>
      simp only [step]; split
      · exact one t _ fun q => ⟨q.1, phase _ _ _ q.2⟩
      · exact h
    | responseEnds t =>
      simp only [step]; split
      · exact h
      · exact one t _ id
    | commOk t =>
      simp only [step]; split
      · exact one t _ fun q => ⟨rfl, q.2⟩
      · exact h
    | commErr t =>
      simp only [step]; split
      · rename_i hg
        exact one t _ fun q => by rw [hg.1] at q; cases q.1
      · exact h
    | headEnds =>
      simp only [step]; split
      · intro h'; cases h'
      · exact h
    | drained =>
      simp only [step]; split
      · rename_i hr
        split
        · rename_i ha
          intro _ t ht
          have := List.all_eq_true.mp ha t (List.mem_range.mpr ht)
          simpa [Task.succeeded] using this
        · intro h'; cases h'
      · exact h
    | drop =>
      simp only [step]; split
      · intro h'; cases h'
      · exact h

/-- Which feeds each task has. -/
def DistinctIds (n : Nat) (nodes : Nat → List (WU.Node U)) : Prop := ∀ t < n, WU.DistinctIds (nodes t)

/-- **C73, a clean end means that everything was read (partial).** Whatever the schedule, the batching and
the moment at which connections break: if the client's stream ends without an error, every leaf partition
of every task that saw the end of its feed had been given every unit of it, in order, and the feed did
not fail. This needs metrics to be collected (the default) or connections that do not break.
Missing for the full claim: without metrics a broken connection goes unnoticed
(`C73_lost_connection_false`); a message the worker cannot decode goes unnoticed in either case
(`C73_undecodable_message_false`). -/
theorem C73_clean_end_read_everything_partial (n : Nat) (nodes : Nat → List (WU.Node U))
    (hid : DistinctIds n nodes) (collect : Bool) (steps : List Step) (hdec : Decodes steps)
    (hc : collect = true ∨ NoLoss steps)
    (hfin : (run n nodes collect steps).driver = .finished)
    (t : Nat) (ht : t < n) (x : WU.Node U) (hx : x ∈ nodes t) (p : Nat) (hp : p < x.partitions)
    (hend : ((run n nodes collect steps).tasks t).wu.sawEnd (x.id, p) = true) :
    (((run n nodes collect steps).tasks t).wu.got (x.id, p)).map Except.ok =
      x.feed (x.partitions * x.taskIndex + p) := by
  obtain ⟨cut, inv⟩ := taskInv_run n nodes collect steps hdec t
  obtain ⟨hk, hph⟩ := finished_run n nodes collect steps hfin t ht
  have hcut : cut = false := by
    rcases hc with hc | hl
    · exact inv.commCut hc hk
    · cases hcut : cut with
      | false => rfl
      | true =>
        have h1 := inv.cutLost hcut
        rw [lost_run n nodes collect steps hl (by rw [hfin]; intro h; cases h) t] at h1
        cases h1
  rw [inv.complete hcut hph (x.id, p) (WU.declared_node (nodes t) x hx p hp) hend,
    WU.feedOf_node (nodes t) (hid t ht) x hx p hp]

/-- **C73, a feed that fails fails the query.** Under the same conditions, if the client's stream ends
without an error then no feed whose leaf partition still wants units produced an error. -/
theorem C73_failed_feed_is_reported (n : Nat) (nodes : Nat → List (WU.Node U))
    (hid : DistinctIds n nodes) (collect : Bool) (steps : List Step) (hdec : Decodes steps)
    (hc : collect = true ∨ NoLoss steps)
    (t : Nat) (ht : t < n) (x : WU.Node U) (hx : x ∈ nodes t) (p : Nat) (hp : p < x.partitions)
    (hdrop : ((run n nodes collect steps).tasks t).wu.rxDropped (x.id, p) = false)
    (e : Err) (he : Except.error e ∈ x.feed (x.partitions * x.taskIndex + p)) :
    (run n nodes collect steps).driver ≠ .finished := by
  intro hfin
  obtain ⟨cut, inv⟩ := taskInv_run n nodes collect steps hdec t
  obtain ⟨hk, hph⟩ := finished_run n nodes collect steps hfin t ht
  have hcut : cut = false := by
    rcases hc with hc | hl
    · exact inv.commCut hc hk
    · cases hcut : cut with
      | false => rfl
      | true =>
        have h1 := inv.cutLost hcut
        rw [lost_run n nodes collect steps hl (by rw [hfin]; intro h; cases h) t] at h1
        cases h1
  have := inv.inv.finished hcut hph (x.id, p) (WU.declared_node (nodes t) x hx p hp) hdrop
  rw [WU.feedOf_node (nodes t) (hid t ht) x hx p hp] at this
  rw [← this] at he
  simp at he

/-! ### Concrete queries -/

/-- A query of two tasks with one feed node of two partitions each: task `t` is fed the global
partitions `2 * t` and `2 * t + 1`. -/
def exNodes (t : Nat) : List (WU.Node Nat) :=
  [{ id := 5, partitions := 2, taskIndex := t, feed := fun g => [.ok (10 * g), .ok (10 * g + 1)] }]

/-- Everything task `t` is fed, sent and read. -/
def exFeeds (t : Nat) : List Step :=
  [.pull 5 0, .pull 5 1, .flush 5, .deliver, .pull 5 1, .pull 5 0, .flush 5, .finish, .deliver, .deliver,
    .recv (5, 0), .recv (5, 1), .recv (5, 0), .recv (5, 0), .recv (5, 1), .recv (5, 1), .dropRx (5, 0)].map
    (.feeds t)

def exClose (t : Nat) : List Step := [.requestEnds t, .responseEnds t, .commOk t]

def exGood : List Step :=
  exFeeds 1 ++ exFeeds 0 ++ [.headEnds] ++ exClose 0 ++ exClose 1 ++ [.drained]

/-- Non-vacuity: a query that ends without an error after both tasks have read everything. -/
example :
    let s := run 2 exNodes true exGood
    s.driver = .finished ∧ (s.tasks 1).wu.sawEnd (5, 1) = true ∧
      (s.tasks 1).wu.got (5, 1) = [30, 31] ∧ (s.tasks 0).wu.got (5, 0) = [0, 1] := by
  decide +kernel

example : DistinctIds 2 exNodes := by
  intro t _
  simp [WU.DistinctIds, exNodes]

example : Decodes exGood := by
  intro t
  simp [exGood, exFeeds, exClose]

/-- **Finding.** Without `collect_metrics` the worker ends its answers as soon as it has the plan, so the
coordinator's connection task is done before the units are sent. If the connection breaks after that, the
leaf sees the end of a feed of which it got one of two units, sending further units fails silently, and
the query ends without an error. -/
theorem C73_lost_connection_false :
    ∃ steps : List Step, Decodes steps ∧
      let s := run 1 exNodes false steps
      s.driver = .finished ∧ (s.tasks 0).wu.sawEnd (5, 0) = true ∧
        (s.tasks 0).wu.got (5, 0) = [0] :=
  ⟨[.responseEnds 0, .commOk 0, .feeds 0 (.pull 5 0), .feeds 0 (.flush 5), .feeds 0 .deliver, .lose 0,
    .feeds 0 (.recv (5, 0)), .feeds 0 (.recv (5, 0)), .headEnds,
    .feeds 0 (.pull 5 0), .feeds 0 (.flush 5), .feeds 0 .finish, .drained],
    by intro t; simp, by decide +kernel⟩

def exBroken : List Step :=
  [.responseEnds 0, .commOk 0, .feeds 0 (.pull 5 0), .feeds 0 (.flush 5), .feeds 0 .deliver, .lose 0,
    .feeds 0 (.recv (5, 0)), .feeds 0 (.recv (5, 0)), .headEnds,
    .feeds 0 (.pull 5 0), .feeds 0 (.flush 5), .feeds 0 .finish, .responseEnds 0, .commOk 0, .commErr 0,
    .drained]

/-- The same break with `collect_metrics`: the query fails. -/
example : (run 1 exNodes true exBroken).driver = .failed := by
  decide +kernel

/-- **Finding.** The worker stops reading at a message that does not decode, drops the senders, reports its
metrics and ends its answers: the leaf sees the end of a feed with units missing and the query ends
without an error. (What this library encodes does decode, `C55_work_units`; other senders and damaged
messages need not.) -/
theorem C73_undecodable_message_false :
    ∃ steps : List Step, NoLoss steps ∧
      let s := run 1 exNodes true steps
      s.driver = .finished ∧ (s.tasks 0).wu.sawEnd (5, 0) = true ∧
        (s.tasks 0).wu.got (5, 0) = [0] :=
  ⟨[.feeds 0 (.pull 5 0), .feeds 0 (.flush 5), .feeds 0 .deliver, .feeds 0 (.pull 5 0),
    .feeds 0 (.flush 5), .garble 0,
    .feeds 0 (.recv (5, 0)), .feeds 0 (.recv (5, 0)), .responseEnds 0, .commOk 0, .headEnds,
    .feeds 0 (.pull 5 1), .feeds 0 (.flush 5), .feeds 0 .finish, .drained],
    by intro t; simp, by decide +kernel⟩

def exBadFeed : List Step :=
  [WU.Step.pull 5 0, .pull 5 0, .flush 5, .deliver, .recv (5, 0)].map (Step.feeds 0) ++
    [.headEnds] ++ exClose 0 ++ [.drained]

/-- A query whose only feed fails: it ends with an error. -/
example :
    let s := run 1 (fun _ => [WU.exBadNode]) true exBadFeed
    s.driver = .failed ∧ (s.tasks 0).wu.sawEnd (5, 0) = true := by
  decide +kernel

end DD.Fed
