/-
C80: the progress a worker reports about its tasks.
-/
import Verif.Model.Progress
import Verif.Props.Worker
import Mathlib.Data.List.Induction

namespace DD.Progress

open Worker

variable {Key : Type} [DecidableEq Key]

/-- The steps of the task registry in a history. -/
def regs : List (Ev Key) → List (Step Key Obj HeadWanted)
  | [] => []
  | .reg st :: rest => st :: regs rest
  | .record _ _ _ :: rest => regs rest

theorem stepEv_worker (s : St Key) (e : Nat) (id : Ident) (n : Nat) :
    (stepEv s (.record e id n)).worker = s.worker := by
  simp only [stepEv]
  split
  · split <;> rfl
  · rfl

theorem runEv_worker (evs : List (Ev Key)) : ∀ s : St Key,
    (runEv s evs).worker = run insertHead s.worker (regs evs) := by
  induction evs with
  | nil => intro s; rfl
  | cons ev rest ih =>
    intro s
    cases ev with
    | reg st => exact ih _
    | record e id n =>
      show (runEv (stepEv s (.record e id n)) rest).worker = _
      rw [ih, stepEv_worker]
      rfl

theorem regs_append (a b : List (Ev Key)) : regs (a ++ b) = regs a ++ regs b := by
  induction a with
  | nil => rfl
  | cons ev rest ih => cases ev <;> simp [regs, ih]

theorem runEv_append (s : St Key) (a b : List (Ev Key)) : runEv s (a ++ b) = runEv (runEv s a) b := by
  simp [runEv, List.foldl_append]

/-! ### How entries change -/

theorem getWith_cell (s : State Key Obj HeadWanted) (k : Key) : (getWith s k).1.cell = s.cell := by
  unfold getWith
  split <;> rfl

/-- An entry keeps the plan that was set, or the error. -/
theorem cell_step (s : State Key Obj HeadWanted) (st : Step Key Obj HeadWanted) (e : Nat) :
    ((s.cell e).value = none) ∨
    (∃ td td', (s.cell e).value = some (.ok td) ∧ ((step insertHead s st).cell e).value = some (.ok td') ∧
      td'.base = td.base) ∨
    (∃ er, (s.cell e).value = some (.error er) ∧ ((step insertHead s st).cell e).value = some (.error er)) := by
  have same : (step insertHead s st).cell e = s.cell e →
      (((s.cell e).value = none) ∨
      (∃ td td', (s.cell e).value = some (.ok td) ∧ ((step insertHead s st).cell e).value = some (.ok td') ∧
        td'.base = td.base) ∨
      (∃ er, (s.cell e).value = some (.error er) ∧ ((step insertHead s st).cell e).value = some (.error er))) := by
    intro h
    rw [h]
    cases hv : (s.cell e).value with
    | none => exact .inl rfl
    | some v =>
      cases v with
      | ok td => exact .inr (.inl ⟨td, td, rfl, rfl, rfl⟩)
      | error er => exact .inr (.inr ⟨er, rfl, rfl⟩)
  cases st with
  | openChannel c k =>
    apply same
    simp only [step]
    split
    · rfl
    · exact congrFun (getWith_cell s k) e
  | openExec x k h =>
    apply same
    simp only [step]
    split
    · rfl
    · exact congrFun (getWith_cell s k) e
  | invalidate c =>
    apply same
    simp only [step]
    split <;> rfl
  | evict k => exact same rfl
  | crash => exact same rfl
  | setPlan c r =>
    cases hc : s.chan c with
    | none => apply same; simp only [step, hc]
    | some ch =>
      obtain ⟨k, ph⟩ := ch
      cases ph with
      | gotEntry e0 =>
        by_cases he : e = e0
        · subst he
          cases hv : (s.cell e).value with
          | none => exact .inl rfl
          | some v =>
            have hs : (step insertHead s (.setPlan c r)).cell e = s.cell e := by
              simp only [step, hc, Swmr.Cell.write, hv]
            have := same hs
            rw [hv] at this
            exact this
        · apply same
          simp only [step, hc]
          split
          · rfl
          · exact upd_ne he
      | running e0 => apply same; simp only [step, hc]
      | ended e0 => apply same; simp only [step, hc]
      | closed e0 => apply same; simp only [step, hc]
      | failed er => apply same; simp only [step, hc]
      | lost e0 => apply same; simp only [step, hc]
  | eos c =>
    simp only [step] at same ⊢
    split at same
    · next k e0 hc =>
      split at same
      · next td hv =>
        by_cases he : e = e0
        · subst he
          refine .inr (.inl ⟨td, { td with metricsTx := none }, hv, ?_, rfl⟩)
          simp only [upd_same]
        · exact same (upd_ne he)
      · exact same rfl
    · exact same rfl
  | pollExec x expired =>
    simp only [step] at same ⊢
    split at same
    · next k h e0 hx =>
      split at same
      · exact same rfl
      · exact same rfl
      · exact same rfl
      · next td hv =>
        by_cases he : e = e0
        · subst he
          have hval : (s.cell e).value = some (.ok td) := by
            unfold Swmr.Cell.pollRead at hv
            split at hv
            · next v hvv => simp only [Swmr.ReadPoll.ready.injEq, Except.ok.injEq] at hv; rw [hvv, hv]
            · split at hv <;> simp at hv
          refine .inr (.inl ⟨td, (td.plan insertHead h).1, hval, ?_, ?_⟩)
          · simp only [upd_same]
          · unfold TaskData.plan; split <;> rfl
        · exact same (upd_ne he)
    · exact same rfl

/-- A channel that was closed, or lost with its process, left no entry in the cache. -/
theorem closed_not_cached (steps : List (Step Key Obj HeadWanted)) :
    ∀ c k e, ((run insertHead State.init steps).chan c = some ⟨k, .closed e⟩ ∨
      (run insertHead State.init steps).chan c = some ⟨k, .lost e⟩) →
    (run insertHead State.init steps).cache k ≠ some e := by
  induction steps using List.reverseRecOn with
  | nil => intro c k e h; rcases h with h | h <;> cases h
  | append_singleton pre st ih =>
    obtain ⟨own, inv⟩ := inv_run insertHead pre
    have hrun : run insertHead State.init (pre ++ [st]) = step insertHead (run insertHead State.init pre) st := by
      simp [run, List.foldl_append]
    rw [hrun]
    revert ih inv
    generalize run insertHead State.init pre = s
    intro ih inv
    have hold : ∀ c k e, (s.chan c = some ⟨k, .closed e⟩ ∨ s.chan c = some ⟨k, .lost e⟩) → e < s.next := by
      intro c k e h
      rcases h with h | h
      · exact inv.own_lt _ _ (inv.chan_own c k _ e h rfl)
      · exact inv.own_lt _ _ (inv.chan_own c k _ e h rfl)
    have hget : ∀ k' c k e, (s.chan c = some ⟨k, .closed e⟩ ∨ s.chan c = some ⟨k, .lost e⟩) →
        (getWith s k').1.cache k ≠ some e := by
      intro k' c k e h heq
      unfold getWith at heq
      split at heq
      · exact ih c k e h heq
      · dsimp only at heq
        by_cases hk : k = k'
        · subst hk
          rw [upd_same] at heq
          have := hold c k e h
          cases heq
          omega
        · rw [upd_ne hk] at heq
          exact ih c k e h heq
    have hchan : ∀ (c0 : Nat) (v : Chan Key) c k e, (v.phase ≠ .closed e) → (v.phase ≠ .lost e) →
        (upd s.chan c0 (some v) c = some ⟨k, .closed e⟩ ∨ upd s.chan c0 (some v) c = some ⟨k, .lost e⟩) →
        (s.chan c = some ⟨k, .closed e⟩ ∨ s.chan c = some ⟨k, .lost e⟩) := by
      intro c0 v c k e h1 h2 h
      by_cases hc : c = c0
      · subst hc
        rw [upd_same] at h
        rcases h with h | h
        · cases h; exact absurd rfl h1
        · cases h; exact absurd rfl h2
      · rw [upd_ne hc] at h
        exact h
    intro c k e h
    cases st with
    | openChannel c' k' =>
      simp only [step] at h ⊢
      split at h
      · exact ih c k e h
      · dsimp only at h
        rw [(getWith_spec s k').2.2.2.1] at h
        exact hget k' c k e (hchan _ _ c k e (by simp) (by simp) h)
    | openExec x k' hd =>
      simp only [step] at h ⊢
      split at h
      · exact ih c k e h
      · dsimp only at h
        rw [(getWith_spec s k').2.2.2.1] at h
        exact hget k' c k e h
    | setPlan c' r =>
      simp only [step] at h ⊢
      split at h
      · split at h
        · exact ih c k e (hchan _ _ c k e (by simp) (by simp) h)
        · refine ih c k e (hchan _ _ c k e ?_ ?_ h) <;> (dsimp only; split <;> simp)
      · exact ih c k e h
    | eos c' =>
      simp only [step] at h ⊢
      split at h
      · split at h
        · exact ih c k e (hchan _ _ c k e (by simp) (by simp) h)
        · exact ih c k e h
      · exact ih c k e h
    | invalidate c' =>
      simp only [step] at h ⊢
      split at h
      · next k0 e0 hc =>
        dsimp only at h ⊢
        by_cases hk : k = k0
        · subst hk; rw [upd_same]; simp
        · rw [upd_ne hk]
          have hcc : c ≠ c' := by
            rintro rfl
            rw [upd_same] at h
            rcases h with h | h <;> cases h
            exact hk rfl
          rw [upd_ne hcc] at h
          exact ih c k e h
      · exact ih c k e h
    | pollExec x expired =>
      simp only [step] at h ⊢
      split at h
      · split at h <;> exact ih c k e h
      · exact ih c k e h
    | evict k' =>
      simp only [step] at h ⊢
      by_cases hk : k = k'
      · subst hk; rw [upd_same]; simp
      · rw [upd_ne hk]; exact ih c k e h
    | crash => simp [step]

/-! ### Which tasks a report lists -/

/-- The history of the worker up to and including the events of some visits. -/
def upTo (evs : List (Ev Key)) (visits : List (List (Ev Key) × Key)) : List (Ev Key) :=
  evs ++ (visits.map Prod.fst).flatten

theorem mem_report (visits : List (List (Ev Key) × Key)) : ∀ (evs : List (Ev Key)) (tp : TaskProgress Key),
    tp ∈ report (runEv St.init evs) visits ↔
    ∃ pre es k post, visits = pre ++ (es, k) :: post ∧
      progressOf (runEv St.init (upTo evs (pre ++ [(es, k)]))) k = some tp := by
  induction visits with
  | nil =>
    intro evs tp
    constructor
    · intro h; cases h
    · rintro ⟨pre, es, k, post, h, -⟩
      cases pre <;> cases h
  | cons v rest ih =>
    intro evs tp
    obtain ⟨es, k⟩ := v
    have hu : ∀ pre : List (List (Ev Key) × Key), upTo evs ((es, k) :: pre) = upTo (evs ++ es) pre := by
      intro pre; simp [upTo]
    simp only [report, List.mem_append]
    rw [← runEv_append, ih (evs ++ es)]
    constructor
    · rintro (h | ⟨pre, es', k', post, h1, h2⟩)
      · refine ⟨[], es, k, rest, rfl, ?_⟩
        split at h
        · next tp' hp =>
          rw [List.mem_singleton] at h
          subst h
          simpa [upTo] using hp
        · cases h
      · exact ⟨(es, k) :: pre, es', k', post, by rw [h1]; rfl, by rw [List.cons_append, hu]; exact h2⟩
    · rintro ⟨pre, es', k', post, h1, h2⟩
      cases pre with
      | nil =>
        left
        cases h1
        have : runEv St.init (evs ++ es) = runEv St.init (upTo evs ([] ++ [(es, k)])) := by simp [upTo]
        rw [this, h2]
        simp
      | cons w pre =>
        right
        cases h1
        exact ⟨pre, es', k', post, rfl, by rw [List.cons_append, hu] at h2; exact h2⟩

theorem progressOf_key {s : St Key} {k : Key} {tp : TaskProgress Key} (h : progressOf s k = some tp) :
    tp.key = k ∧ tp.status = .running := by
  unfold progressOf at h
  split at h
  · cases h
  · split at h
    · cases h; exact ⟨rfl, rfl⟩
    · cases h

/-- **C80, only tasks that are served are listed.** Whatever happened on a worker before a progress report and
while it is made: a task that is listed has a coordinator channel, opened for that task's key and whose plan the
worker accepted, that was not closed when the report looked at the task. -/
theorem C80_listed_tasks_are_served (evs : List (Ev Key)) (visits : List (List (Ev Key) × Key))
    (tp : TaskProgress Key) (h : tp ∈ report (runEv St.init evs) visits) :
    ∃ pre es post, visits = pre ++ (es, tp.key) :: post ∧
      ∃ c e base collect, .openChannel c tp.key ∈ regs (upTo evs (pre ++ [(es, tp.key)])) ∧
        .setPlan c (.ok (base, collect)) ∈ regs (upTo evs (pre ++ [(es, tp.key)])) ∧
        ((runEv St.init (upTo evs (pre ++ [(es, tp.key)]))).worker.chan c = some ⟨tp.key, .running e⟩ ∨
         (runEv St.init (upTo evs (pre ++ [(es, tp.key)]))).worker.chan c = some ⟨tp.key, .ended e⟩) := by
  obtain ⟨pre, es, k, post, h1, h2⟩ := (mem_report visits evs tp).mp h
  obtain rfl := (progressOf_key h2).1
  refine ⟨pre, es, post, h1, ?_⟩
  generalize upTo evs (pre ++ [(es, tp.key)]) = H at h2
  obtain ⟨own, inv⟩ := inv_run insertHead (regs H)
  have hc := closed_not_cached (regs H)
  rw [progressOf, runEv_worker] at h2
  rw [runEv_worker]
  change (match (run insertHead State.init (regs H)).cache tp.key with | none => none | some e => _) = _ at h2
  change ∃ c e base collect, _ ∧ _ ∧ ((run insertHead State.init (regs H)).chan c = _ ∨ (run insertHead State.init (regs H)).chan c = _)
  split at h2
  · cases h2
  · next e he =>
    split at h2
    · next td htd =>
      obtain ⟨c, k', ph, col, r1, r2, r3⟩ := inv.cell_set e td htd
      have hent : ph.entry = some e := by cases ph <;> simp_all [ChanPhase.holds, ChanPhase.entry]
      have hk := inv.chan_own c k' ph e r1 hent
      rw [inv.cache_own _ _ he] at hk
      cases hk
      refine ⟨c, e, td.base, col, inv.chan_open c _ ph r1, r3, ?_⟩
      cases ph with
      | gotEntry a => cases r2
      | running a => cases r2; exact .inl r1
      | ended a => cases r2; exact .inr r1
      | closed a => cases r2; exact absurd he (hc c _ _ (.inl r1))
      | failed a => cases r2
      | lost a => cases r2; exact absurd he (hc c _ _ (.inr r1))
    · cases h2

/-- **C80, served tasks are listed.** A task whose plan the worker accepted is listed by every report that visits
it, until its channel is cleaned up, its entry idles out or the worker restarts; whatever else happens in
between, including other channels trying to set a plan for the same key. -/
theorem C80_served_tasks_are_listed (evs : List (Ev Key)) (pre post : List (List (Ev Key) × Key))
    (es : List (Ev Key)) (k : Key) (c : Nat) (ph : ChanPhase)
    (hserved : (runEv St.init (upTo evs (pre ++ [(es, k)]))).worker.chan c = some ⟨k, ph⟩)
    (hacc : ph.holds ≠ none)
    (hno : ∀ st ∈ regs (upTo evs (pre ++ [(es, k)])), ¬ Removes (regs (upTo evs (pre ++ [(es, k)]))) k st) :
    ∃ tp ∈ report (runEv St.init evs) (pre ++ (es, k) :: post), tp.key = k ∧ tp.status = .running := by
  suffices hp : ∃ tp, progressOf (runEv St.init (upTo evs (pre ++ [(es, k)]))) k = some tp by
    obtain ⟨tp, hp⟩ := hp
    exact ⟨tp, (mem_report _ evs tp).mpr ⟨pre, es, k, post, rfl, hp⟩, progressOf_key hp⟩
  generalize upTo evs (pre ++ [(es, k)]) = H at hserved hno
  obtain ⟨own, inv⟩ := inv_run insertHead (regs H)
  have hw : (runEv St.init H).worker = run insertHead State.init (regs H) := runEv_worker H St.init
  rw [hw] at hserved
  obtain ⟨e, he⟩ := Option.ne_none_iff_exists'.mp hacc
  have hent : ph.entry = some e := by cases ph <;> simp_all [ChanPhase.holds, ChanPhase.entry]
  have hcache := chans_on_cached_entry insertHead (regs H) (regs H) k (fun _ h => h) hno State.init
    (by intro c ph e a; cases a) (by intro c k' ph a; cases a) c ph e hserved hent
  obtain ⟨td, htd⟩ := inv.holds_cell c k ph e hserved he
  exact ⟨⟨k, .running, (runEv St.init H).rows e td.base.id⟩, by simp only [progressOf, hw, hcache, htd]⟩

/-- **C80, each task once.** The cache's iterator yields no key twice, and then a report lists no task twice. -/
theorem C80_listed_once (s : St Key) (visits : List (List (Ev Key) × Key)) (h : (visits.map Prod.snd).Nodup) :
    ((report s visits).map TaskProgress.key).Nodup := by
  have hsub : ∀ (visits : List (List (Ev Key) × Key)) (s : St Key),
      ((report s visits).map TaskProgress.key).Sublist (visits.map Prod.snd) := by
    intro visits
    induction visits with
    | nil => intro s; exact List.Sublist.slnil
    | cons v rest ih =>
      intro s
      obtain ⟨es, k⟩ := v
      simp only [report, List.map_append, List.map_cons]
      split
      · next tp hp =>
        rw [List.map_singleton, (progressOf_key hp).1]
        exact (ih _).cons_cons k
      · exact (ih _).cons k
  exact (hsub visits s).nodup h

/-- **C80, finished tasks are not listed.** After the coordinator's stream of a task ended and the worker cleaned up,
no report lists the task any more as long as nobody asks for its key again. -/
theorem C80_finished_tasks_are_not_listed (evs : List (Ev Key)) (mid post : List (Step Key Obj HeadWanted))
    (rows : List (Ev Key)) (c : Nat) (k : Key) (e : Nat)
    (hrun : (runEv St.init evs).worker.chan c = some ⟨k, .running e⟩)
    (hmid : ∀ st ∈ mid, st ≠ .crash ∧ st ≠ .invalidate c)
    (hpost : ∀ st ∈ post, ¬ Fetches k st)
    (hrows : regs rows = .eos c :: mid ++ .invalidate c :: post) :
    progressOf (runEv (runEv St.init evs) rows) k = none := by
  rw [← runEv_append, progressOf, runEv_worker, regs_append, hrows]
  rw [runEv_worker] at hrun
  have := C36_released_after_close_partial insertHead (regs evs) mid post c k e hrun hmid hpost
  rw [List.append_assoc, List.cons_append] at this
  change (match (run insertHead State.init _).cache k with | none => none | some e => _) = none
  rw [List.cons_append, this]

/-! ### The rows a report shows -/

/-- A plan as decoded by a worker: a tree of different objects, none of them made by the worker, whose
repartitionings and broadcasts have their one input. -/
structure Decoded (p : Obj) : Prop where
  distinct : p.ids.Nodup
  sent : ∀ i ∈ p.ids, i ≠ .added
  input : p.kind ≠ .other → ∃ c, p.children = [c]

theorem not_executed {td : TaskData Obj} (hd : Decoded td.base) (hk : td.base.kind ≠ .other)
    (hf : ∀ r, td.final = some r → ∃ h, r = insertHead h td.base) : executes td td.base.id = false := by
  obtain ⟨base, final, tx⟩ := td
  obtain ⟨i, kd, cs⟩ := base
  obtain ⟨c, hc⟩ := hd.input hk
  dsimp only [Obj.children] at hc
  subst hc
  have hids : Obj.ids (.node i kd [c]) = i :: c.ids := by simp [Obj.ids, Obj.idsAll]
  have hnd := hd.distinct
  have hs := hd.sent
  dsimp only at hnd hs hk hf ⊢
  rw [hids] at hnd hs
  have hni : i ∉ c.ids := (List.nodup_cons.mp hnd).1
  have hna : i ≠ .added := hs i (by simp)
  have hin : ∀ h p, insertHead h (.node i kd [c]) = .ok p → i ∉ p.ids := by
    intro h p hp
    cases kd with
    | other => exact absurd rfl hk
    | repartition =>
      cases h with
      | none => cases hp; exact hni
      | broadcast => cases hp; simp [Obj.ids, Obj.idsAll, hna, hni]
      | repartition r => cases r <;> cases hp; simp [Obj.ids, Obj.idsAll, hna, hni]
    | broadcast =>
      cases h with
      | none => cases hp; exact hni
      | broadcast => cases hp; simp [Obj.ids, Obj.idsAll, hna, hni]
      | repartition r => cases r <;> cases hp; simp [Obj.ids, Obj.idsAll, hna, hni]
  unfold executes
  have h2 : (Obj.idsAll [c]).contains i = false := by simp [Obj.idsAll, hni]
  dsimp only [Obj.id, Obj.children]
  rw [h2, Bool.or_false]
  cases final with
  | none => rfl
  | some r =>
    obtain ⟨h, rfl⟩ := hf r rfl
    cases hp : insertHead h (.node i kd [c]) with
    | error er => rfl
    | ok p => simpa using hin h p hp

/-- A root that is taken off never records a row. -/
theorem head_rows (evs : List (Ev Key))
    (hdec : ∀ c base col, .setPlan c (.ok (base, col)) ∈ regs evs → Decoded base) :
    (∀ e, ((runEv St.init evs).worker.cell e).value = none → ∀ id, (runEv St.init evs).rows e id = 0) ∧
    (∀ e td, ((runEv St.init evs).worker.cell e).value = some (.ok td) → td.base.kind ≠ .other →
      (runEv St.init evs).rows e td.base.id = 0) := by
  induction evs using List.reverseRecOn with
  | nil => exact ⟨fun _ _ _ => rfl, fun _ _ _ _ => rfl⟩
  | append_singleton pre ev ih =>
    obtain ⟨ih1, ih2⟩ := ih (fun c base col h => hdec c base col (by rw [regs_append]; simp [h]))
    have hrun : runEv St.init (pre ++ [ev]) = stepEv (runEv St.init pre) ev := by simp [runEv, List.foldl_append]
    obtain ⟨own, inv⟩ := inv_run insertHead (regs pre)
    have hw : (runEv St.init pre).worker = run insertHead State.init (regs pre) := runEv_worker pre St.init
    rw [← hw] at inv
    rw [hrun]
    cases ev with
    | reg st =>
      constructor
      · intro e he id
        refine ih1 e ?_ id
        rcases cell_step (runEv St.init pre).worker st e with h | ⟨td, td', -, h, -⟩ | ⟨er, -, h⟩
        · exact h
        · rw [show (stepEv (runEv St.init pre) (.reg st)).worker = step insertHead (runEv St.init pre).worker st from rfl, h] at he
          cases he
        · rw [show (stepEv (runEv St.init pre) (.reg st)).worker = step insertHead (runEv St.init pre).worker st from rfl, h] at he
          cases he
      · intro e td he hk
        show (runEv St.init pre).rows e td.base.id = 0
        rw [show (stepEv (runEv St.init pre) (.reg st)).worker = step insertHead (runEv St.init pre).worker st from rfl] at he
        rcases cell_step (runEv St.init pre).worker st e with h | ⟨td0, td', h0, h, hb⟩ | ⟨er, -, h⟩
        · exact ih1 e h _
        · rw [h] at he
          cases he
          rw [hb] at hk ⊢
          exact ih2 e td0 h0 hk
        · rw [h] at he; cases he
    | record e0 id0 n =>
      rw [stepEv_worker]
      simp only [stepEv]
      split
      · next td0 h0 =>
        split
        · next hex =>
          constructor
          · intro e he id
            dsimp only
            have hne : e ≠ e0 := by rintro rfl; rw [h0] at he; cases he
            rw [if_neg (fun h => hne h.1)]
            exact ih1 e he id
          · intro e td he hk
            dsimp only
            rw [if_neg]
            · exact ih2 e td he hk
            · rintro ⟨rfl, hid⟩
              rw [h0] at he
              cases he
              obtain ⟨c, k, ph, col, -, -, hset⟩ := inv.cell_set e td0 h0
              have := not_executed (hdec c td0.base col (by rw [regs_append]; simp [hset])) hk
                (fun r hr => by
                  obtain ⟨x, h, k, -, -, hh⟩ := inv.cell_final e td0 r h0 hr
                  exact ⟨h, hh⟩)
              rw [hid, hex] at this
              cases this
        · exact ⟨ih1, ih2⟩
      · exact ⟨ih1, ih2⟩

/-- **C80 does not hold for stages with a head of their own.** For a task whose plan, as it was sent, has a
repartitioning or a broadcast at its root, which is what the stages below shuffles and broadcasts look like, every
report of every history shows zero rows: the rows are read from that root, and the root is taken off before the plan
is executed. -/
theorem C80_headed_tasks_show_no_rows (evs : List (Ev Key)) (k : Key) (tp : TaskProgress Key)
    (hdec : ∀ c base col, .setPlan c (.ok (base, col)) ∈ regs evs → Decoded base)
    (hhead : ∀ c base col, .openChannel c k ∈ regs evs → .setPlan c (.ok (base, col)) ∈ regs evs →
      base.kind ≠ .other)
    (h : progressOf (runEv St.init evs) k = some tp) : tp.rows = 0 := by
  obtain ⟨own, inv⟩ := inv_run insertHead (regs evs)
  have hw : (runEv St.init evs).worker = run insertHead State.init (regs evs) := runEv_worker evs St.init
  rw [← hw] at inv
  have hz := (head_rows evs hdec).2
  unfold progressOf at h
  split at h
  · cases h
  · next e he =>
    split at h
    · next td htd =>
      cases h
      obtain ⟨c, k', ph, col, r1, r2, r3⟩ := inv.cell_set e td htd
      have hent : ph.entry = some e := by cases ph <;> simp_all [ChanPhase.holds, ChanPhase.entry]
      have hk := inv.chan_own c k' ph e r1 hent
      rw [inv.cache_own _ _ he] at hk
      cases hk
      exact hz e td htd (hhead c td.base col (inv.chan_open c _ ph r1) r3)
    · cases h

/-- **C80, rows of the other tasks (partial).** For a task whose plan has no head of its own, a report shows the rows
recorded by the root of that plan, and this root is executed: it is the root of the executed plan, or the only input
of the head that was put on. -/
theorem C80_plain_tasks_show_their_rows_partial (evs : List (Ev Key)) (k : Key) (e : Nat) (td : TaskData Obj) (p : Obj)
    (hcache : (runEv St.init evs).worker.cache k = some e)
    (hcell : ((runEv St.init evs).worker.cell e).value = some (.ok td))
    (hfinal : td.final = some (.ok p)) (hk : td.base.kind = .other) :
    progressOf (runEv St.init evs) k = some ⟨k, .running, (runEv St.init evs).rows e td.base.id⟩ ∧
    (p = td.base ∨ ∃ kd, kd ≠ .other ∧ p = .node .added kd [td.base]) ∧
    executes td td.base.id = true := by
  refine ⟨by simp only [progressOf, hcache, hcell], ?_⟩
  obtain ⟨own, inv⟩ := inv_run insertHead (regs evs)
  have hw : (runEv St.init evs).worker = run insertHead State.init (regs evs) := runEv_worker evs St.init
  rw [← hw] at inv
  obtain ⟨x, h, k', -, -, hh⟩ := inv.cell_final e td _ hcell hfinal
  obtain ⟨base, final, tx⟩ := td
  obtain ⟨i, kd, cs⟩ := base
  dsimp only [Obj.kind] at hk hh hfinal ⊢
  subst hk
  subst hfinal
  have hcases : p = .node i .other cs ∨ ∃ kd, kd ≠ .other ∧ p = .node .added kd [.node i .other cs] := by
    cases h with
    | none => cases hh; exact .inl rfl
    | broadcast => cases hh; exact .inr ⟨.broadcast, by simp, rfl⟩
    | repartition r => cases r <;> cases hh; exact .inr ⟨.repartition, by simp, rfl⟩
  refine ⟨hcases, ?_⟩
  rcases hcases with rfl | ⟨kd, -, rfl⟩
  · simp [executes, Obj.ids, Obj.id]
  · simp [executes, Obj.ids, Obj.idsAll, Obj.id]

/-! ### Rows never decrease -/

theorem rows_mono (evs : List (Ev Key)) : ∀ (s : St Key) (e : Nat) (id : Ident),
    s.rows e id ≤ (runEv s evs).rows e id := by
  induction evs with
  | nil => intro s e id; exact Nat.le_refl _
  | cons ev rest ih =>
    intro s e id
    refine Nat.le_trans ?_ (ih (stepEv s ev) e id)
    cases ev with
    | reg st => exact Nat.le_refl _
    | record e0 id0 n =>
      simp only [stepEv]
      split
      · split
        · dsimp only
          split
          · next h => rw [h.1, h.2]; omega
          · exact Nat.le_refl _
        · exact Nat.le_refl _
      · exact Nat.le_refl _

theorem base_kept (evs : List (Ev Key)) : ∀ (s : St Key) (e : Nat) (td : TaskData Obj),
    (s.worker.cell e).value = some (.ok td) →
    ∃ td', ((runEv s evs).worker.cell e).value = some (.ok td') ∧ td'.base = td.base := by
  induction evs with
  | nil => intro s e td h; exact ⟨td, h, rfl⟩
  | cons ev rest ih =>
    intro s e td h
    cases ev with
    | reg st =>
      rcases cell_step s.worker st e with h0 | ⟨td0, td', h0, h1, hb⟩ | ⟨er, h0, -⟩
      · rw [h] at h0; cases h0
      · rw [h] at h0
        cases h0
        obtain ⟨t, t1, t2⟩ := ih (stepEv s (.reg st)) e td' h1
        exact ⟨t, t1, by rw [t2, hb]⟩
      · rw [h] at h0; cases h0
    | record e0 id0 n => exact ih _ e td (by rw [stepEv_worker]; exact h)

/-- **C80, progress only grows.** As long as a task keeps its entry, a later report never shows fewer rows for it than
an earlier one. -/
theorem C80_rows_never_decrease (s : St Key) (more : List (Ev Key)) (k : Key) (tp tp' : TaskProgress Key)
    (hkeep : (runEv s more).worker.cache k = s.worker.cache k)
    (h : progressOf s k = some tp) (h' : progressOf (runEv s more) k = some tp') : tp.rows ≤ tp'.rows := by
  unfold progressOf at h h'
  rw [hkeep] at h'
  cases hc : s.worker.cache k with
  | none => rw [hc] at h; cases h
  | some e =>
    rw [hc] at h h'
    dsimp only at h h'
    split at h
    · next td htd =>
      obtain ⟨td', h1, h2⟩ := base_kept more s e td htd
      rw [h1] at h'
      dsimp only at h'
      cases h
      cases h'
      dsimp only
      rw [h2]
      exact rows_mono more s e _
    · cases h

/-- **C80, cluster workers.** The workers a worker knows about are those of its resolver, in order; if it cannot
resolve them the caller gets an error and no list. -/
theorem C80_cluster_workers {Url Text : Type} (resolve : Except Err (List Url)) (text : Url → Text) (ws : List Text) :
    clusterWorkers resolve text = .ok ws ↔ ∃ us, resolve = .ok us ∧ ws = us.map text := by
  unfold clusterWorkers
  cases resolve with
  | ok us =>
    constructor
    · intro h; cases h; exact ⟨us, rfl, rfl⟩
    · rintro ⟨us', h, rfl⟩; cases h; rfl
  | error e =>
    constructor
    · intro h; cases h
    · rintro ⟨us', h, -⟩; cases h

/-- **C80, tasks that share no node objects** (all whose plans were encoded, and one in-process task per stage): sharing changes
nothing. -/
theorem C80_not_shared (sh : Shared) (s : St Key) (k : Key) (h : ∀ e id, s.worker.cache k = some e → sh id e = [e]) :
    progressShared sh s k = progressOf s k := by
  unfold progressShared progressOf
  cases hc : s.worker.cache k with
  | none => rfl
  | some e =>
    dsimp only
    cases hv : (s.worker.cell e).value with
    | none => rfl
    | some r =>
      cases r with
      | error _ => rfl
      | ok td =>
        dsimp only
        rw [h e _ hc]
        simp

/-- **C80, tasks that share node objects.** The same tasks are listed, and each is shown with the rows of all tasks that share the root
with it, never less than its own. -/
theorem C80_shared_rows (sh : Shared) (s : St Key) (k : Key) (tp : TaskProgress Key)
    (hself : ∀ id e, e ∈ sh id e) (h : progressOf s k = some tp) :
    ∃ tp', progressShared sh s k = some tp' ∧ tp'.key = tp.key ∧ tp'.status = tp.status ∧ tp.rows ≤ tp'.rows ∧
      ∃ e id, tp.rows = s.rows e id ∧ tp'.rows = ((sh id e).map fun e' => s.rows e' id).sum := by
  unfold progressOf at h
  unfold progressShared
  cases hc : s.worker.cache k with
  | none => rw [hc] at h; cases h
  | some e =>
    rw [hc] at h
    dsimp only at h ⊢
    cases hv : (s.worker.cell e).value with
    | none => rw [hv] at h; cases h
    | some r =>
      rw [hv] at h
      cases r with
      | error _ => cases h
      | ok td =>
        cases h
        refine ⟨_, rfl, rfl, rfl, ?_, e, td.base.id, rfl, rfl⟩
        dsimp only
        have hm : s.rows e td.base.id ∈ (sh td.base.id e).map fun e' => s.rows e' td.base.id :=
          List.mem_map.2 ⟨e, hself _ _, rfl⟩
        have : ∀ (l : List Nat) (x : Nat), x ∈ l → x ≤ l.sum := by
          intro l x hx
          induction l with
          | nil => cases hx
          | cons y l ih =>
            rw [List.sum_cons]
            rcases List.mem_cons.1 hx with rfl | hx
            · omega
            · have := ih hx; omega
        exact this _ _ hm

/-- **C80, progress only grows**, with shared node objects, too. -/
theorem C80_shared_rows_never_decrease (sh : Shared) (s : St Key) (more : List (Ev Key)) (k : Key) (tp tp' : TaskProgress Key)
    (hkeep : (runEv s more).worker.cache k = s.worker.cache k)
    (h : progressShared sh s k = some tp) (h' : progressShared sh (runEv s more) k = some tp') : tp.rows ≤ tp'.rows := by
  unfold progressShared at h h'
  rw [hkeep] at h'
  cases hc : s.worker.cache k with
  | none => rw [hc] at h; cases h
  | some e =>
    rw [hc] at h h'
    dsimp only at h h'
    split at h
    · next td htd =>
      obtain ⟨td', h1, h2⟩ := base_kept more s e td htd
      rw [h1] at h'
      dsimp only at h'
      cases h
      cases h'
      dsimp only
      rw [h2]
      generalize sh td.base.id e = l
      induction l with
      | nil => exact Nat.le_refl _
      | cons x l ih =>
        rw [List.map_cons, List.map_cons, List.sum_cons, List.sum_cons]
        exact Nat.add_le_add (rows_mono more s x _) ih
    · cases h

/-! ### Concrete histories -/

namespace Demo

/-- A scan with a filter above it. -/
def filtered : Obj := .node (.sent 1) .other [.node (.sent 2) .other []]

/-- The same with the repartitioning of a shuffle at its root. -/
def shuffled : Obj := .node (.sent 0) .repartition [filtered]

/-- Task 7 gets a plan, task 9's request waits for one, and the nodes of task 7 record rows. -/
def history (p : Obj) : List (Ev Nat) :=
  [.reg (.openChannel 0 7), .reg (.openExec 5 9 .none), .reg (.setPlan 0 (.ok (p, true))),
   .reg (.openExec 1 7 (.repartition (.ok ()))), .reg (.pollExec 1 false),
   .record 0 (.sent 2) 1000, .record 0 (.sent 1) 400, .record 0 .added 400, .record 0 (.sent 0) 400]

theorem shuffled_decoded : Decoded shuffled :=
  ⟨by decide, by decide, fun _ => ⟨filtered, rfl⟩⟩

/-- The rows of the plan without a head of its own are shown, the waiting task is not listed. -/
example : report (runEv St.init (history filtered)) [([], 9), ([], 7)] = [⟨7, .running, 400⟩] := by decide

/-- The shuffle put out 400 rows and the report shows none. -/
example : report (runEv St.init (history shuffled)) [([], 9), ([], 7)] = [⟨7, .running, 0⟩] ∧
    (runEv St.init (history shuffled)).rows 0 .added = 400 := by decide

/-- The hypotheses of `C80_headed_tasks_show_no_rows` are met. -/
example : progressOf (runEv St.init (history shuffled)) 7 = some ⟨7, .running, 0⟩ ∧
    (∀ c base col, .setPlan c (.ok (base, col)) ∈ regs (history shuffled) → Decoded base) ∧
    (∀ c base col, .openChannel c 7 ∈ regs (history shuffled) →
      .setPlan c (.ok (base, col)) ∈ regs (history shuffled) → base.kind ≠ .other) := by
  refine ⟨by decide, ?_, ?_⟩
  · intro c base col h
    simp [history, regs] at h
    rw [h.2.1]
    exact shuffled_decoded
  · intro c base col _ h
    simp [history, regs] at h
    rw [h.2.1]
    decide

/-- A task that ends while a report is being made is listed or not depending on when it is visited. -/
example : report (runEv St.init (history filtered)) [([], 7), ([.reg (.eos 0), .reg (.invalidate 0)], 9)]
      = [⟨7, .running, 400⟩] ∧
    report (runEv St.init (history filtered)) [([.reg (.eos 0), .reg (.invalidate 0)], 9), ([], 7)] = [] := by decide

/-- Two tasks of a stage without a head of its own, in one process. -/
def both : List (Ev Nat) :=
  [.reg (.openChannel 0 7), .reg (.openChannel 1 8), .reg (.setPlan 0 (.ok (filtered, true))), .reg (.setPlan 1 (.ok (filtered, true))),
   .reg (.openExec 2 7 .none), .reg (.pollExec 2 false), .reg (.openExec 3 8 .none), .reg (.pollExec 3 false),
   .record 0 (.sent 1) 400, .record 1 (.sent 1) 300]

end Demo

/-- **C80 does not hold for tasks in the coordinator's process**: two tasks of a stage that were given the same plan object put out 400 and
300 rows, and each is shown with 700. -/
theorem C80_in_process_false : ∃ (sh : Shared) (evs : List (Ev Nat)), (∀ id e, e ∈ sh id e) ∧
    progressOf (runEv St.init evs) 7 = some ⟨7, .running, 400⟩ ∧ progressOf (runEv St.init evs) 8 = some ⟨8, .running, 300⟩ ∧
    progressShared sh (runEv St.init evs) 7 = some ⟨7, .running, 700⟩ ∧
    progressShared sh (runEv St.init evs) 8 = some ⟨8, .running, 700⟩ := by
  refine ⟨fun _ e => if e < 2 then [0, 1] else [e], Demo.both, ?_, by decide, by decide, by decide, by decide⟩
  intro id e
  dsimp only
  split
  · have : e = 0 ∨ e = 1 := by omega
    rcases this with rfl | rfl <;> simp
  · simp

/-- The hypotheses of `C80_shared_rows` are met, and those of `C80_not_shared` by the plan of an encoded task. -/
example : progressShared (fun _ e => [e]) (runEv St.init Demo.both) 7 = some ⟨7, .running, 400⟩ := by
  rw [C80_not_shared _ _ _ (fun _ _ _ => rfl)]; decide

end DD.Progress
