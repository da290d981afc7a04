/-
C35, C36, C06 (second half) and the worker half of C37: the worker's task registry.
-/
import Verif.Lemmas.Worker

namespace DD

/-! ### C35: written once, read the same by everyone -/

namespace Swmr

/-- Specification: the value of the first write of a history, if any. -/
def firstWritten {T : Type} : List (Step T) → Option T
  | [] => none
  | .write x :: _ => some x
  | .read _ :: rest => firstWritten rest

theorem after_new {T : Type} (pre : List (Step T)) :
    (Cell.new.after pre : Cell T).value = firstWritten pre := by
  suffices H : ∀ (pre : List (Step T)) (c : Cell T),
      (c.after pre).value = (match c.value with | some v => some v | none => firstWritten pre) by
    rw [H]; rfl
  intro pre
  induction pre with
  | nil => intro c; cases h : c.value <;> simp [Cell.after, firstWritten, h]
  | cons st rest ih =>
    intro c
    cases st with
    | write x =>
      simp only [Cell.after, ih]
      cases h : c.value <;> simp [Cell.write, h, firstWritten]
    | read e =>
      simp only [Cell.after, ih, firstWritten]

/-- **C35.** After any history of writes and reads by any number of users: a write succeeds exactly if
it is the first one; a read returns the first written value as soon as there is one, even if its
deadline has passed, and otherwise waits until the deadline and then fails. -/
theorem C35_single_write_multi_read {T : Type} (pre : List (Step T)) :
    (∀ x, ((Cell.new.after pre : Cell T).write x).2 =
      if firstWritten pre = none then .ok () else .error .alreadyWritten) ∧
    (∀ expired, (Cell.new.after pre : Cell T).pollRead expired =
      match firstWritten pre with
      | some v => .ready (.ok v)
      | none => if expired then .ready (.error .timeout) else .pending) := by
  have h := after_new pre
  refine ⟨?_, ?_⟩
  · intro x
    unfold Cell.write
    rw [h]
    cases firstWritten pre <;> simp
  · intro expired
    unfold Cell.pollRead
    rw [h]
    cases firstWritten pre <;> rfl

/-- All reads that ever return a value return the same one, whatever is written before, between and
after them. -/
theorem C35_reads_agree {T : Type} (pre mid : List (Step T)) (e₁ e₂ : Bool) (v₁ v₂ : T)
    (h₁ : (Cell.new.after pre).pollRead e₁ = .ready (.ok v₁))
    (h₂ : (Cell.new.after (pre ++ mid)).pollRead e₂ = .ready (.ok v₂)) : v₁ = v₂ := by
  have key : ∀ (pre : List (Step T)) e v, (Cell.new.after pre).pollRead e = .ready (.ok v) →
      firstWritten pre = some v := by
    intro pre e v h
    rw [(C35_single_write_multi_read pre).2] at h
    cases hf : firstWritten pre with
    | some w => rw [hf] at h; simp only [ReadPoll.ready.injEq, Except.ok.injEq] at h; rw [h]
    | none => rw [hf] at h; cases e <;> simp at h
  have k₁ := key _ _ _ h₁
  have k₂ := key _ _ _ h₂
  have mono : ∀ (pre : List (Step T)) v, firstWritten pre = some v →
      firstWritten (pre ++ mid) = some v := by
    intro pre
    induction pre with
    | nil => intro v h; cases h
    | cons st rest ih =>
      intro v h
      cases st with
      | write x => exact h
      | read e => exact ih v h
  rw [mono pre v₁ k₁] at k₂
  exact Option.some.inj k₂

example : ((Cell.new.after [.read false, .write 42, .write 7] : Cell Nat).pollRead true)
    = .ready (.ok 42) := rfl

example : ((Cell.new.after [.write 42, .read true] : Cell Nat).write 7).2
    = .error .alreadyWritten := rfl

end Swmr

/-! ### C36, C37, C06: the task registry -/

namespace Worker

open Swmr

variable {Key Plan Head : Type} [DecidableEq Key]

/-- **C06, second half.** The first request for a task installs its producer head; every later
request, whatever head it carries, gets the plan (or the error) the first one produced. -/
theorem C06_first_request_fixes_plan (insert : Head → Plan → Except Err Plan) (base : Plan)
    (tx : Option Nat) (h : Head) (later : List Head) :
    ∀ h' : Head,
      ((later.foldl (fun td hd => (td.plan insert hd).1)
        ((TaskData.mk base none tx).plan insert h).1).plan insert h').2 = insert h base := by
  intro h'
  have key : ∀ (later : List Head) (td : TaskData Plan), td.final = some (insert h base) →
      (later.foldl (fun td hd => (td.plan insert hd).1) td).final = some (insert h base) := by
    intro later
    induction later with
    | nil => intro td ht; exact ht
    | cons a rest ih =>
      intro td ht
      rw [List.foldl_cons]
      apply ih
      unfold TaskData.plan
      rw [ht]
      exact ht
  have := key later ((TaskData.mk base none tx).plan insert h).1 rfl
  rw [TaskData.plan, this]

/-- **C36, what a request executes.** Every execute request that succeeds runs a plan built from one
that a coordinator channel set for the *same* task key, with the producer head of an execute request
for that key. Holds for every history, including evictions and crashes. -/
theorem C36_requests_run_a_plan_set_for_their_key (insert : Head → Plan → Except Err Plan)
    (steps : List (Step Key Plan Head)) (x : Nat) (k : Key) (h : Head) (p : Plan)
    (hx : (run insert State.init steps).exec x = some ⟨k, h, .done (.ok p)⟩) :
    ∃ c base collect x₀ h₀, .openChannel c k ∈ steps ∧ .setPlan c (.ok (base, collect)) ∈ steps ∧
      .openExec x₀ k h₀ ∈ steps ∧ insert h₀ base = .ok p := by
  obtain ⟨own, inv⟩ := inv_run insert steps
  obtain ⟨e, td, q1, q2, q3⟩ := inv.exec_done x k h p hx
  obtain ⟨c, k', ph, col, r1, r2, r3⟩ := inv.cell_set e td q2
  obtain ⟨x₀, h₀, k'', s1, s2, s3⟩ := inv.cell_final e td _ q2 q3
  have hent : ph.entry = some e := by cases ph <;> simp_all [ChanPhase.holds, ChanPhase.entry]
  have hk := inv.chan_own c k' ph e r1 hent
  rw [q1] at hk s1
  cases hk; cases s1
  exact ⟨c, td.base, col, x₀, h₀, inv.chan_open c k ph r1, r3, s2, s3.symm⟩

/-- **C36/C06, all requests of a task agree.** If the coordinator opens one channel for a task key,
which is what it does, since keys carry the query id, all execute requests for that key that succeed
execute the same plan, whatever the order of arrival and whichever producer heads they carry. -/
theorem C36_requests_agree (insert : Head → Plan → Except Err Plan)
    (steps : List (Step Key Plan Head)) (k : Key)
    (hone : ∀ c c', .openChannel c k ∈ steps → .openChannel c' k ∈ steps → c = c')
    (x₁ x₂ : Nat) (h₁ h₂ : Head) (p₁ p₂ : Plan)
    (e₁ : (run insert State.init steps).exec x₁ = some ⟨k, h₁, .done (.ok p₁)⟩)
    (e₂ : (run insert State.init steps).exec x₂ = some ⟨k, h₂, .done (.ok p₂)⟩) : p₁ = p₂ := by
  obtain ⟨own, inv⟩ := inv_run insert steps
  obtain ⟨a, ta, a1, a2, a3⟩ := inv.exec_done x₁ k h₁ p₁ e₁
  obtain ⟨b, tb, b1, b2, b3⟩ := inv.exec_done x₂ k h₂ p₂ e₂
  have key : ∀ e td, own e = some k → ((run insert State.init steps).cell e).value = some (.ok td) →
      ∃ c ph, .openChannel c k ∈ steps ∧
        (run insert State.init steps).chan c = some ⟨k, ph⟩ ∧ ph.holds = some e := by
    intro e td ho hv
    obtain ⟨c, k', ph, col, r1, r2, r3⟩ := inv.cell_set e td hv
    have hent : ph.entry = some e := by cases ph <;> simp_all [ChanPhase.holds, ChanPhase.entry]
    have hk := inv.chan_own c k' ph e r1 hent
    rw [ho] at hk
    cases hk
    exact ⟨c, ph, inv.chan_open c k ph r1, r1, r2⟩
  obtain ⟨ca, pa, oa, ha, ea⟩ := key a ta a1 a2
  obtain ⟨cb, pb, ob, hb, eb⟩ := key b tb b1 b2
  have := hone ca cb oa ob
  subst this
  rw [ha] at hb
  simp only [Option.some.injEq, Chan.mk.injEq, true_and] at hb
  subst hb
  rw [ea] at eb
  cases eb
  rw [a2] at b2
  cases b2
  rw [a3] at b3
  simpa using b3

/-- Steps that drop the entry of key `k` (given which channels belong to `k`). -/
def Removes (steps : List (Step Key Plan Head)) (k : Key) : Step Key Plan Head → Prop
  | .evict k' => k' = k
  | .crash => True
  | .invalidate c => .openChannel c k ∈ steps
  | _ => False

theorem chans_on_cached_entry (insert : Head → Plan → Except Err Plan)
    (all steps : List (Step Key Plan Head)) (k : Key)
    (hsub : ∀ st ∈ steps, st ∈ all) (hno : ∀ st ∈ steps, ¬ Removes all k st)
    (s : State Key Plan Head)
    (hs : ∀ c ph e, s.chan c = some ⟨k, ph⟩ → ph.entry = some e → s.cache k = some e)
    (hopen : ∀ c k' ph, s.chan c = some ⟨k', ph⟩ → .openChannel c k' ∈ all) :
    ∀ c ph e, (run insert s steps).chan c = some ⟨k, ph⟩ → ph.entry = some e →
      (run insert s steps).cache k = some e := by
  induction steps generalizing s with
  | nil => exact hs
  | cons st rest ih =>
    have hst := hno st (by simp)
    have hin := hsub st (by simp)
    refine ih (fun a ha => hsub a (by simp [ha])) (fun a ha => hno a (by simp [ha]))
      (step insert s st) ?_ ?_
    · -- the entry property is preserved
      have hg : ∀ k', (getWith s k').1.chan = s.chan ∧
          (∀ e, s.cache k = some e → (getWith s k').1.cache k = some e) := by
        intro k'
        obtain ⟨g1, g2, -, g4, -, -, g7⟩ := getWith_spec s k'
        refine ⟨g4, ?_⟩
        intro e he
        by_cases hk : k = k'
        · subst hk
          rcases g7 with ⟨g7, -⟩ | ⟨g7, -⟩
          · rw [g1, ← g7]; exact he
          · rw [g7] at he; cases he
        · rw [g2 k hk]; exact he
      cases st with
      | openChannel c k' =>
        simp only [step]
        split
        · exact hs
        · intro c' ph e a b
          simp only at a ⊢
          by_cases hcc : c' = c
          · subst hcc
            simp only [upd_same, Option.some.injEq, Chan.mk.injEq] at a
            obtain ⟨rfl, rfl⟩ := a
            simp only [ChanPhase.entry, Option.some.injEq] at b
            subst b
            exact (getWith_spec s k').1
          · rw [upd_ne hcc, (hg k').1] at a
            exact (hg k').2 e (hs c' ph e a b)
      | setPlan c r =>
        simp only [step]
        split
        · next k' e0 hc =>
          have aux : ∀ (ph0 : ChanPhase), (∀ e, ph0.entry = some e → e = e0) → ∀ c' ph e,
              upd s.chan c (some ⟨k', ph0⟩) c' = some ⟨k, ph⟩ → ph.entry = some e →
              s.cache k = some e := by
            intro ph0 hph c' ph e a b
            by_cases hcc : c' = c
            · subst hcc
              simp only [upd_same, Option.some.injEq, Chan.mk.injEq] at a
              obtain ⟨rfl, rfl⟩ := a
              have := hph e b
              subst this
              exact hs c' _ e hc rfl
            · rw [upd_ne hcc] at a
              exact hs c' ph e a b
          split
          · exact aux _ (by intro e q; cases q)
          · cases r with
            | ok v => exact aux _ (by intro e q; simpa [ChanPhase.entry] using q.symm)
            | error er => exact aux _ (by intro e q; cases q)
        · exact hs
      | eos c =>
        simp only [step]
        split
        · next k' e0 hc =>
          split
          · intro c' ph e a b
            simp only at a ⊢
            by_cases hcc : c' = c
            · subst hcc
              simp only [upd_same, Option.some.injEq, Chan.mk.injEq] at a
              obtain ⟨rfl, rfl⟩ := a
              simp only [ChanPhase.entry, Option.some.injEq] at b
              subst b
              exact hs c' _ e0 hc rfl
            · rw [upd_ne hcc] at a
              exact hs c' ph e a b
          · exact hs
        · exact hs
      | invalidate c =>
        simp only [step]
        split
        · next k' e0 hc =>
          have hne : k' ≠ k := by
            rintro rfl
            exact hst (hopen c k' _ hc)
          intro c' ph e a b
          simp only at a ⊢
          rw [upd_ne (Ne.symm hne)]
          by_cases hcc : c' = c
          · subst hcc
            simp only [upd_same, Option.some.injEq, Chan.mk.injEq] at a
            exact absurd a.1 hne
          · rw [upd_ne hcc] at a
            exact hs c' ph e a b
        · exact hs
      | openExec x k' hd =>
        simp only [step]
        split
        · exact hs
        · intro c' ph e a b
          simp only at a ⊢
          rw [(hg k').1] at a
          exact (hg k').2 e (hs c' ph e a b)
      | pollExec x expired =>
        simp only [step]
        split
        · split <;> exact hs
        · exact hs
      | evict k' =>
        have hne : k ≠ k' := fun h => hst h.symm
        intro c' ph e a b
        simp only [step] at a ⊢
        rw [upd_ne hne]
        exact hs c' ph e a b
      | crash => exact absurd trivial hst
    · -- channels are opened by their open step
      intro c' k' ph a
      cases st with
      | openChannel c k0 =>
        simp only [step] at a
        split at a
        · exact hopen _ _ _ a
        · simp only at a
          by_cases hcc : c' = c
          · subst hcc
            simp only [upd_same, Option.some.injEq, Chan.mk.injEq] at a
            obtain ⟨rfl, rfl⟩ := a
            exact hin
          · rw [upd_ne hcc, (getWith_spec s k0).2.2.2.1] at a
            exact hopen _ _ _ a
      | setPlan c r =>
        simp only [step] at a
        split at a
        · next k0 e0 hc =>
          split at a <;> (
            simp only at a
            by_cases hcc : c' = c
            · subst hcc
              simp only [upd_same, Option.some.injEq, Chan.mk.injEq] at a
              obtain ⟨rfl, -⟩ := a
              exact hopen _ _ _ hc
            · rw [upd_ne hcc] at a
              exact hopen _ _ _ a)
        · exact hopen _ _ _ a
      | eos c =>
        simp only [step] at a
        split at a
        · next k0 e0 hc =>
          split at a
          · simp only at a
            by_cases hcc : c' = c
            · subst hcc
              simp only [upd_same, Option.some.injEq, Chan.mk.injEq] at a
              obtain ⟨rfl, -⟩ := a
              exact hopen _ _ _ hc
            · rw [upd_ne hcc] at a
              exact hopen _ _ _ a
          · exact hopen _ _ _ a
        · exact hopen _ _ _ a
      | invalidate c =>
        simp only [step] at a
        split at a
        · next k0 e0 hc =>
          simp only at a
          by_cases hcc : c' = c
          · subst hcc
            simp only [upd_same, Option.some.injEq, Chan.mk.injEq] at a
            obtain ⟨rfl, -⟩ := a
            exact hopen _ _ _ hc
          · rw [upd_ne hcc] at a
            exact hopen _ _ _ a
        · exact hopen _ _ _ a
      | openExec x k0 hd =>
        simp only [step] at a
        split at a
        · exact hopen _ _ _ a
        · simp only at a
          rw [(getWith_spec s k0).2.2.2.1] at a
          exact hopen _ _ _ a
      | pollExec x expired =>
        simp only [step] at a
        split at a
        · split at a <;> exact hopen _ _ _ a
        · exact hopen _ _ _ a
      | evict k0 => exact hopen _ _ _ a
      | crash => exact absurd trivial hst

/-- **C36, set at most once per lifetime.** As long as the entry of a key is not dropped (eviction,
crash, or the end of a channel for that key), at most one channel for that key gets its plan
accepted, however many try and however they interleave. -/
theorem C36_plan_set_once_per_lifetime (insert : Head → Plan → Except Err Plan)
    (steps : List (Step Key Plan Head)) (k : Key) (hno : ∀ st ∈ steps, ¬ Removes steps k st)
    (c₁ c₂ : Nat) (ph₁ ph₂ : ChanPhase)
    (h₁ : (run insert State.init steps).chan c₁ = some ⟨k, ph₁⟩) (a₁ : ph₁.holds ≠ none)
    (h₂ : (run insert State.init steps).chan c₂ = some ⟨k, ph₂⟩) (a₂ : ph₂.holds ≠ none) :
    c₁ = c₂ := by
  obtain ⟨own, inv⟩ := inv_run insert steps
  have hc := chans_on_cached_entry insert steps steps k (fun _ h => h) hno State.init
    (by intro c ph e a; cases a) (by intro c k' ph a; cases a)
  obtain ⟨e₁, r₁⟩ := Option.ne_none_iff_exists'.mp a₁
  obtain ⟨e₂, r₂⟩ := Option.ne_none_iff_exists'.mp a₂
  have ent : ∀ ph e, ChanPhase.holds ph = some e → ph.entry = some e := by
    intro ph e h; cases ph <;> simp_all [ChanPhase.holds, ChanPhase.entry]
  have q₁ := hc c₁ ph₁ e₁ h₁ (ent _ _ r₁)
  have q₂ := hc c₂ ph₂ e₂ h₂ (ent _ _ r₂)
  rw [q₁] at q₂
  cases q₂
  exact inv.holder_unique c₁ c₂ k k ph₁ ph₂ e₁ h₁ h₂ r₁ r₂

/-- A step that fetches (and possibly creates) the entry of `k`. -/
def Fetches (k : Key) : Step Key Plan Head → Prop
  | .openChannel _ k' => k' = k
  | .openExec _ k' _ => k' = k
  | _ => False

theorem stays_removed (insert : Head → Plan → Except Err Plan) (k : Key)
    (steps : List (Step Key Plan Head)) (hno : ∀ st ∈ steps, ¬ Fetches k st)
    (s : State Key Plan Head) (hs : s.cache k = none) : (run insert s steps).cache k = none := by
  induction steps generalizing s with
  | nil => exact hs
  | cons st rest ih =>
    refine ih (fun a ha => hno a (by simp [ha])) _ ?_
    have hst := hno st (by simp)
    have hg : ∀ k', k' ≠ k → (getWith s k').1.cache k = none := by
      intro k' hk
      rw [(getWith_spec s k').2.1 k (Ne.symm hk)]; exact hs
    cases st with
    | openChannel c k' =>
      simp only [step]
      split
      · exact hs
      · exact hg k' hst
    | openExec c k' hd =>
      simp only [step]
      split
      · exact hs
      · exact hg k' hst
    | setPlan c r =>
      simp only [step]
      split
      · split <;> exact hs
      · exact hs
    | eos c =>
      simp only [step]
      split
      · split <;> exact hs
      · exact hs
    | invalidate c =>
      simp only [step]
      split
      · next k0 e0 hc =>
        simp only
        by_cases hk : k = k0
        · subst hk; exact upd_same _ _ _
        · rw [upd_ne hk]; exact hs
      · exact hs
    | pollExec x expired =>
      simp only [step]
      split
      · split <;> exact hs
      · exact hs
    | evict k' =>
      simp only [step]
      by_cases hk : k = k'
      · subst hk; exact upd_same _ _ _
      · rw [upd_ne hk]; exact hs
    | crash => rfl

theorem ended_persists (insert : Head → Plan → Except Err Plan) (c : Nat) (k : Key) (e : Nat)
    (mid : List (Step Key Plan Head)) (hmid : ∀ st ∈ mid, st ≠ .crash ∧ st ≠ .invalidate c)
    (s : State Key Plan Head) (hs : s.chan c = some ⟨k, .ended e⟩) :
    (run insert s mid).chan c = some ⟨k, .ended e⟩ := by
  induction mid generalizing s with
  | nil => exact hs
  | cons st rest ih =>
    refine ih (fun a ha => hmid a (by simp [ha])) _ ?_
    obtain ⟨hcr, hinv⟩ := hmid st (by simp)
    have aux : ∀ c' (ch : Chan Key) (v : Chan Key), s.chan c' = some ch → ch.phase ≠ .ended e →
        upd s.chan c' (some v) c = some ⟨k, .ended e⟩ := by
      intro c' ch v hc' hne
      rw [upd_ne]; exact hs
      rintro rfl
      rw [hs] at hc'
      cases hc'
      exact hne rfl
    cases st with
    | openChannel c' k' =>
      simp only [step]
      split
      · exact hs
      · next hn =>
        simp only
        rw [upd_ne, (getWith_spec s k').2.2.2.1]
        · exact hs
        · rintro rfl; rw [hs] at hn; cases hn
    | openExec x k' hd =>
      simp only [step]
      split
      · exact hs
      · simp only; rw [(getWith_spec s k').2.2.2.1]; exact hs
    | setPlan c' r =>
      simp only [step]
      split
      · next hc' => split <;> exact aux c' _ _ hc' (by simp)
      · exact hs
    | eos c' =>
      simp only [step]
      split
      · next hc' =>
        split
        · exact aux c' _ _ hc' (by simp)
        · exact hs
      · exact hs
    | invalidate c' =>
      simp only [step]
      split
      · next hc' =>
        simp only
        rw [upd_ne]; exact hs
        rintro rfl; exact hinv rfl
      · exact hs
    | pollExec x expired =>
      simp only [step]
      split
      · split <;> exact hs
      · exact hs
    | evict k' => exact hs
    | crash => exact absurd rfl hcr

/-- **C36, release (partial).** Take any reachable state in which a task's channel is being served. Once
the coordinator's stream ends and the channel's cleanup has run, the worker holds no entry for the key,
and it stays that way for as long as nobody asks for the key again.
Missing for the full claim: a request that arrives after the cleanup re-creates an entry
(`C36_late_request_leaks`), and a plan that fails to decode leaves its entry behind
(`C36_failed_plan_leaks`); these entries only go away after ten idle minutes. -/
theorem C36_released_after_close_partial (insert : Head → Plan → Except Err Plan)
    (pre mid post : List (Step Key Plan Head)) (c : Nat) (k : Key) (e : Nat)
    (hrun : (run insert State.init pre).chan c = some ⟨k, .running e⟩)
    (hmid : ∀ st ∈ mid, st ≠ .crash ∧ st ≠ .invalidate c)
    (hpost : ∀ st ∈ post, ¬ Fetches k st) :
    (run insert State.init (pre ++ .eos c :: mid ++ .invalidate c :: post)).cache k = none := by
  obtain ⟨own, inv⟩ := inv_run insert pre
  obtain ⟨td, htd⟩ := inv.holds_cell c k _ e hrun rfl
  rw [run, List.foldl_append, List.foldl_append]
  apply stays_removed insert k post hpost
  have h1 : (step insert (run insert State.init pre) (.eos c)).chan c = some ⟨k, .ended e⟩ := by
    simp only [step, hrun, htd]
    exact upd_same _ _ _
  have h2 := ended_persists insert c k e mid hmid _ h1
  show (step insert (run insert (step insert (run insert State.init pre) (.eos c)) mid)
    (.invalidate c)).cache k = none
  generalize run insert (step insert (run insert State.init pre) (.eos c)) mid = s1 at h2
  simp only [step, h2]
  exact upd_same _ _ _

/-- A late execute request re-creates the entry of a finished task: everything about the task is over
(its channel closed, all requests answered) and the worker still holds an entry for it. -/
theorem C36_late_request_leaks : ∃ steps : List (Step Nat Nat Nat),
    let s := run (fun h p => .ok (h + p)) State.init steps
    (∃ e, s.chan 0 = some ⟨7, .closed e⟩) ∧
    s.exec 1 = some ⟨7, 1, .done (.error (.exec "plan timeout"))⟩ ∧ s.cache 7 ≠ none :=
  ⟨[.openChannel 0 7, .setPlan 0 (.ok (5, true)), .openExec 0 7 1, .pollExec 0 false, .eos 0,
    .invalidate 0, .openExec 1 7 1, .pollExec 1 true],
    ⟨0, rfl⟩, rfl, by decide⟩

/-- A plan that cannot be decoded is reported to the coordinator and the channel is over, but its entry
is never invalidated. -/
theorem C36_failed_plan_leaks : ∃ steps : List (Step Nat Nat Nat),
    let s := run (fun h p => .ok (h + p)) State.init steps
    s.chan 0 = some ⟨7, .failed (.user 3)⟩ ∧ s.cache 7 ≠ none ∧
    ∀ st ∈ [Step.eos 0, Step.invalidate 0], (step (fun h p => .ok (h + p)) s st).cache 7 ≠ none :=
  ⟨[.openChannel 0 7, .setPlan 0 (.error (.user 3))], rfl, by decide, by
    intro st hst
    simp only [List.mem_cons, List.not_mem_nil, or_false] at hst
    rcases hst with rfl | rfl <;> decide⟩

/-- **C37, at most once and only after close.** In every history a channel sends at most one metrics
message, and only after the coordinator's stream for it ended. -/
theorem C37_metrics_at_most_once (insert : Head → Plan → Except Err Plan)
    (steps : List (Step Key Plan Head)) (c : Nat) :
    ((run insert State.init steps).metrics c).length ≤ 1 ∧
    ((run insert State.init steps).metrics c ≠ [] → .eos c ∈ steps) := by
  obtain ⟨own, inv⟩ := inv_run insert steps
  by_cases h : (run insert State.init steps).metrics c = []
  · simp [h]
  · obtain ⟨q1, p, q2⟩ := inv.metrics_eos c h
    exact ⟨by simp [q2], fun _ => q1⟩

/-- **C37, an executed task reports.** If a task with metrics enabled was executed by at least one
request, the end of its channel sends its metrics, for the plan that was executed. -/
theorem C37_executed_task_reports (insert : Head → Plan → Except Err Plan)
    (steps : List (Step Key Plan Head)) (k : Key)
    (hone : ∀ c c', .openChannel c k ∈ steps → .openChannel c' k ∈ steps → c = c')
    (c e : Nat) (hrun : (run insert State.init steps).chan c = some ⟨k, .running e⟩)
    (hcollect : ∀ base collect, .setPlan c (.ok (base, collect)) ∈ steps → collect = true)
    (x : Nat) (h : Head) (p : Plan)
    (hx : (run insert State.init steps).exec x = some ⟨k, h, .done (.ok p)⟩) :
    (run insert State.init (steps ++ [.eos c])).metrics c = [p] := by
  obtain ⟨own, inv⟩ := inv_run insert steps
  obtain ⟨e', td, q1, q2, q3⟩ := inv.exec_done x k h p hx
  have hown := inv.chan_own c k _ e hrun rfl
  obtain ⟨c', k', ph, col, r1, r2, r3⟩ := inv.cell_set e' td q2
  have hent : ph.entry = some e' := by cases ph <;> simp_all [ChanPhase.holds, ChanPhase.entry]
  have hk := inv.chan_own c' k' ph e' r1 hent
  rw [q1] at hk
  cases hk
  have hcc := hone c' c (inv.chan_open _ _ _ r1) (inv.chan_open _ _ _ hrun)
  subst hcc
  rw [hrun] at r1
  simp only [Option.some.injEq, Chan.mk.injEq, true_and] at r1
  subst r1
  simp only [ChanPhase.holds, Option.some.injEq] at r2
  subst r2
  have htx : td.metricsTx = some c' := by
    rcases inv.running_tx c' k e td hrun q2 with h1 | ⟨base, h1⟩
    · exact h1
    · have := hcollect base false h1
      cases this
  obtain ⟨m0, -⟩ := inv.tx_holder e td c' q2 htx
  rw [run, List.foldl_append]
  show (step insert (run insert State.init steps) (.eos c')).metrics c' = [p]
  simp only [step, hrun, q2]
  show sendMetrics td (run insert State.init steps).metrics c' = [p]
  simp only [sendMetrics, htx, q3, upd_same, m0, List.nil_append]

/-- **C37, a task nobody executed never reports.** If no execute request ever arrives for a task (for
example because a `LIMIT` was satisfied by other tasks), its channel sends no metrics message, ever; a
caller waiting for the metrics of every task waits forever. -/
theorem C37_unexecuted_task_never_reports (insert : Head → Plan → Except Err Plan)
    (steps : List (Step Key Plan Head)) (c : Nat) (k : Key)
    (hk : ∀ k', .openChannel c k' ∈ steps → k' = k)
    (hno : ∀ x h, .openExec x k h ∉ steps) :
    (run insert State.init steps).metrics c = [] := by
  by_contra hne
  obtain ⟨own, inv⟩ := inv_run insert steps
  have hh := inv.metrics_holder c hne
  cases hs : (run insert State.init steps).chan c with
  | none => rw [hs] at hh; exact hh rfl
  | some ch =>
    obtain ⟨k', ph⟩ := ch
    obtain ⟨x, h, q⟩ := inv.metrics_exec c hne k' ph hs
    have := hk k' (inv.chan_open c k' ph hs)
    subst this
    exact hno x h q

/-- Non-vacuity for C36 and C37: two requests of the same task with different heads, one arriving before
the plan, both served with the plan the first one fixed; the channel closes, reports once, and the entry
is gone. -/
example : let s := run (fun h p => .ok (h + p)) (State.init : State Nat Nat Nat) (
      [.openExec 0 7 1, .openChannel 0 7, .pollExec 0 false, .openExec 1 7 2,
       .setPlan 0 (.ok (5, true)), .pollExec 1 true, .pollExec 0 false, .eos 0, .eos 0, .invalidate 0])
    s.exec 0 = some ⟨7, 1, .done (.ok 7)⟩ ∧ s.exec 1 = some ⟨7, 2, .done (.ok 7)⟩ ∧
    s.metrics 0 = [7] ∧ s.cache 7 = none := ⟨rfl, rfl, rfl, rfl⟩

/-- Two channels race for the same key: exactly one is accepted. -/
example : let s := run (fun h p => .ok (h + p)) (State.init : State Nat Nat Nat) (
      [.openChannel 0 7, .openChannel 1 7, .setPlan 1 (.ok (5, true)), .setPlan 0 (.ok (6, true))])
    s.chan 0 = some ⟨7, .failed (.exec "already written")⟩ ∧ s.chan 1 = some ⟨7, .running 0⟩ :=
  ⟨rfl, rfl⟩

end Worker
end DD
