/-
Invariant of the worker's task registry (`Model/Worker.lean`).
-/
import Verif.Model.Worker
import Mathlib.Tactic.ByContra

namespace DD.Worker

open Swmr

variable {Key Plan Head : Type} [DecidableEq Key]

/-- The entry a channel refers to. -/
def ChanPhase.entry : ChanPhase → Option Nat
  | .gotEntry e | .running e | .ended e | .closed e | .lost e => some e
  | .failed _ => none

/-- The entry whose plan a channel wrote. -/
def ChanPhase.holds : ChanPhase → Option Nat
  | .running e | .ended e | .closed e | .lost e => some e
  | .gotEntry _ | .failed _ => none

theorem upd_same {A B : Type} [DecidableEq A] (f : A → B) (a : A) (b : B) : upd f a b a = b := by
  simp [upd]

theorem upd_ne {A B : Type} [DecidableEq A] {f : A → B} {a x : A} {b : B} (h : x ≠ a) :
    upd f a b x = f x := by
  simp [upd, h]

structure Inv (insert : Head → Plan → Except Err Plan) (steps : List (Step Key Plan Head))
    (s : State Key Plan Head) (own : Nat → Option Key) : Prop where
  cache_own : ∀ k e, s.cache k = some e → own e = some k
  own_lt : ∀ e k, own e = some k → e < s.next
  chan_own : ∀ c k ph e, s.chan c = some ⟨k, ph⟩ → ph.entry = some e → own e = some k
  exec_own : ∀ x k h e, s.exec x = some ⟨k, h, .waiting e⟩ → own e = some k
  chan_open : ∀ c k ph, s.chan c = some ⟨k, ph⟩ → .openChannel c k ∈ steps
  exec_open : ∀ x k h ph, s.exec x = some ⟨k, h, ph⟩ → .openExec x k h ∈ steps
  cell_set : ∀ e td, (s.cell e).value = some (.ok td) →
    ∃ c k ph col, s.chan c = some ⟨k, ph⟩ ∧ ph.holds = some e ∧
      .setPlan c (.ok (td.base, col)) ∈ steps
  cell_final : ∀ e td r, (s.cell e).value = some (.ok td) → td.final = some r →
    ∃ x h k, own e = some k ∧ .openExec x k h ∈ steps ∧ r = insert h td.base
  exec_done : ∀ x k h p, s.exec x = some ⟨k, h, .done (.ok p)⟩ →
    ∃ e td, own e = some k ∧ (s.cell e).value = some (.ok td) ∧ td.final = some (.ok p)
  holds_cell : ∀ c k ph e, s.chan c = some ⟨k, ph⟩ → ph.holds = some e →
    ∃ td, (s.cell e).value = some (.ok td)
  holder_unique : ∀ c c' k k' ph ph' e, s.chan c = some ⟨k, ph⟩ → s.chan c' = some ⟨k', ph'⟩ →
    ph.holds = some e → ph'.holds = some e → c = c'
  tx_holder : ∀ e td c, (s.cell e).value = some (.ok td) → td.metricsTx = some c →
    s.metrics c = [] ∧ ∃ k ph, s.chan c = some ⟨k, ph⟩ ∧ ph.holds = some e
  metrics_eos : ∀ c, s.metrics c ≠ [] → .eos c ∈ steps ∧ ∃ p, s.metrics c = [p]
  metrics_holder : ∀ c, s.metrics c ≠ [] → ((s.chan c).bind (·.phase.holds)) ≠ none
  running_tx : ∀ c k e td, s.chan c = some ⟨k, .running e⟩ → (s.cell e).value = some (.ok td) →
    td.metricsTx = some c ∨ ∃ base, .setPlan c (.ok (base, false)) ∈ steps
  metrics_exec : ∀ c, s.metrics c ≠ [] → ∀ k ph, s.chan c = some ⟨k, ph⟩ →
    ∃ x h, .openExec x k h ∈ steps

theorem getWith_spec (s : State Key Plan Head) (k : Key) :
    (getWith s k).1.cache k = some (getWith s k).2 ∧
    (∀ k', k' ≠ k → (getWith s k).1.cache k' = s.cache k') ∧
    (getWith s k).1.cell = s.cell ∧ (getWith s k).1.chan = s.chan ∧
    (getWith s k).1.exec = s.exec ∧ (getWith s k).1.metrics = s.metrics ∧
    ((s.cache k = some (getWith s k).2 ∧ (getWith s k).1.next = s.next) ∨
     (s.cache k = none ∧ (getWith s k).2 = s.next ∧ (getWith s k).1.next = s.next + 1)) := by
  unfold getWith
  split
  · next e he => simp [he]
  · next he =>
    refine ⟨upd_same _ _ _, ?_, rfl, rfl, rfl, rfl, Or.inr ⟨he, rfl, rfl⟩⟩
    intro k' hk'
    exact upd_ne hk'

theorem Inv.getWith {insert : Head → Plan → Except Err Plan} {steps : List (Step Key Plan Head)}
    {s : State Key Plan Head} {own : Nat → Option Key} (h : Inv insert steps s own) (k : Key) :
    ∃ own', Inv insert steps (getWith s k).1 own' ∧ own' (DD.Worker.getWith s k).2 = some k := by
  obtain ⟨g1, g2, g3, g4, g5, g6, g7⟩ := getWith_spec s k
  rcases g7 with ⟨g7, g8⟩ | ⟨g7, g8, g9⟩
  · refine ⟨own, ⟨?_, ?_, ?_, ?_, ?_, ?_, ?_, ?_, ?_, ?_, ?_, ?_, ?_, ?_, ?_, ?_⟩, h.cache_own _ _ g7⟩
    · intro k' e he
      by_cases hk : k' = k
      · subst hk; rw [g1] at he; cases he; exact h.cache_own _ _ g7
      · rw [g2 _ hk] at he; exact h.cache_own _ _ he
    · rw [g8]; exact h.own_lt
    · rw [g4]; exact h.chan_own
    · rw [g5]; exact h.exec_own
    · rw [g4]; exact h.chan_open
    · rw [g5]; exact h.exec_open
    · rw [g3, g4]; exact h.cell_set
    · rw [g3]; exact h.cell_final
    · rw [g3, g5]; exact h.exec_done
    · rw [g3, g4]; exact h.holds_cell
    · rw [g4]; exact h.holder_unique
    · rw [g3, g4, g6]; exact h.tx_holder
    · rw [g6]; exact h.metrics_eos
    · rw [g4, g6]; exact h.metrics_holder
    · rw [g3, g4]; exact h.running_tx
    · rw [g4, g6]; exact h.metrics_exec
  · have hfresh : ∀ e k', own e = some k' → e ≠ s.next := fun e k' he => by
      have := h.own_lt e k' he
      omega
    have hmono : ∀ e k', own e = some k' → upd own s.next (some k) e = some k' := fun e k' he => by
      rw [upd_ne (hfresh e k' he)]; exact he
    refine ⟨upd own s.next (some k), ⟨?_, ?_, ?_, ?_, ?_, ?_, ?_, ?_, ?_, ?_, ?_, ?_, ?_, ?_, ?_, ?_⟩, ?_⟩
    · intro k' e he
      by_cases hk : k' = k
      · subst hk; rw [g1] at he; cases he; rw [g8]; exact upd_same _ _ _
      · rw [g2 _ hk] at he; exact hmono _ _ (h.cache_own _ _ he)
    · intro e k' he
      rw [g9]
      by_cases hn : e = s.next
      · omega
      · rw [upd_ne hn] at he
        have := h.own_lt _ _ he
        omega
    · rw [g4]; intro c k' ph e a b; exact hmono _ _ (h.chan_own c k' ph e a b)
    · rw [g5]; intro x k' hd e a; exact hmono _ _ (h.exec_own x k' hd e a)
    · rw [g4]; exact h.chan_open
    · rw [g5]; exact h.exec_open
    · rw [g3, g4]; exact h.cell_set
    · rw [g3]; intro e td r a b
      obtain ⟨x, hd, k', q1, q2, q3⟩ := h.cell_final e td r a b
      exact ⟨x, hd, k', hmono _ _ q1, q2, q3⟩
    · rw [g3, g5]; intro x k' hd p a
      obtain ⟨e, td, q1, q2, q3⟩ := h.exec_done x k' hd p a
      exact ⟨e, td, hmono _ _ q1, q2, q3⟩
    · rw [g3, g4]; exact h.holds_cell
    · rw [g4]; exact h.holder_unique
    · rw [g3, g4, g6]; exact h.tx_holder
    · rw [g6]; exact h.metrics_eos
    · rw [g4, g6]; exact h.metrics_holder
    · rw [g3, g4]; exact h.running_tx
    · rw [g4, g6]; exact h.metrics_exec
    · rw [g8]; exact upd_same _ _ _

theorem Inv.more {insert : Head → Plan → Except Err Plan} {steps : List (Step Key Plan Head)}
    {s : State Key Plan Head} {own : Nat → Option Key} (h : Inv insert steps s own)
    (st : Step Key Plan Head) : Inv insert (steps ++ [st]) s own := by
  have up : ∀ x, x ∈ steps → x ∈ steps ++ [st] := fun x hx => List.mem_append_left _ hx
  refine ⟨h.cache_own, h.own_lt, h.chan_own, h.exec_own, ?_, ?_, ?_, ?_, h.exec_done, h.holds_cell,
    h.holder_unique, h.tx_holder, ?_, h.metrics_holder, ?_, ?_⟩
  · intro c k ph a; exact up _ (h.chan_open c k ph a)
  · intro x k hd ph a; exact up _ (h.exec_open x k hd ph a)
  · intro e td a
    obtain ⟨c, k, ph, col, q1, q2, q3⟩ := h.cell_set e td a
    exact ⟨c, k, ph, col, q1, q2, up _ q3⟩
  · intro e td r a b
    obtain ⟨x, hd, k, q1, q2, q3⟩ := h.cell_final e td r a b
    exact ⟨x, hd, k, q1, up _ q2, q3⟩
  · intro c a
    obtain ⟨q1, q2⟩ := h.metrics_eos c a
    exact ⟨up _ q1, q2⟩
  · intro c k e td a b
    rcases h.running_tx c k e td a b with q | ⟨base, q⟩
    · exact Or.inl q
    · exact Or.inr ⟨base, up _ q⟩
  · intro c a k ph b
    obtain ⟨x, hd, q⟩ := h.metrics_exec c a k ph b
    exact ⟨x, hd, up _ q⟩

theorem inv_init (insert : Head → Plan → Except Err Plan) :
    Inv insert ([] : List (Step Key Plan Head)) (State.init) (fun _ => none) := by
  constructor <;> simp [State.init, Cell.new]


/-- Replacing a channel by one that holds the same entry as before keeps the invariant. -/
theorem Inv.setChan {insert : Head → Plan → Except Err Plan} {steps : List (Step Key Plan Head)}
    {s : State Key Plan Head} {own : Nat → Option Key} (h : Inv insert steps s own)
    (c : Nat) (k : Key) (ph : ChanPhase) (hopen : .openChannel c k ∈ steps)
    (hentry : ∀ e, ph.entry = some e → own e = some k)
    (hholds : ph.holds = (s.chan c).bind (·.phase.holds))
    (hrun : ∀ e, ph ≠ .running e) (hkey : ∀ ch, s.chan c = some ch → ch.key = k) :
    Inv insert steps { s with chan := upd s.chan c (some ⟨k, ph⟩) } own := by
  -- a channel holding an entry after the change held it before
  have back : ∀ c' k' ph' e', upd s.chan c (some ⟨k, ph⟩) c' = some ⟨k', ph'⟩ →
      ph'.holds = some e' → ∃ k'' ph'', s.chan c' = some ⟨k'', ph''⟩ ∧ ph''.holds = some e' := by
    intro c' k' ph' e' a b
    by_cases hcc : c' = c
    · subst hcc
      simp only [upd_same, Option.some.injEq, Chan.mk.injEq] at a
      obtain ⟨rfl, rfl⟩ := a
      rw [b] at hholds
      cases hs : s.chan c' with
      | none => rw [hs] at hholds; cases hholds
      | some ch => rw [hs] at hholds; exact ⟨ch.key, ch.phase, rfl, hholds.symm⟩
    · rw [upd_ne hcc] at a; exact ⟨_, _, a, b⟩
  have forth : ∀ c' k' ph' e', s.chan c' = some ⟨k', ph'⟩ → ph'.holds = some e' →
      ∃ k'' ph'', upd s.chan c (some ⟨k, ph⟩) c' = some ⟨k'', ph''⟩ ∧ ph''.holds = some e' := by
    intro c' k' ph' e' a b
    by_cases hcc : c' = c
    · subst hcc
      refine ⟨k, ph, upd_same _ _ _, ?_⟩
      rw [hholds, a]; exact b
    · exact ⟨k', ph', by rw [upd_ne hcc]; exact a, b⟩
  refine ⟨h.cache_own, h.own_lt, ?_, h.exec_own, ?_, h.exec_open, ?_, h.cell_final,
    h.exec_done, ?_, ?_, ?_, h.metrics_eos, ?_, ?_, ?_⟩
  · intro c' k' ph' e' a b
    simp only at a
    by_cases hcc : c' = c
    · subst hcc
      simp only [upd_same, Option.some.injEq, Chan.mk.injEq] at a
      obtain ⟨rfl, rfl⟩ := a
      exact hentry _ b
    · rw [upd_ne hcc] at a; exact h.chan_own c' k' ph' e' a b
  · intro c' k' ph' a
    simp only at a
    by_cases hcc : c' = c
    · subst hcc
      simp only [upd_same, Option.some.injEq, Chan.mk.injEq] at a
      obtain ⟨rfl, rfl⟩ := a
      exact hopen
    · rw [upd_ne hcc] at a; exact h.chan_open c' k' ph' a
  · intro e' td a
    obtain ⟨c', k', ph', col, q1, q2, q3⟩ := h.cell_set e' td a
    obtain ⟨k'', ph'', r1, r2⟩ := forth c' k' ph' e' q1 q2
    exact ⟨c', k'', ph'', col, r1, r2, q3⟩
  · intro c' k' ph' e' a b
    obtain ⟨k'', ph'', r1, r2⟩ := back c' k' ph' e' a b
    exact h.holds_cell c' k'' ph'' e' r1 r2
  · intro c1 c2 k1 k2 p1 p2 e' a1 a2 b1 b2
    obtain ⟨_, _, r1, r2⟩ := back c1 k1 p1 e' a1 b1
    obtain ⟨_, _, r3, r4⟩ := back c2 k2 p2 e' a2 b2
    exact h.holder_unique c1 c2 _ _ _ _ e' r1 r3 r2 r4
  · intro e' td c' a b
    obtain ⟨q0, k', ph', q1, q2⟩ := h.tx_holder e' td c' a b
    exact ⟨q0, forth c' k' ph' e' q1 q2⟩
  · intro c' a
    have := h.metrics_holder c' a
    simp only
    by_cases hcc : c' = c
    · subst hcc
      rw [upd_same]
      simp only [Option.bind_some]
      rw [hholds]; exact this
    · rw [upd_ne hcc]; exact this
  · intro c' k' e' td a b
    simp only at a
    by_cases hcc : c' = c
    · subst hcc
      simp only [upd_same, Option.some.injEq, Chan.mk.injEq] at a
      exact absurd a.2 (hrun e')
    · rw [upd_ne hcc] at a; exact h.running_tx c' k' e' td a b
  · intro c' a k' ph' b
    simp only at b
    by_cases hcc : c' = c
    · subst hcc
      simp only [upd_same, Option.some.injEq, Chan.mk.injEq] at b
      obtain ⟨rfl, rfl⟩ := b
      have := h.metrics_holder c' a
      cases hs : s.chan c' with
      | none => rw [hs] at this; exact absurd rfl this
      | some ch =>
        have hk := hkey ch hs
        obtain ⟨k0, ph0⟩ := ch
        simp only at hk
        subst hk
        exact h.metrics_exec c' a k0 ph0 hs
    · rw [upd_ne hcc] at b; exact h.metrics_exec c' a k' ph' b

/-- Changing an execute request. -/
theorem Inv.setExec {insert : Head → Plan → Except Err Plan} {steps : List (Step Key Plan Head)}
    {s : State Key Plan Head} {own : Nat → Option Key} (h : Inv insert steps s own)
    (x : Nat) (k : Key) (hd : Head) (ph : ExecPhase Plan) (hopen : .openExec x k hd ∈ steps)
    (hw : ∀ e, ph = .waiting e → own e = some k)
    (hdone : ∀ p, ph = .done (.ok p) →
      ∃ e td, own e = some k ∧ (s.cell e).value = some (.ok td) ∧ td.final = some (.ok p)) :
    Inv insert steps { s with exec := upd s.exec x (some ⟨k, hd, ph⟩) } own := by
  refine ⟨h.cache_own, h.own_lt, h.chan_own, ?_, h.chan_open, ?_, h.cell_set, h.cell_final,
    ?_, h.holds_cell, h.holder_unique, h.tx_holder, h.metrics_eos, h.metrics_holder,
    h.running_tx, h.metrics_exec⟩
  · intro x' k' h' e a
    simp only at a
    by_cases hx : x' = x
    · subst hx
      simp only [upd_same, Option.some.injEq, Exec.mk.injEq] at a
      obtain ⟨rfl, rfl, rfl⟩ := a
      exact hw _ rfl
    · rw [upd_ne hx] at a; exact h.exec_own _ _ _ _ a
  · intro x' k' h' ph' a
    simp only at a
    by_cases hx : x' = x
    · subst hx
      simp only [upd_same, Option.some.injEq, Exec.mk.injEq] at a
      obtain ⟨rfl, rfl, rfl⟩ := a
      exact hopen
    · rw [upd_ne hx] at a; exact h.exec_open _ _ _ _ a
  · intro x' k' h' p a
    simp only at a
    by_cases hx : x' = x
    · subst hx
      simp only [upd_same, Option.some.injEq, Exec.mk.injEq] at a
      obtain ⟨rfl, rfl, rfl⟩ := a
      exact hdone _ rfl
    · rw [upd_ne hx] at a; exact h.exec_done _ _ _ _ a

/-- Installing the final plan in a written entry. -/
theorem Inv.setFinal {insert : Head → Plan → Except Err Plan} {steps : List (Step Key Plan Head)}
    {s : State Key Plan Head} {own : Nat → Option Key} (h : Inv insert steps s own)
    (e : Nat) (td : TaskData Plan) (hv : (s.cell e).value = some (.ok td)) (hd : Head)
    (hx : ∃ x k, own e = some k ∧ .openExec x k hd ∈ steps) :
    Inv insert steps { s with cell := upd s.cell e ⟨some (.ok (td.plan insert hd).1)⟩ } own := by
  obtain ⟨x0, k0, ho, hox⟩ := hx
  have hbase : (td.plan insert hd).1.base = td.base := by
    unfold TaskData.plan; split <;> rfl
  have htx : (td.plan insert hd).1.metricsTx = td.metricsTx := by
    unfold TaskData.plan; split <;> rfl
  have hold : ∀ r, td.final = some r → (td.plan insert hd).1.final = some r := by
    intro r hr; unfold TaskData.plan; split
    · exact hr
    · next hn => rw [hr] at hn; cases hn
  have hnew : ∀ r, (td.plan insert hd).1.final = some r →
      td.final = some r ∨ r = insert hd td.base := by
    intro r hr; unfold TaskData.plan at hr; split at hr
    · exact Or.inl hr
    · simp only [Option.some.injEq] at hr; exact Or.inr hr.symm
  refine ⟨h.cache_own, h.own_lt, h.chan_own, h.exec_own, h.chan_open, h.exec_open, ?_, ?_,
    ?_, ?_, h.holder_unique, ?_, h.metrics_eos, h.metrics_holder, ?_, h.metrics_exec⟩
  · intro e' td' a
    simp only at a
    by_cases he : e' = e
    · subst he
      simp only [upd_same, Option.some.injEq, Except.ok.injEq] at a
      subst a
      rw [hbase]; exact h.cell_set e' td hv
    · rw [upd_ne he] at a; exact h.cell_set e' td' a
  · intro e' td' r a b
    simp only at a
    by_cases he : e' = e
    · subst he
      simp only [upd_same, Option.some.injEq, Except.ok.injEq] at a
      subst a
      rw [hbase]
      rcases hnew r b with hr | hr
      · exact h.cell_final e' td r hv hr
      · exact ⟨x0, hd, k0, ho, hox, hr⟩
    · rw [upd_ne he] at a; exact h.cell_final e' td' r a b
  · intro x k h' p a
    obtain ⟨e', td', q1, q2, q3⟩ := h.exec_done x k h' p a
    by_cases he : e' = e
    · subst he
      rw [hv] at q2
      cases q2
      exact ⟨e', (td.plan insert hd).1, q1, by simp [upd_same], hold _ q3⟩
    · exact ⟨e', td', q1, by simp only [upd_ne he]; exact q2, q3⟩
  · intro c k ph e' a b
    obtain ⟨td', q⟩ := h.holds_cell c k ph e' a b
    by_cases he : e' = e
    · subst he; exact ⟨(td.plan insert hd).1, by simp [upd_same]⟩
    · exact ⟨td', by simp only [upd_ne he]; exact q⟩
  · intro e' td' c a b
    simp only at a
    by_cases he : e' = e
    · subst he
      simp only [upd_same, Option.some.injEq, Except.ok.injEq] at a
      subst a
      rw [htx] at b
      exact h.tx_holder e' td c hv b
    · rw [upd_ne he] at a; exact h.tx_holder e' td' c a b
  · intro c k e' td' a b
    simp only at b
    by_cases he : e' = e
    · subst he
      simp only [upd_same, Option.some.injEq, Except.ok.injEq] at b
      subst b
      rw [htx]
      exact h.running_tx c k e' td a hv
    · rw [upd_ne he] at b; exact h.running_tx c k e' td' a b

/-- Removing cache entries. -/
theorem Inv.dropCache {insert : Head → Plan → Except Err Plan} {steps : List (Step Key Plan Head)}
    {s : State Key Plan Head} {own : Nat → Option Key} (h : Inv insert steps s own)
    (cache' : Key → Option Nat) (hc : ∀ k e, cache' k = some e → s.cache k = some e) :
    Inv insert steps { s with cache := cache' } own :=
  ⟨fun k e a => h.cache_own k e (hc k e a), h.own_lt, h.chan_own, h.exec_own, h.chan_open,
    h.exec_open, h.cell_set, h.cell_final, h.exec_done, h.holds_cell, h.holder_unique,
    h.tx_holder, h.metrics_eos, h.metrics_holder, h.running_tx, h.metrics_exec⟩

/-- The first write of an entry. -/
theorem Inv.firstWrite {insert : Head → Plan → Except Err Plan} {steps : List (Step Key Plan Head)}
    {s : State Key Plan Head} {own : Nat → Option Key} (h : Inv insert steps s own)
    {c : Nat} {k : Key} {e : Nat} (hc : s.chan c = some ⟨k, .gotEntry e⟩)
    (hv : (s.cell e).value = none) (p : Plan) (col : Bool)
    (hset : .setPlan c (.ok (p, col)) ∈ steps) :
    Inv insert steps { s with
      cell := upd s.cell e ⟨some (.ok ⟨p, none, if col then some c else none⟩)⟩
      chan := upd s.chan c (some ⟨k, .running e⟩) } own := by
  have nohold : ∀ c' k' ph, s.chan c' = some ⟨k', ph⟩ → ph.holds ≠ some e := by
    intro c' k' ph a b
    obtain ⟨td, q⟩ := h.holds_cell c' k' ph e a b
    rw [hv] at q; cases q
  have hcne : ∀ c' k' ph e', s.chan c' = some ⟨k', ph⟩ → ph.holds = some e' → c' ≠ c := by
    rintro c' k' ph e' a b rfl
    rw [hc] at a
    simp only [Option.some.injEq, Chan.mk.injEq] at a
    obtain ⟨rfl, rfl⟩ := a
    simp [ChanPhase.holds] at b
  have hmet : s.metrics c = [] := by
    by_contra hne
    have := h.metrics_holder c hne
    rw [hc] at this
    simp [ChanPhase.holds] at this
  have back : ∀ c' k' ph', upd s.chan c (some ⟨k, .running e⟩) c' = some ⟨k', ph'⟩ →
      (c' = c ∧ k' = k ∧ ph' = .running e) ∨ (c' ≠ c ∧ s.chan c' = some ⟨k', ph'⟩) := by
    intro c' k' ph' a
    by_cases hcc : c' = c
    · subst hcc
      simp only [upd_same, Option.some.injEq, Chan.mk.injEq] at a
      exact Or.inl ⟨rfl, a.1.symm, a.2.symm⟩
    · rw [upd_ne hcc] at a; exact Or.inr ⟨hcc, a⟩
  refine ⟨h.cache_own, h.own_lt, ?_, h.exec_own, ?_, h.exec_open, ?_, ?_, ?_, ?_, ?_, ?_,
    h.metrics_eos, ?_, ?_, ?_⟩
  · intro c' k' ph' e' a b
    rcases back c' k' ph' a with ⟨rfl, rfl, rfl⟩ | ⟨-, a'⟩
    · simp only [ChanPhase.entry, Option.some.injEq] at b
      subst b
      exact h.chan_own c' k' _ e hc rfl
    · exact h.chan_own c' k' ph' e' a' b
  · intro c' k' ph' a
    rcases back c' k' ph' a with ⟨rfl, rfl, rfl⟩ | ⟨-, a'⟩
    · exact h.chan_open c' k' _ hc
    · exact h.chan_open c' k' ph' a'
  · intro e' td a
    simp only at a
    by_cases he : e' = e
    · subst he
      simp only [upd_same, Option.some.injEq, Except.ok.injEq] at a
      subst a
      exact ⟨c, k, .running e', col, upd_same _ _ _, rfl, hset⟩
    · rw [upd_ne he] at a
      obtain ⟨c', k', ph', col', q1, q2, q3⟩ := h.cell_set e' td a
      exact ⟨c', k', ph', col', by simp only; rw [upd_ne (hcne _ _ _ _ q1 q2)]; exact q1, q2, q3⟩
  · intro e' td r a b
    simp only at a
    by_cases he : e' = e
    · subst he
      simp only [upd_same, Option.some.injEq, Except.ok.injEq] at a
      subst a
      cases b
    · rw [upd_ne he] at a; exact h.cell_final e' td r a b
  · intro x k' h' p' a
    obtain ⟨e', td, q1, q2, q3⟩ := h.exec_done x k' h' p' a
    have he : e' ≠ e := by rintro rfl; rw [hv] at q2; cases q2
    exact ⟨e', td, q1, by simp only [upd_ne he]; exact q2, q3⟩
  · intro c' k' ph' e' a b
    rcases back c' k' ph' a with ⟨rfl, rfl, rfl⟩ | ⟨-, a'⟩
    · simp only [ChanPhase.holds, Option.some.injEq] at b
      subst b
      exact ⟨⟨p, none, if col then some c' else none⟩, by simp only [upd_same]⟩
    · have he : e' ≠ e := by rintro rfl; exact nohold c' k' ph' a' b
      obtain ⟨td, q⟩ := h.holds_cell c' k' ph' e' a' b
      exact ⟨td, by simp only [upd_ne he]; exact q⟩
  · intro c1 c2 k1 k2 p1 p2 e' a1 a2 b1 b2
    rcases back c1 k1 p1 a1 with ⟨rfl, rfl, rfl⟩ | ⟨n1, a1'⟩ <;>
    rcases back c2 k2 p2 a2 with ⟨rfl, rfl, rfl⟩ | ⟨n2, a2'⟩
    · rfl
    · simp only [ChanPhase.holds, Option.some.injEq] at b1
      subst b1
      exact absurd b2 (nohold _ _ _ a2')
    · simp only [ChanPhase.holds, Option.some.injEq] at b2
      subst b2
      exact absurd b1 (nohold _ _ _ a1')
    · exact h.holder_unique c1 c2 k1 k2 p1 p2 e' a1' a2' b1 b2
  · intro e' td c' a b
    simp only at a
    by_cases he : e' = e
    · subst he
      simp only [upd_same, Option.some.injEq, Except.ok.injEq] at a
      subst a
      simp only at b
      split at b
      · simp only [Option.some.injEq] at b
        subst b
        exact ⟨hmet, k, .running e', upd_same _ _ _, rfl⟩
      · cases b
    · rw [upd_ne he] at a
      obtain ⟨q0, k', ph', q1, q2⟩ := h.tx_holder e' td c' a b
      exact ⟨q0, k', ph', by simp only; rw [upd_ne (hcne _ _ _ _ q1 q2)]; exact q1, q2⟩
  · intro c' a
    simp only
    by_cases hcc : c' = c
    · subst hcc; exact absurd hmet a
    · rw [upd_ne hcc]; exact h.metrics_holder c' a
  · intro c' k' e' td a b
    simp only at b
    rcases back c' k' _ a with ⟨rfl, rfl, q⟩ | ⟨-, a'⟩
    · simp only [ChanPhase.running.injEq] at q
      subst q
      simp only [upd_same, Option.some.injEq, Except.ok.injEq] at b
      subst b
      cases col with
      | true => exact Or.inl rfl
      | false => exact Or.inr ⟨p, hset⟩
    · have he : e' ≠ e := by rintro rfl; exact nohold c' k' _ a' rfl
      rw [upd_ne he] at b
      exact h.running_tx c' k' e' td a' b
  · intro c' a k' ph' b
    rcases back c' k' _ b with ⟨rfl, rfl, q⟩ | ⟨-, b'⟩
    · exact absurd hmet a
    · exact h.metrics_exec c' a k' ph' b'

/-- A failed plan is written: the entry holds an error. -/
theorem Inv.writeError {insert : Head → Plan → Except Err Plan} {steps : List (Step Key Plan Head)}
    {s : State Key Plan Head} {own : Nat → Option Key} (h : Inv insert steps s own)
    (e : Nat) (hv : (s.cell e).value = none) (er : Err) :
    Inv insert steps { s with cell := upd s.cell e ⟨some (.error er)⟩ } own := by
  have ne : ∀ e' td, (s.cell e').value = some (.ok td) → e' ≠ e := by
    rintro e' td q rfl; rw [hv] at q; cases q
  have back : ∀ e' td, (upd s.cell e ⟨some (.error er)⟩ e').value = some (.ok td) →
      (s.cell e').value = some (.ok td) := by
    intro e' td a
    by_cases he : e' = e
    · subst he; simp [upd_same] at a
    · rwa [upd_ne he] at a
  refine ⟨h.cache_own, h.own_lt, h.chan_own, h.exec_own, h.chan_open, h.exec_open,
    fun e' td a => h.cell_set e' td (back _ _ a),
    fun e' td r a b => h.cell_final e' td r (back _ _ a) b, ?_, ?_, h.holder_unique,
    fun e' td c a b => h.tx_holder e' td c (back _ _ a) b, h.metrics_eos, h.metrics_holder,
    fun c k e' td a b => h.running_tx c k e' td a (back _ _ b), h.metrics_exec⟩
  · intro x k h' p a
    obtain ⟨e', td, q1, q2, q3⟩ := h.exec_done x k h' p a
    exact ⟨e', td, q1, by simp only [upd_ne (ne _ _ q2)]; exact q2, q3⟩
  · intro c k ph e' a b
    obtain ⟨td, q⟩ := h.holds_cell c k ph e' a b
    exact ⟨td, by simp only [upd_ne (ne _ _ q)]; exact q⟩

/-- The end of the coordinator→worker stream: the metrics sender is taken and used. -/
theorem Inv.takeMetrics {insert : Head → Plan → Except Err Plan} {steps : List (Step Key Plan Head)}
    {s : State Key Plan Head} {own : Nat → Option Key} (h : Inv insert steps s own)
    {c : Nat} {k : Key} {e : Nat} (hc : s.chan c = some ⟨k, .ended e⟩) {td : TaskData Plan}
    (hv : (s.cell e).value = some (.ok td)) (heos : .eos c ∈ steps) :
    Inv insert steps { s with
      cell := upd s.cell e ⟨some (.ok { td with metricsTx := none })⟩
      metrics := sendMetrics td s.metrics } own := by
  have hcell : ∀ e' td', (upd s.cell e ⟨some (.ok { td with metricsTx := none })⟩ e').value
      = some (.ok td') → ∃ td0, (s.cell e').value = some (.ok td0) ∧ td0.base = td'.base ∧
        td0.final = td'.final ∧ (td'.metricsTx = td0.metricsTx ∧ e' ≠ e ∨ td'.metricsTx = none) := by
    intro e' td' a
    by_cases he : e' = e
    · subst he
      simp only [upd_same, Option.some.injEq, Except.ok.injEq] at a
      subst a
      exact ⟨td, hv, rfl, rfl, Or.inr rfl⟩
    · rw [upd_ne he] at a; exact ⟨td', a, rfl, rfl, Or.inl ⟨rfl, he⟩⟩
  have hcell' : ∀ e' td0, (s.cell e').value = some (.ok td0) →
      ∃ td', (upd s.cell e ⟨some (.ok { td with metricsTx := none })⟩ e').value = some (.ok td') ∧
        td'.final = td0.final := by
    intro e' td0 a
    by_cases he : e' = e
    · subst he
      rw [hv] at a; cases a
      exact ⟨{ td with metricsTx := none }, by rw [upd_same], rfl⟩
    · exact ⟨td0, by rw [upd_ne he]; exact a, rfl⟩
  have hmet : ∀ c', sendMetrics td s.metrics c' = s.metrics c' ∨
      (td.metricsTx = some c' ∧ c' = c ∧ ∃ p, sendMetrics td s.metrics c' = [p] ∧
        td.final = some (.ok p)) := by
    intro c'
    have hsend : sendMetrics td s.metrics = s.metrics ∨ ∃ c1 p, td.metricsTx = some c1 ∧
        td.final = some (.ok p) ∧ sendMetrics td s.metrics = upd s.metrics c1 (s.metrics c1 ++ [p]) := by
      unfold sendMetrics
      cases htx : td.metricsTx with
      | none => exact Or.inl rfl
      | some c1 =>
        cases hf : td.final with
        | none => exact Or.inl rfl
        | some r =>
          cases r with
          | error er => exact Or.inl rfl
          | ok p => exact Or.inr ⟨c1, p, rfl, rfl, rfl⟩
    rcases hsend with hs | ⟨c1, p, htx, hfin, hs⟩
    · left; rw [hs]
    · obtain ⟨q0, k1, ph1, q1, q2⟩ := h.tx_holder e td c1 hv htx
      have : c1 = c := h.holder_unique c1 c k1 k ph1 (.ended e) e q1 hc q2 rfl
      by_cases hcc : c' = c1
      · subst hcc
        right
        refine ⟨htx, this, p, ?_, hfin⟩
        rw [hs, upd_same, q0]; rfl
      · left; rw [hs]; exact upd_ne hcc
  refine ⟨h.cache_own, h.own_lt, h.chan_own, h.exec_own, h.chan_open, h.exec_open, ?_, ?_,
    ?_, ?_, h.holder_unique, ?_, ?_, ?_, ?_, ?_⟩
  · intro e' td' a
    obtain ⟨td0, q1, q2, -, -⟩ := hcell e' td' a
    rw [← q2]; exact h.cell_set e' td0 q1
  · intro e' td' r a b
    obtain ⟨td0, q1, q2, q3, -⟩ := hcell e' td' a
    rw [← q2]; exact h.cell_final e' td0 r q1 (q3.trans b)
  · intro x k' h' p a
    obtain ⟨e', td', q1, q2, q3⟩ := h.exec_done x k' h' p a
    obtain ⟨td'', r1, r2⟩ := hcell' e' td' q2
    exact ⟨e', td'', q1, r1, r2.trans q3⟩
  · intro c' k' ph e' a b
    obtain ⟨td', q⟩ := h.holds_cell c' k' ph e' a b
    obtain ⟨td'', r1, -⟩ := hcell' e' td' q
    exact ⟨td'', r1⟩
  · intro e' td' c' a b
    obtain ⟨td0, q1, -, -, q4⟩ := hcell e' td' a
    rcases q4 with ⟨q4, q5⟩ | q4
    · rw [q4] at b
      obtain ⟨r0, k', ph', r1, r2⟩ := h.tx_holder e' td0 c' q1 b
      refine ⟨?_, k', ph', r1, r2⟩
      rcases hmet c' with m | ⟨-, m, -⟩
      · simp only [m]; exact r0
      · subst m
        rw [hc] at r1
        simp only [Option.some.injEq, Chan.mk.injEq] at r1
        obtain ⟨rfl, rfl⟩ := r1
        simp only [ChanPhase.holds, Option.some.injEq] at r2
        exact absurd r2.symm q5
    · rw [q4] at b; cases b
  · intro c' a
    simp only at a ⊢
    rcases hmet c' with m | ⟨-, m, p, m2, -⟩
    · rw [m] at a ⊢; exact h.metrics_eos c' a
    · subst m; exact ⟨heos, p, m2⟩
  · intro c' a
    simp only at a ⊢
    rcases hmet c' with m | ⟨-, m, p, m2, -⟩
    · rw [m] at a; exact h.metrics_holder c' a
    · subst m; rw [hc]; simp [ChanPhase.holds]
  · intro c' k' e' td' a b
    obtain ⟨td0, q1, -, -, q4⟩ := hcell e' td' b
    by_cases he : e' = e
    · subst he
      have := h.holder_unique c' c k' k _ _ e' a hc rfl rfl
      subst this
      simp only [hc, Option.some.injEq, Chan.mk.injEq] at a
      cases a.2
    · rcases q4 with ⟨q4, -⟩ | q4
      · rw [q4]; exact h.running_tx c' k' e' td0 a q1
      · simp only [upd_ne he] at b
        exact h.running_tx c' k' e' td' a b
  · intro c' a k' ph' b
    simp only at a b
    rcases hmet c' with m | ⟨-, m, p, m2, m3⟩
    · rw [m] at a; exact h.metrics_exec c' a k' ph' b
    · subst m
      rw [hc] at b
      simp only [Option.some.injEq, Chan.mk.injEq] at b
      obtain ⟨rfl, rfl⟩ := b
      obtain ⟨x, hd, k1, q1, q2, -⟩ := h.cell_final e td _ hv m3
      rw [h.chan_own c' k _ e hc rfl] at q1
      cases q1
      exact ⟨x, hd, q2⟩

theorem inv_step (insert : Head → Plan → Except Err Plan) {steps : List (Step Key Plan Head)}
    {s : State Key Plan Head} {own : Nat → Option Key} (h : Inv insert steps s own)
    (st : Step Key Plan Head) : ∃ own', Inv insert (steps ++ [st]) (step insert s st) own' := by
  have hm := h.more st
  have hlast : st ∈ steps ++ [st] := by simp
  cases st with
  | openChannel c k =>
    simp only [step]
    split
    · exact ⟨own, hm⟩
    · next hc =>
      obtain ⟨own', h', hown⟩ := hm.getWith k
      obtain ⟨-, -, -, g4, -, -, -⟩ := getWith_spec s k
      refine ⟨own', h'.setChan c k _ hlast ?_ ?_ (by intro _ q; cases q)
        (by rw [g4, hc]; intro _ q; cases q)⟩
      · intro e he
        simp only [ChanPhase.entry, Option.some.injEq] at he
        subst he; exact hown
      · rw [g4, hc]; rfl
  | setPlan c r =>
    simp only [step]
    split
    · next k e hc =>
      have hopen := hm.chan_open c k _ hc
      have hown := hm.chan_own c k _ e hc rfl
      cases hv : (s.cell e).value with
      | some v =>
        simp only [Cell.write, hv]
        refine ⟨own, hm.setChan c k _ hopen ?_ ?_ (by intro _ q; cases q)
          (by rw [hc]; intro _ q; cases q; rfl)⟩
        · intro e he; cases he
        · rw [hc]; rfl
      | none =>
        simp only [Cell.write, hv]
        match r with
        | .ok (p, col) => exact ⟨own, hm.firstWrite hc hv p col hlast⟩
        | .error er =>
          refine ⟨own, (hm.writeError e hv er).setChan c k _ hopen ?_ ?_
            (by intro _ q; cases q) (by show ∀ ch, s.chan c = some ch → _; rw [hc]; intro _ q; cases q; rfl)⟩
          · intro e he; cases he
          · show _ = (s.chan c).bind _
            rw [hc]; rfl
    · exact ⟨own, hm⟩
  | eos c =>
    simp only [step]
    split
    · next k e hc =>
      split
      · next td hv =>
        have hopen := hm.chan_open c k _ hc
        have hown := hm.chan_own c k _ e hc rfl
        have h1 := hm.setChan c k (.ended e) hopen
          (by intro e' he
              simp only [ChanPhase.entry, Option.some.injEq] at he
              subst he; exact hown)
          (by rw [hc]; rfl) (by intro _ q; cases q) (by rw [hc]; intro _ q; cases q; rfl)
        exact ⟨own, h1.takeMetrics (upd_same _ _ _) hv hlast⟩
      · exact ⟨own, hm⟩
    · exact ⟨own, hm⟩
  | invalidate c =>
    simp only [step]
    split
    · next k e hc =>
      have hopen := hm.chan_open c k _ hc
      have hown := hm.chan_own c k _ e hc rfl
      refine ⟨own, (hm.dropCache (upd s.cache k none) ?_).setChan c k _ hopen ?_ ?_
        (by intro _ q; cases q) (by show ∀ ch, s.chan c = some ch → _; rw [hc]; intro _ q; cases q; rfl)⟩
      · intro k' e' a
        by_cases hk : k' = k
        · subst hk; rw [upd_same] at a; cases a
        · rwa [upd_ne hk] at a
      · intro e' he
        simp only [ChanPhase.entry, Option.some.injEq] at he
        subst he; exact hown
      · show _ = (s.chan c).bind _
        rw [hc]; rfl
    · exact ⟨own, hm⟩
  | openExec x k hd =>
    simp only [step]
    split
    · exact ⟨own, hm⟩
    · next hx =>
      obtain ⟨own', h', hown⟩ := hm.getWith k
      refine ⟨own', h'.setExec x k hd _ hlast ?_ ?_⟩
      · intro e he
        simp only [ExecPhase.waiting.injEq] at he
        subst he; exact hown
      · intro p hp; cases hp
  | pollExec x expired =>
    simp only [step]
    split
    · next k hd e hx =>
      have hopen := hm.exec_open x k hd _ hx
      have hown := hm.exec_own x k hd e hx
      split
      · exact ⟨own, hm⟩
      · refine ⟨own, hm.setExec x k hd _ hopen ?_ ?_⟩ <;> intro _ hp <;> cases hp
      · refine ⟨own, hm.setExec x k hd _ hopen ?_ ?_⟩ <;> intro _ hp <;> cases hp
      · next td hp =>
        have hv : (s.cell e).value = some (.ok td) := by
          unfold Cell.pollRead at hp
          split at hp
          · next v hv => cases hp; exact hv
          · split at hp <;> cases hp
        refine ⟨own, (hm.setFinal e td hv hd ⟨x, k, hown, hopen⟩).setExec x k hd _ hopen ?_ ?_⟩
        · intro _ hp; cases hp
        · intro p hp
          simp only [ExecPhase.done.injEq] at hp
          refine ⟨e, (td.plan insert hd).1, hown, by simp [upd_same], ?_⟩
          rw [← hp]
          unfold TaskData.plan
          split
          · next hf => exact hf
          · rfl
    · exact ⟨own, hm⟩
  | evict k =>
    refine ⟨own, hm.dropCache (upd s.cache k none) ?_⟩
    intro k' e' a
    by_cases hk : k' = k
    · subst hk; rw [upd_same] at a; cases a
    · rwa [upd_ne hk] at a
  | crash =>
    simp only [step]
    have back : ∀ c k ph, ((s.chan c).map fun ch => (⟨ch.key, ch.phase.afterCrash⟩ : Chan Key)) = some ⟨k, ph⟩ →
        ∃ ph0, s.chan c = some ⟨k, ph0⟩ ∧ ph.holds = ph0.holds ∧
          (∀ e, ph.entry = some e → ph0.entry = some e) := by
      intro c k ph a
      cases hs : s.chan c with
      | none => rw [hs] at a; cases a
      | some ch =>
        rw [hs] at a
        obtain ⟨k0, ph0⟩ := ch
        simp only [Option.map_some, Option.some.injEq, Chan.mk.injEq] at a
        obtain ⟨rfl, rfl⟩ := a
        refine ⟨ph0, rfl, ?_, ?_⟩ <;> cases ph0 <;> simp [ChanPhase.holds, ChanPhase.entry, ChanPhase.afterCrash]
    have forth : ∀ c k ph0, s.chan c = some ⟨k, ph0⟩ →
        ∃ ph, ((s.chan c).map fun ch => (⟨ch.key, ch.phase.afterCrash⟩ : Chan Key)) = some ⟨k, ph⟩ ∧ ph.holds = ph0.holds := by
      intro c k ph0 a
      rw [a]
      refine ⟨_, rfl, ?_⟩
      cases ph0 <;> rfl
    have backx : ∀ x k h0 ph, ((s.exec x).map Exec.afterCrash) = some ⟨k, h0, ph⟩ →
        (∃ ph0, s.exec x = some ⟨k, h0, ph0⟩) ∧ (∀ e, ph ≠ .waiting e) ∧
        (∀ p, ph = .done (.ok p) → s.exec x = some ⟨k, h0, .done (.ok p)⟩) := by
      intro x k h0 ph a
      cases hs : s.exec x with
      | none => rw [hs] at a; cases a
      | some ex =>
        rw [hs] at a
        obtain ⟨k0, h1, ph0⟩ := ex
        cases ph0 with
        | waiting e =>
          simp only [Option.map_some, Option.some.injEq, Exec.afterCrash, Exec.mk.injEq] at a
          obtain ⟨rfl, rfl, rfl⟩ := a
          refine ⟨⟨_, rfl⟩, ?_, ?_⟩
          · intro e he; cases he
          · intro p hp; cases hp
        | done r =>
          simp only [Option.map_some, Option.some.injEq, Exec.afterCrash, Exec.mk.injEq] at a
          obtain ⟨rfl, rfl, rfl⟩ := a
          refine ⟨⟨_, rfl⟩, ?_, ?_⟩
          · intro e he; cases he
          · intro p hp; rw [hp]
    refine ⟨own, ⟨?_, hm.own_lt, ?_, ?_, ?_, ?_, ?_, hm.cell_final, ?_, ?_, ?_, ?_,
      hm.metrics_eos, ?_, ?_, ?_⟩⟩
    · intro k e a; cases a
    · intro c k ph e a b
      obtain ⟨ph0, q1, -, q3⟩ := back c k ph a
      exact hm.chan_own c k ph0 e q1 (q3 e b)
    · intro x k h0 e a
      exact absurd rfl ((backx x k h0 _ a).2.1 e)
    · intro c k ph a
      obtain ⟨ph0, q1, -⟩ := back c k ph a
      exact hm.chan_open c k ph0 q1
    · intro x k h0 ph a
      obtain ⟨⟨ph0, q⟩, -⟩ := backx x k h0 ph a
      exact hm.exec_open x k h0 ph0 q
    · intro e td a
      obtain ⟨c, k, ph, col, q1, q2, q3⟩ := hm.cell_set e td a
      obtain ⟨ph', r1, r2⟩ := forth c k ph q1
      exact ⟨c, k, ph', col, r1, r2.trans q2, q3⟩
    · intro x k h0 p a
      exact hm.exec_done x k h0 p ((backx x k h0 _ a).2.2 p rfl)
    · intro c k ph e a b
      obtain ⟨ph0, q1, q2, -⟩ := back c k ph a
      exact hm.holds_cell c k ph0 e q1 (q2.symm.trans b)
    · intro c1 c2 k1 k2 p1 p2 e a1 a2 b1 b2
      obtain ⟨ph1, q1, r1, -⟩ := back c1 k1 p1 a1
      obtain ⟨ph2, q2, r2, -⟩ := back c2 k2 p2 a2
      exact hm.holder_unique c1 c2 k1 k2 ph1 ph2 e q1 q2 (r1.symm.trans b1) (r2.symm.trans b2)
    · intro e td c a b
      obtain ⟨q0, k, ph, q1, q2⟩ := hm.tx_holder e td c a b
      obtain ⟨ph', r1, r2⟩ := forth c k ph q1
      exact ⟨q0, k, ph', r1, r2.trans q2⟩
    · intro c a
      have q := hm.metrics_holder c a
      cases hs : s.chan c with
      | none => rw [hs] at q; exact absurd rfl q
      | some ch =>
        obtain ⟨ph', r1, r2⟩ := forth c ch.key ch.phase hs
        simp only
        rw [r1]
        rw [hs] at q
        simp only [Option.bind_some] at q ⊢
        rw [r2]; exact q
    · intro c k e td a b
      cases hs : s.chan c with
      | none => simp only [hs] at a; cases a
      | some ch =>
        simp only [hs, Option.map_some, Option.some.injEq, Chan.mk.injEq] at a
        obtain ⟨-, a⟩ := a
        cases hp : ch.phase <;> rw [hp] at a <;> cases a
    · intro c a k ph b
      obtain ⟨ph0, q1, -⟩ := back c k ph b
      exact hm.metrics_exec c a k ph0 q1

theorem inv_run (insert : Head → Plan → Except Err Plan) (steps : List (Step Key Plan Head)) :
    ∃ own, Inv insert steps (run insert State.init steps) own := by
  suffices H : ∀ (more done : List (Step Key Plan Head)) (s : State Key Plan Head) own,
      Inv insert done s own → ∃ own', Inv insert (done ++ more) (run insert s more) own' by
    simpa using H steps [] State.init (fun _ => none) (inv_init insert)
  intro more
  induction more with
  | nil => intro done s own h; exact ⟨own, by simpa [run] using h⟩
  | cons st rest ih =>
    intro done s own h
    obtain ⟨own', h'⟩ := inv_step insert h st
    obtain ⟨own'', h''⟩ := ih _ _ _ h'
    exact ⟨own'', by simpa [run] using h''⟩

end DD.Worker
