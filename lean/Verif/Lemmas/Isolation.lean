/-
The events of one query on a worker decide what the query sees of it: simulation of a worker that serves
several queries by one that serves only this query. The two differ in the identities of the entries.
-/
import Verif.Lemmas.Worker
import Verif.Spec.Isolation

namespace DD.Worker

open Swmr

variable {Key Plan Head : Type} [DecidableEq Key]

/-- The same phase with other identities of entries. -/
def ChanPhase.map (ρ : Nat → Nat) : ChanPhase → ChanPhase
  | .gotEntry e => .gotEntry (ρ e)
  | .running e => .running (ρ e)
  | .ended e => .ended (ρ e)
  | .closed e => .closed (ρ e)
  | .failed err => .failed err
  | .lost e => .lost (ρ e)

def Chan.map (ρ : Nat → Nat) (ch : Chan Key) : Chan Key := ⟨ch.key, ch.phase.map ρ⟩

def ExecPhase.map (ρ : Nat → Nat) : ExecPhase Plan → ExecPhase Plan
  | .waiting e => .waiting (ρ e)
  | .done r => .done r

def Exec.map (ρ : Nat → Nat) (ex : Exec Key Head Plan) : Exec Key Head Plan := ⟨ex.key, ex.head, ex.phase.map ρ⟩

/-- The entry a channel may still change. -/
def ChanPhase.active : ChanPhase → Option Nat
  | .gotEntry e | .running e | .ended e => some e
  | _ => none

theorem ChanPhase.map_congr {ρ ρ' : Nat → Nat} {ph : ChanPhase} (h : ∀ e, ph.entry = some e → ρ e = ρ' e) :
    ph.map ρ = ph.map ρ' := by
  cases ph <;> simp_all [ChanPhase.map, ChanPhase.entry]

theorem ChanPhase.map_seen (ρ : Nat → Nat) (ph : ChanPhase) : (ph.map ρ).seen = ph.seen := by
  cases ph <;> rfl

theorem ExecPhase.map_seen (ρ : Nat → Nat) (ph : ExecPhase Plan) : (ph.map ρ).seen = ph.seen := by
  cases ph <;> rfl

theorem ChanPhase.afterCrash_map (ρ : Nat → Nat) (ph : ChanPhase) : (ph.map ρ).afterCrash = ph.afterCrash.map ρ := by
  cases ph <;> rfl

theorem Exec.afterCrash_map (ρ : Nat → Nat) (ex : Exec Key Head Plan) : (ex.map ρ).afterCrash = ex.afterCrash.map ρ := by
  obtain ⟨k, h, ph⟩ := ex
  cases ph <;> rfl

/-- A worker `s`, and one that serves only the tasks `own`. `D` are the entries of these tasks, `ρ` their names on
the second worker. -/
structure Sim (own : Key → Bool) (mc mx : Nat → Bool) (D : Nat → Prop) (ρ : Nat → Nat)
    (s s' : State Key Plan Head) : Prop where
  cache : ∀ k, own k = true → s'.cache k = (s.cache k).map ρ
  cacheD : ∀ k e, s.cache k = some e → (own k = true ↔ D e)
  chan : ∀ c, mc c = true → s'.chan c = (s.chan c).map (Chan.map ρ)
  chanD : ∀ c ch, s.chan c = some ch → mc c = true → own ch.key = true ∧ ∀ e, ch.phase.entry = some e → D e
  chanO : ∀ c ch, s.chan c = some ch → mc c = false → ∀ e, ch.phase.active = some e → ¬ D e ∧ own ch.key = false
  exec : ∀ x, mx x = true → s'.exec x = (s.exec x).map (Exec.map ρ)
  execD : ∀ x k h e, s.exec x = some ⟨k, h, .waiting e⟩ → (mx x = true ↔ D e)
  cell : ∀ e, D e → s'.cell (ρ e) = s.cell e
  tx : ∀ e td c, (s.cell e).value = some (.ok td) → td.metricsTx = some c → (mc c = true ↔ D e)
  metrics : ∀ c, mc c = true → s'.metrics c = s.metrics c
  inj : ∀ e e₂, D e → D e₂ → ρ e = ρ e₂ → e = e₂
  lt : ∀ e, D e → e < s.next ∧ ρ e < s'.next
  cacheLt : ∀ k e, s.cache k = some e → e < s.next
  chanLt : ∀ c ch e, s.chan c = some ch → ch.phase.active = some e → e < s.next
  execLt : ∀ x k h e, s.exec x = some ⟨k, h, .waiting e⟩ → e < s.next
  fresh : ∀ e, s.next ≤ e → s.cell e = .new
  fresh' : ∀ e, s'.next ≤ e → s'.cell e = .new

variable {own : Key → Bool} {mc mx : Nat → Bool} {D : Nat → Prop} {ρ : Nat → Nat} {s s' : State Key Plan Head}

theorem getWith_some {k : Key} {e : Nat} (h : s.cache k = some e) : getWith s k = (s, e) := by
  unfold getWith; rw [h]

theorem getWith_none {k : Key} (h : s.cache k = none) :
    getWith s k = ({ s with cache := upd s.cache k (some s.next), next := s.next + 1 }, s.next) := by
  unfold getWith; rw [h]

/-- Fetching the entry of one of the tasks. -/
theorem Sim.fetch (h : Sim own mc mx D ρ s s') (k : Key) (hk : own k = true) :
    ∃ D' ρ', Sim own mc mx D' ρ' (getWith s k).1 (getWith s' k).1 ∧ D' (getWith s k).2 ∧
      (getWith s' k).2 = ρ' (getWith s k).2 := by
  cases hc : s.cache k with
  | some e =>
    have hc' := h.cache k hk
    rw [hc] at hc'
    rw [getWith_some hc, getWith_some (s := s') hc']
    exact ⟨D, ρ, h, (h.cacheD k e hc).1 hk, rfl⟩
  | none =>
    have hc' := h.cache k hk
    rw [hc] at hc'
    rw [getWith_none hc, getWith_none (s := s') hc']
    have hagree : ∀ e, D e → upd ρ s.next s'.next e = ρ e := fun e he =>
      upd_ne (Nat.ne_of_lt (h.lt e he).1)
    have hnD : ¬ D s.next := fun hd => Nat.lt_irrefl _ (h.lt _ hd).1
    refine ⟨fun e => D e ∨ e = s.next, upd ρ s.next s'.next, ?_, Or.inr rfl, (upd_same _ _ _).symm⟩
    constructor
    · intro k' hk'
      by_cases e : k' = k
      · subst e; simp [upd]
      · simp only [upd_ne e]
        rw [h.cache k' hk']
        cases hce : s.cache k' with
        | none => rfl
        | some e' => simp [hagree e' ((h.cacheD _ _ hce).1 hk')]
    · intro k' e' hce
      simp only [upd] at hce
      split at hce
      · rename_i e; subst e
        cases hce
        simp [hk]
      · rw [h.cacheD k' e' hce]
        refine ⟨Or.inl, fun hd => hd.resolve_right fun e => ?_⟩
        exact Nat.lt_irrefl _ (e ▸ h.cacheLt _ _ hce)
    · intro c hm
      rw [h.chan c hm]
      cases hch : s.chan c with
      | none => rfl
      | some ch =>
        have := (h.chanD c ch hch hm).2
        simp only [Option.map_some, Chan.map]
        rw [ChanPhase.map_congr fun e he => (hagree e (this e he)).symm]
    · intro c ch hch hm
      exact ⟨(h.chanD c ch hch hm).1, fun e he => Or.inl ((h.chanD c ch hch hm).2 e he)⟩
    · intro c ch hch hm e he
      obtain ⟨h1, h2⟩ := h.chanO c ch hch hm e he
      refine ⟨fun hd => hd.elim h1 fun e' => ?_, h2⟩
      exact Nat.lt_irrefl _ (e' ▸ h.chanLt _ _ _ hch he)
    · intro x hm
      rw [h.exec x hm]
      cases hx : s.exec x with
      | none => rfl
      | some ex =>
        obtain ⟨k', hd, ph⟩ := ex
        cases ph with
        | done r => rfl
        | waiting e => simp [Exec.map, ExecPhase.map, hagree e ((h.execD _ _ _ _ hx).1 hm)]
    · intro x k' hd e hx
      rw [h.execD x k' hd e hx]
      refine ⟨Or.inl, fun hd => hd.resolve_right fun e' => ?_⟩
      exact Nat.lt_irrefl _ (e' ▸ h.execLt _ _ _ _ hx)
    · intro e he
      rcases he with he | rfl
      · show s'.cell (upd ρ s.next s'.next e) = s.cell e
        rw [hagree e he]; exact h.cell e he
      · show s'.cell (upd ρ s.next s'.next s.next) = s.cell s.next
        rw [upd_same, h.fresh _ (Nat.le_refl _), h.fresh' _ (Nat.le_refl _)]
    · intro e td c hv ht
      rw [h.tx e td c hv ht]
      refine ⟨Or.inl, fun hd => hd.resolve_right fun e' => ?_⟩
      have := h.fresh e (by omega)
      rw [this] at hv; cases hv
    · exact h.metrics
    · intro e e₂ he he₂ heq
      rcases he with he | rfl <;> rcases he₂ with he₂ | rfl
      · rw [hagree e he, hagree e₂ he₂] at heq; exact h.inj e e₂ he he₂ heq
      · rw [hagree e he, upd_same] at heq
        exact absurd (h.lt e he).2 (by omega)
      · rw [hagree e₂ he₂, upd_same] at heq
        exact absurd (h.lt e₂ he₂).2 (by omega)
      · rfl
    · intro e he
      rcases he with he | rfl
      · rw [hagree e he]
        exact ⟨Nat.lt_succ_of_lt (h.lt e he).1, Nat.lt_succ_of_lt (h.lt e he).2⟩
      · rw [upd_same]
        exact ⟨Nat.lt_succ_self _, Nat.lt_succ_self _⟩
    · intro k' e' hce
      simp only [upd] at hce
      split at hce
      · cases hce; exact Nat.lt_succ_self _
      · exact Nat.lt_succ_of_lt (h.cacheLt _ _ hce)
    · intro c ch e hch he
      exact Nat.lt_succ_of_lt (h.chanLt c ch e hch he)
    · intro x k' hd e hx
      exact Nat.lt_succ_of_lt (h.execLt x k' hd e hx)
    · intro e he
      exact h.fresh e (Nat.le_of_succ_le he)
    · intro e he
      exact h.fresh' e (Nat.le_of_succ_le he)

/-- Fetching the entry of another task. -/
theorem Sim.fetchOther (h : Sim own mc mx D ρ s s') (k : Key) (hk : own k = false) :
    Sim own mc mx D ρ (getWith s k).1 s' ∧ ¬ D (getWith s k).2 ∧ (getWith s k).2 < (getWith s k).1.next := by
  cases hc : s.cache k with
  | some e =>
    rw [getWith_some hc]
    refine ⟨h, fun hd => ?_, h.cacheLt _ _ hc⟩
    rw [(h.cacheD k e hc).2 hd] at hk; cases hk
  | none =>
    rw [getWith_none hc]
    have hnD : ¬ D s.next := fun hd => Nat.lt_irrefl _ (h.lt _ hd).1
    refine ⟨?_, hnD, Nat.lt_succ_self _⟩
    have hne : ∀ k', own k' = true → k' ≠ k := fun k' h1 h2 => by rw [h2, hk] at h1; cases h1
    refine { h with cache := ?_, cacheD := ?_, lt := ?_, cacheLt := ?_, chanLt := ?_, execLt := ?_, fresh := ?_ }
    · intro k' hk'
      simp only [upd_ne (hne k' hk')]
      exact h.cache k' hk'
    · intro k' e' hce
      simp only [upd] at hce
      split at hce
      · rename_i e; subst e
        cases hce
        simp [hk, hnD]
      · exact h.cacheD k' e' hce
    · intro e he
      exact ⟨Nat.lt_succ_of_lt (h.lt e he).1, (h.lt e he).2⟩
    · intro k' e' hce
      simp only [upd] at hce
      split at hce
      · cases hce; exact Nat.lt_succ_self _
      · exact Nat.lt_succ_of_lt (h.cacheLt _ _ hce)
    · intro c ch e hch he
      exact Nat.lt_succ_of_lt (h.chanLt c ch e hch he)
    · intro x k' hd e hx
      exact Nat.lt_succ_of_lt (h.execLt x k' hd e hx)
    · intro e he
      exact h.fresh e (Nat.le_of_succ_le he)

/-- Changing one of the channels. -/
theorem Sim.setChan (h : Sim own mc mx D ρ s s') (c : Nat) (hm : mc c = true) (k : Key) (hk : own k = true)
    (ph : ChanPhase) (hd : ∀ e, ph.entry = some e → D e) :
    Sim own mc mx D ρ { s with chan := upd s.chan c (some ⟨k, ph⟩) }
      { s' with chan := upd s'.chan c (some ⟨k, ph.map ρ⟩) } := by
  have hact : ∀ e, ph.active = some e → ph.entry = some e := by
    intro e he; cases ph <;> simp_all [ChanPhase.active, ChanPhase.entry]
  refine { h with chan := ?_, chanD := ?_, chanO := ?_, chanLt := ?_ }
  · intro c' hm'
    simp only [upd]
    split
    · rfl
    · exact h.chan c' hm'
  · intro c' ch hch hm'
    simp only [upd] at hch
    split at hch
    · cases hch; exact ⟨hk, hd⟩
    · exact h.chanD c' ch hch hm'
  · intro c' ch hch hm'
    simp only [upd] at hch
    split at hch
    · rename_i e; subst e; rw [hm] at hm'; cases hm'
    · exact h.chanO c' ch hch hm'
  · intro c' ch e hch he
    simp only [upd] at hch
    split at hch
    · cases hch; exact (h.lt e (hd e (hact e he))).1
    · exact h.chanLt c' ch e hch he

/-- Changing another channel. -/
theorem Sim.setChanOther (h : Sim own mc mx D ρ s s') (c : Nat) (hm : mc c = false) (k : Key)
    (ph : ChanPhase) (hd : ∀ e, ph.active = some e → ¬ D e ∧ own k = false ∧ e < s.next) :
    Sim own mc mx D ρ { s with chan := upd s.chan c (some ⟨k, ph⟩) } s' := by
  refine { h with chan := ?_, chanD := ?_, chanO := ?_, chanLt := ?_ }
  · intro c' hm'
    have : c' ≠ c := fun e => by rw [e, hm] at hm'; cases hm'
    simp only [upd_ne this]
    exact h.chan c' hm'
  · intro c' ch hch hm'
    have : c' ≠ c := fun e => by rw [e, hm] at hm'; cases hm'
    simp only [upd_ne this] at hch
    exact h.chanD c' ch hch hm'
  · intro c' ch hch hm' e he
    simp only [upd] at hch
    split at hch
    · cases hch; exact ⟨(hd e he).1, (hd e he).2.1⟩
    · exact h.chanO c' ch hch hm' e he
  · intro c' ch e hch he
    simp only [upd] at hch
    split at hch
    · cases hch; exact (hd e he).2.2
    · exact h.chanLt c' ch e hch he

/-- Changing one of the requests. -/
theorem Sim.setExec (h : Sim own mc mx D ρ s s') (x : Nat) (hm : mx x = true) (k : Key) (hd : Head)
    (ph : ExecPhase Plan) (hp : ∀ e, ph = .waiting e → D e) :
    Sim own mc mx D ρ { s with exec := upd s.exec x (some ⟨k, hd, ph⟩) }
      { s' with exec := upd s'.exec x (some ⟨k, hd, ph.map ρ⟩) } := by
  refine { h with exec := ?_, execD := ?_, execLt := ?_ }
  · intro x' hm'
    simp only [upd]
    split
    · rfl
    · exact h.exec x' hm'
  · intro x' k' hd' e hx
    simp only [upd] at hx
    split at hx
    · rename_i e'; subst e'; cases hx; simp [hm, hp e rfl]
    · exact h.execD x' k' hd' e hx
  · intro x' k' hd' e hx
    simp only [upd] at hx
    split at hx
    · cases hx; exact (h.lt e (hp e rfl)).1
    · exact h.execLt x' k' hd' e hx

/-- Changing another request. -/
theorem Sim.setExecOther (h : Sim own mc mx D ρ s s') (x : Nat) (hm : mx x = false) (k : Key) (hd : Head)
    (ph : ExecPhase Plan) (hp : ∀ e, ph = .waiting e → ¬ D e ∧ e < s.next) :
    Sim own mc mx D ρ { s with exec := upd s.exec x (some ⟨k, hd, ph⟩) } s' := by
  refine { h with exec := ?_, execD := ?_, execLt := ?_ }
  · intro x' hm'
    have : x' ≠ x := fun e => by rw [e, hm] at hm'; cases hm'
    simp only [upd_ne this]
    exact h.exec x' hm'
  · intro x' k' hd' e hx
    simp only [upd] at hx
    split at hx
    · rename_i e'; subst e'; cases hx; simp [hm, (hp e rfl).1]
    · exact h.execD x' k' hd' e hx
  · intro x' k' hd' e hx
    simp only [upd] at hx
    split at hx
    · cases hx; exact (hp e rfl).2
    · exact h.execLt x' k' hd' e hx

/-- Writing to an entry of one of the tasks. -/
theorem Sim.setCell (h : Sim own mc mx D ρ s s') (e : Nat) (hd : D e) (v : Cell (Except Err (TaskData Plan)))
    (htx : ∀ td c, v.value = some (.ok td) → td.metricsTx = some c → mc c = true) :
    Sim own mc mx D ρ { s with cell := upd s.cell e v } { s' with cell := upd s'.cell (ρ e) v } := by
  refine { h with cell := ?_, tx := ?_, fresh := ?_, fresh' := ?_ }
  · intro e₂ h₂
    by_cases heq : e₂ = e
    · subst heq; simp [upd]
    · have : ρ e₂ ≠ ρ e := fun q => heq (h.inj _ _ h₂ hd q)
      simp only [upd_ne heq, upd_ne this]
      exact h.cell e₂ h₂
  · intro e₂ td c hv ht
    simp only [upd] at hv
    split at hv
    · rename_i e'; subst e'; simp [hd, htx td c hv ht]
    · exact h.tx e₂ td c hv ht
  · intro e₂ he
    have : e₂ ≠ e := fun q => absurd (h.lt e hd).1 (by subst q; exact Nat.not_lt.2 he)
    simp only [upd_ne this]
    exact h.fresh e₂ he
  · intro e₂ he
    have : e₂ ≠ ρ e := fun q => absurd (h.lt e hd).2 (by rw [← q]; exact Nat.not_lt.2 he)
    simp only [upd_ne this]
    exact h.fresh' e₂ he

/-- Writing to another entry. -/
theorem Sim.setCellOther (h : Sim own mc mx D ρ s s') (e : Nat) (hd : ¬ D e) (hlt : e < s.next)
    (v : Cell (Except Err (TaskData Plan))) (htx : ∀ td c, v.value = some (.ok td) → td.metricsTx = some c → mc c = false) :
    Sim own mc mx D ρ { s with cell := upd s.cell e v } s' := by
  refine { h with cell := ?_, tx := ?_, fresh := ?_ }
  · intro e₂ h₂
    have : e₂ ≠ e := fun q => hd (q ▸ h₂)
    simp only [upd_ne this]
    exact h.cell e₂ h₂
  · intro e₂ td c hv ht
    simp only [upd] at hv
    split at hv
    · rename_i e'; subst e'; simp [hd, htx td c hv ht]
    · exact h.tx e₂ td c hv ht
  · intro e₂ he
    have : e₂ ≠ e := fun q => absurd hlt (by subst q; exact Nat.not_lt.2 he)
    simp only [upd_ne this]
    exact h.fresh e₂ he

/-- Sending the metrics of one of the tasks. -/
theorem Sim.send (h : Sim own mc mx D ρ s s') (td : TaskData Plan) :
    Sim own mc mx D ρ { s with metrics := sendMetrics td s.metrics } { s' with metrics := sendMetrics td s'.metrics } := by
  refine { h with metrics := ?_ }
  intro c hm
  unfold sendMetrics
  split
  · simp only [upd]
    split
    · rename_i e; subst e; rw [h.metrics _ hm]
    · exact h.metrics c hm
  · exact h.metrics c hm

/-- Sending the metrics of another task. -/
theorem Sim.sendOther (h : Sim own mc mx D ρ s s') (td : TaskData Plan) (ht : ∀ c, td.metricsTx = some c → mc c = false) :
    Sim own mc mx D ρ { s with metrics := sendMetrics td s.metrics } s' := by
  refine { h with metrics := ?_ }
  intro c hm
  unfold sendMetrics
  split
  · rename_i c0 p e1 e2
    have : c ≠ c0 := fun e => by have := ht c0 e1; rw [← e, hm] at this; cases this
    simp only [upd_ne this]
    exact h.metrics c hm
  · exact h.metrics c hm

/-- Removing the entry of one of the tasks. -/
theorem Sim.remove (h : Sim own mc mx D ρ s s') (k : Key) :
    Sim own mc mx D ρ { s with cache := upd s.cache k none } { s' with cache := upd s'.cache k none } := by
  refine { h with cache := ?_, cacheD := ?_, cacheLt := ?_ }
  · intro k' hk'
    simp only [upd]
    split
    · rfl
    · exact h.cache k' hk'
  · intro k' e hc
    simp only [upd] at hc
    split at hc
    · cases hc
    · exact h.cacheD k' e hc
  · intro k' e hc
    simp only [upd] at hc
    split at hc
    · cases hc
    · exact h.cacheLt k' e hc

/-- Removing the entry of another task. -/
theorem Sim.removeOther (h : Sim own mc mx D ρ s s') (k : Key) (hk : own k = false) :
    Sim own mc mx D ρ { s with cache := upd s.cache k none } s' := by
  refine { h with cache := ?_, cacheD := ?_, cacheLt := ?_ }
  · intro k' hk'
    have : k' ≠ k := fun e => by rw [e, hk] at hk'; cases hk'
    simp only [upd_ne this]
    exact h.cache k' hk'
  · intro k' e hc
    simp only [upd] at hc
    split at hc
    · cases hc
    · exact h.cacheD k' e hc
  · intro k' e hc
    simp only [upd] at hc
    split at hc
    · cases hc
    · exact h.cacheLt k' e hc

theorem Sim.crash (h : Sim own mc mx D ρ s s') (insert : Head → Plan → Except Err Plan) :
    Sim own mc mx D ρ (step insert s .crash) (step insert s' .crash) := by
  have hent : ∀ (ph : ChanPhase) e, ph.afterCrash.entry = some e → ph.entry = some e := by
    intro ph e he; cases ph <;> simp_all [ChanPhase.afterCrash, ChanPhase.entry]
  have hact : ∀ (ph : ChanPhase) e, ph.afterCrash.active ≠ some e := by
    intro ph e he; cases ph <;> simp_all [ChanPhase.afterCrash, ChanPhase.active]
  have hwait : ∀ x k hd e, (s.exec x).map Exec.afterCrash ≠ some ⟨k, hd, .waiting e⟩ := by
    intro x k hd e he
    cases hx : s.exec x with
    | none => rw [hx] at he; cases he
    | some ex =>
      rw [hx] at he
      obtain ⟨k', hd', ph⟩ := ex
      cases ph <;> simp [Exec.afterCrash] at he
  refine { h with cache := ?_, cacheD := ?_, chan := ?_, chanD := ?_, chanO := ?_, exec := ?_, execD := ?_, cacheLt := ?_, chanLt := ?_, execLt := ?_ }
  · intro k _; rfl
  · intro k e hc; cases hc
  · intro c hm
    simp only [step]
    rw [h.chan c hm]
    cases s.chan c with
    | none => rfl
    | some ch => simp [Chan.map, ChanPhase.afterCrash_map]
  · intro c ch hch hm
    simp only [step] at hch
    cases hc : s.chan c with
    | none => rw [hc] at hch; cases hch
    | some ch0 =>
      rw [hc] at hch
      cases hch
      exact ⟨(h.chanD c ch0 hc hm).1, fun e he => (h.chanD c ch0 hc hm).2 e (hent _ e he)⟩
  · intro c ch hch hm e he
    simp only [step] at hch
    cases hc : s.chan c with
    | none => rw [hc] at hch; cases hch
    | some ch0 =>
      rw [hc] at hch
      cases hch
      exact absurd he (hact _ e)
  · intro x hm
    simp only [step]
    rw [h.exec x hm]
    cases s.exec x with
    | none => rfl
    | some ex => simp [Exec.afterCrash_map]
  · intro x k hd e hx
    exact absurd hx (hwait x k hd e)
  · intro k e hc; cases hc
  · intro c ch e hch he
    simp only [step] at hch
    cases hc : s.chan c with
    | none => rw [hc] at hch; cases hch
    | some ch0 =>
      rw [hc] at hch
      cases hch
      exact absurd he (hact _ e)
  · intro x k hd e hx
    exact absurd hx (hwait x k hd e)

/-- An event of the query, on both workers. -/
theorem Sim.stepOf (h : Sim own mc mx D ρ s s') (insert : Head → Plan → Except Err Plan) (st : Step Key Plan Head)
    (hf : st.Fits own mc mx) (hm : st.of own mc mx = true) :
    ∃ D' ρ', Sim own mc mx D' ρ' (step insert s st) (step insert s' st) := by
  cases st with
  | openChannel c k =>
    simp only [Step.Fits, Step.of] at hf hm
    have hmc : mc c = true := by rw [hf, hm]
    have hch := h.chan c hmc
    cases hc : s.chan c with
    | some ch =>
      rw [hc] at hch
      simp only [step, hc, hch, Option.map_some]
      exact ⟨D, ρ, h⟩
    | none =>
      rw [hc] at hch
      simp only [step, hc, hch, Option.map_none]
      obtain ⟨D', ρ', h', hd, he⟩ := h.fetch k hm
      rw [he]
      refine ⟨D', ρ', h'.setChan c hmc k hm (.gotEntry _) ?_⟩
      intro e q; cases q; exact hd
  | setPlan c r =>
    have hch := h.chan c hm
    cases hc : s.chan c with
    | none => rw [hc] at hch; simp only [step, hc, hch, Option.map_none]; exact ⟨D, ρ, h⟩
    | some ch =>
      rw [hc] at hch
      obtain ⟨k, ph⟩ := ch
      obtain ⟨hk, hent⟩ := h.chanD c _ hc hm
      cases ph with
      | gotEntry e =>
        have hd := hent e rfl
        simp only [step, hc, hch, Option.map_some, Chan.map, ChanPhase.map, h.cell e hd]
        cases hv : (s.cell e).value with
        | some v =>
          simp only [Cell.write, hv]
          exact ⟨D, ρ, h.setChan c hm k hk (.failed _) (fun e q => by cases q)⟩
        | none =>
          simp only [Cell.write, hv]
          refine ⟨D, ρ, ?_⟩
          cases r with
          | ok pc =>
            refine (h.setCell e hd ⟨some (.ok ⟨pc.1, none, if pc.2 then some c else none⟩)⟩ ?_).setChan c hm k hk (.running e) ?_
            · intro td c' q1 q2
              cases q1
              simp only at q2
              split at q2
              · cases q2; exact hm
              · cases q2
            · intro e' q; cases q; exact hd
          | error er =>
            refine (h.setCell e hd ⟨some (.error er)⟩ ?_).setChan c hm k hk (.failed er) ?_
            · intro td c' q1; cases q1
            · intro e' q; cases q
      | _ => simp only [step, hc, hch, Option.map_some, Chan.map, ChanPhase.map]; exact ⟨D, ρ, h⟩
  | eos c =>
    have hch := h.chan c hm
    cases hc : s.chan c with
    | none => rw [hc] at hch; simp only [step, hc, hch, Option.map_none]; exact ⟨D, ρ, h⟩
    | some ch =>
      rw [hc] at hch
      obtain ⟨k, ph⟩ := ch
      obtain ⟨hk, hent⟩ := h.chanD c _ hc hm
      cases ph with
      | running e =>
        have hd := hent e rfl
        simp only [step, hc, hch, Option.map_some, Chan.map, ChanPhase.map, h.cell e hd]
        cases hv : (s.cell e).value with
        | none => exact ⟨D, ρ, h⟩
        | some v =>
          cases v with
          | error er => exact ⟨D, ρ, h⟩
          | ok td =>
            refine ⟨D, ρ, ((h.send td).setCell e hd ⟨some (.ok { td with metricsTx := none })⟩ ?_).setChan c hm k hk (.ended e) ?_⟩
            · intro td c' q1 q2; cases q1; cases q2
            · intro e' q; cases q; exact hd
      | _ => simp only [step, hc, hch, Option.map_some, Chan.map, ChanPhase.map]; exact ⟨D, ρ, h⟩
  | invalidate c =>
    have hch := h.chan c hm
    cases hc : s.chan c with
    | none => rw [hc] at hch; simp only [step, hc, hch, Option.map_none]; exact ⟨D, ρ, h⟩
    | some ch =>
      rw [hc] at hch
      obtain ⟨k, ph⟩ := ch
      obtain ⟨hk, hent⟩ := h.chanD c _ hc hm
      cases ph with
      | ended e =>
        simp only [step, hc, hch, Option.map_some, Chan.map, ChanPhase.map]
        refine ⟨D, ρ, (h.remove k).setChan c hm k hk (.closed e) ?_⟩
        intro e' q; cases q; exact hent e rfl
      | _ => simp only [step, hc, hch, Option.map_some, Chan.map, ChanPhase.map]; exact ⟨D, ρ, h⟩
  | openExec x k hd =>
    simp only [Step.Fits, Step.of] at hf hm
    have hmx : mx x = true := by rw [hf, hm]
    have hex := h.exec x hmx
    cases hc : s.exec x with
    | some ex =>
      rw [hc] at hex
      simp only [step, hc, hex, Option.map_some]
      exact ⟨D, ρ, h⟩
    | none =>
      rw [hc] at hex
      simp only [step, hc, hex, Option.map_none]
      obtain ⟨D', ρ', h', hd', he⟩ := h.fetch k hm
      rw [he]
      refine ⟨D', ρ', h'.setExec x hmx k hd (.waiting _) ?_⟩
      intro e q; cases q; exact hd'
  | pollExec x expired =>
    have hex := h.exec x hm
    cases hc : s.exec x with
    | none => rw [hc] at hex; simp only [step, hc, hex, Option.map_none]; exact ⟨D, ρ, h⟩
    | some ex =>
      rw [hc] at hex
      obtain ⟨k, hd, ph⟩ := ex
      cases ph with
      | done r => simp only [step, hc, hex, Option.map_some, Exec.map, ExecPhase.map]; exact ⟨D, ρ, h⟩
      | waiting e =>
        have hde := (h.execD x k hd e hc).1 hm
        simp only [step, hc, hex, Option.map_some, Exec.map, ExecPhase.map, h.cell e hde, Cell.pollRead]
        cases hv : (s.cell e).value with
        | none =>
          cases expired with
          | false => exact ⟨D, ρ, h⟩
          | true => exact ⟨D, ρ, h.setExec x hm k hd (.done _) (fun e q => by cases q)⟩
        | some v =>
          cases v with
          | error er => exact ⟨D, ρ, h.setExec x hm k hd (.done _) (fun e q => by cases q)⟩
          | ok td =>
            refine ⟨D, ρ, (h.setCell e hde ⟨some (.ok (td.plan insert hd).1)⟩ ?_).setExec x hm k hd (.done _) (fun e q => by cases q)⟩
            intro td' c q1 q2
            cases q1
            have : td.metricsTx = some c := by
              unfold TaskData.plan at q2; split at q2 <;> exact q2
            exact (h.tx e td c hv this).2 hde
  | evict k => exact ⟨D, ρ, h.remove k⟩
  | crash => exact ⟨D, ρ, h.crash insert⟩

/-- An event of another query, which the other worker does not see. -/
theorem Sim.stepOther (h : Sim own mc mx D ρ s s') (insert : Head → Plan → Except Err Plan) (st : Step Key Plan Head)
    (hf : st.Fits own mc mx) (hm : st.of own mc mx = false) :
    Sim own mc mx D ρ (step insert s st) s' := by
  cases st with
  | openChannel c k =>
    simp only [Step.Fits, Step.of] at hf hm
    have hmc : mc c = false := by rw [hf, hm]
    simp only [step]
    cases hc : s.chan c with
    | some ch => exact h
    | none =>
      obtain ⟨h', hd, hl⟩ := h.fetchOther k hm
      refine h'.setChanOther c hmc k (.gotEntry _) ?_
      intro e q; cases q; exact ⟨hd, hm, hl⟩
  | setPlan c r =>
    simp only [step]
    cases hc : s.chan c with
    | none => exact h
    | some ch =>
      obtain ⟨k, ph⟩ := ch
      cases ph with
      | gotEntry e =>
        obtain ⟨hd, hk⟩ := h.chanO c _ hc hm e rfl
        have hl := h.chanLt c _ e hc rfl
        cases hv : (s.cell e).value with
        | some v =>
          simp only [Cell.write, hv]
          exact h.setChanOther c hm k (.failed _) (fun e q => by cases q)
        | none =>
          simp only [Cell.write, hv]
          cases r with
          | ok pc =>
            refine (h.setCellOther e hd hl ⟨some (.ok ⟨pc.1, none, if pc.2 then some c else none⟩)⟩ ?_).setChanOther c hm k (.running e) ?_
            · intro td c' q1 q2
              cases q1
              simp only at q2
              split at q2
              · cases q2; exact hm
              · cases q2
            · intro e' q; cases q; exact ⟨hd, hk, hl⟩
          | error er =>
            refine (h.setCellOther e hd hl ⟨some (.error er)⟩ ?_).setChanOther c hm k (.failed er) ?_
            · intro td c' q1; cases q1
            · intro e' q; cases q
      | _ => exact h
  | eos c =>
    simp only [step]
    cases hc : s.chan c with
    | none => exact h
    | some ch =>
      obtain ⟨k, ph⟩ := ch
      cases ph with
      | running e =>
        obtain ⟨hd, hk⟩ := h.chanO c _ hc hm e rfl
        have hl := h.chanLt c _ e hc rfl
        simp only
        cases hv : (s.cell e).value with
        | none => exact h
        | some v =>
          cases v with
          | error er => exact h
          | ok td =>
            refine ((h.sendOther td ?_).setCellOther e hd hl ⟨some (.ok { td with metricsTx := none })⟩ ?_).setChanOther c hm k (.ended e) ?_
            · intro c' q
              have := h.tx e td c' hv q
              cases hb : mc c' with
              | false => rfl
              | true => exact absurd (this.1 hb) hd
            · intro td c' q1 q2; cases q1; cases q2
            · intro e' q; cases q; exact ⟨hd, hk, hl⟩
      | _ => exact h
  | invalidate c =>
    simp only [step]
    cases hc : s.chan c with
    | none => exact h
    | some ch =>
      obtain ⟨k, ph⟩ := ch
      cases ph with
      | ended e =>
        obtain ⟨hd, hk⟩ := h.chanO c _ hc hm e rfl
        exact (h.removeOther k hk).setChanOther c hm k (.closed e) (fun e q => by cases q)
      | _ => exact h
  | openExec x k hd =>
    simp only [Step.Fits, Step.of] at hf hm
    have hmx : mx x = false := by rw [hf, hm]
    simp only [step]
    cases hc : s.exec x with
    | some ex => exact h
    | none =>
      obtain ⟨h', hd', hl⟩ := h.fetchOther k hm
      refine h'.setExecOther x hmx k hd (.waiting _) ?_
      intro e q; cases q; exact ⟨hd', hl⟩
  | pollExec x expired =>
    simp only [step]
    cases hc : s.exec x with
    | none => exact h
    | some ex =>
      obtain ⟨k, hd, ph⟩ := ex
      cases ph with
      | done r => exact h
      | waiting e =>
        have hde : ¬ D e := fun q => by
          have := (h.execD x k hd e hc).2 q
          simp only [Step.of] at hm
          rw [hm] at this; cases this
        have hl := h.execLt x k hd e hc
        simp only [Cell.pollRead]
        cases hv : (s.cell e).value with
        | none =>
          cases expired with
          | false => exact h
          | true => exact h.setExecOther x hm k hd (.done _) (fun e q => by cases q)
        | some v =>
          cases v with
          | error er => exact h.setExecOther x hm k hd (.done _) (fun e q => by cases q)
          | ok td =>
            refine (h.setCellOther e hde hl ⟨some (.ok (td.plan insert hd).1)⟩ ?_).setExecOther x hm k hd (.done _) (fun e q => by cases q)
            intro td' c q1 q2
            cases q1
            have : td.metricsTx = some c := by
              unfold TaskData.plan at q2; split at q2 <;> exact q2
            cases hb : mc c with
            | false => rfl
            | true => exact absurd ((h.tx e td c hv this).1 hb) hde
  | evict k => exact h.removeOther k hm
  | crash => cases hm

theorem Sim.run (insert : Head → Plan → Except Err Plan) : ∀ (steps : List (Step Key Plan Head))
    {D : Nat → Prop} {ρ : Nat → Nat} {s s' : State Key Plan Head}, Sim own mc mx D ρ s s' →
    (∀ st ∈ steps, st.Fits own mc mx) →
    ∃ D' ρ', Sim own mc mx D' ρ' (Worker.run insert s steps) (Worker.run insert s' (steps.filter (Step.of own mc mx)))
  | [], D, ρ, _, _, h, _ => ⟨D, ρ, h⟩
  | st :: steps, D, ρ, s, s', h, hf => by
    have hf' := fun st h => hf st (List.mem_cons_of_mem _ h)
    cases hm : st.of own mc mx with
    | true =>
      obtain ⟨D', ρ', h'⟩ := h.stepOf insert st (hf st List.mem_cons_self) hm
      rw [List.filter_cons_of_pos hm]
      exact Sim.run insert steps h' hf'
    | false =>
      have h' := h.stepOther insert st (hf st List.mem_cons_self) hm
      rw [List.filter_cons_of_neg (by simp [hm])]
      exact Sim.run insert steps h' hf'

theorem Sim.view_eq (h : Sim own mc mx D ρ s s') : s.view mc mx = s'.view mc mx := by
  simp only [State.view, View.mk.injEq]
  refine ⟨funext fun c => ?_, funext fun c => ?_, funext fun x => ?_⟩
  · cases hm : mc c with
    | false => rfl
    | true =>
      rw [h.chan c hm]
      cases s.chan c with
      | none => rfl
      | some ch => simp [Chan.map, ChanPhase.map_seen]
  · cases hm : mc c with
    | false => rfl
    | true => simp [h.metrics c hm]
  · cases hm : mx x with
    | false => rfl
    | true =>
      rw [h.exec x hm]
      cases s.exec x with
      | none => rfl
      | some ex => simp [Exec.map, ExecPhase.map_seen]

end DD.Worker
