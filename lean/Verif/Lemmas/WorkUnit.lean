/-
Invariant of the work unit pipeline (`Model/WorkUnit.lean`).
-/
import Verif.Model.WorkUnit
import Verif.Lemmas.Worker

namespace DD.WU

open DD.Worker (upd upd_same upd_ne)

variable {U : Type}

/-- The units of key `k` in a batch. -/
def unitsFor (k : Key) (us : List (Key × U)) : List U :=
  us.filterMap fun u => if u.1 = k then some u.2 else none

/-- The units of key `k` in the messages in flight. -/
def wireFor (k : Key) : List (Msg U) → List U
  | [] => []
  | .batch us :: rest => unitsFor k us ++ wireFor k rest
  | .eos :: rest => wireFor k rest

/-- The items of partition `p` in a chunk. -/
def chunkFor (p : Nat) (c : List (Nat × Except Err U)) : List (Except Err U) :=
  c.filterMap fun x => if x.1 = p then some x.2 else none

def hasEos : List (Msg U) → Bool
  | [] => false
  | .eos :: _ => true
  | .batch _ :: rest => hasEos rest

theorem wireFor_append (k : Key) (a b : List (Msg U)) :
    wireFor k (a ++ b) = wireFor k a ++ wireFor k b := by
  induction a with
  | nil => rfl
  | cons m rest ih => cases m <;> simp [wireFor, ih]

theorem hasEos_append (a b : List (Msg U)) : hasEos (a ++ b) = (hasEos a || hasEos b) := by
  induction a with
  | nil => rfl
  | cons m rest ih => cases m <;> simp [hasEos, ih]

theorem buildBatch_ok (id : Nat) (c : List (Nat × Except Err U)) (us : List (Key × U))
    (h : buildBatch id c = .ok us) (k : Key) :
    (unitsFor k us).map Except.ok = if k.1 = id then chunkFor k.2 c else [] := by
  induction c generalizing us with
  | nil =>
    simp only [buildBatch, Except.ok.injEq] at h
    subst h
    simp [unitsFor, chunkFor]
  | cons x rest ih =>
    obtain ⟨p, x⟩ := x
    cases x with
    | error e => simp [buildBatch] at h
    | ok u =>
      simp only [buildBatch] at h
      split at h
      · next us' hus =>
        simp only [Except.ok.injEq] at h
        subst h
        have := ih us' hus
        obtain ⟨a, b⟩ := k
        by_cases hid : a = id
        · subst hid
          by_cases hp : p = b
          · subst hp
            simpa [unitsFor, chunkFor] using this
          · simp only [unitsFor, chunkFor, List.filterMap_cons, Prod.mk.injEq, true_and, hp, if_false,
              if_true] at this ⊢
            exact this
        · have hid' : ¬ id = a := fun h => hid h.symm
          simp only [unitsFor, chunkFor, List.filterMap_cons, Prod.mk.injEq, hid', false_and, if_false,
            hid] at this ⊢
          exact this
      · cases h

theorem foldl_deliver (declared rxDropped : Key → Bool) (us : List (Key × U)) (q : Key → List U)
    (k : Key) : us.foldl (deliverUnit declared rxDropped) q k =
      if declared k && !rxDropped k then q k ++ unitsFor k us else q k := by
  induction us generalizing q with
  | nil => simp [unitsFor]
  | cons u rest ih =>
    rw [List.foldl_cons, ih]
    unfold deliverUnit unitsFor
    by_cases hk : u.1 = k
    · subst hk
      cases hd : (declared u.1 && !rxDropped u.1) <;> simp [upd_same]
    · have hk' : k ≠ u.1 := fun h => hk h.symm
      cases hd : (declared u.1 && !rxDropped u.1) <;>
        cases hd' : (declared k && !rxDropped k) <;> simp [upd_ne hk', hk]

/-- What is on its way to the receivers. -/
def flight (s : State U) (k : Key) : List U :=
  if s.sendersAlive then wireFor k s.wire else []

structure Inv (nodes : List (Node U)) (cut : Bool) (s : State U) : Prop where
  running : cut = false → s.phase = .running →
    s.sendersAlive = true ∧ s.connected = true ∧ hasEos s.wire = false ∧
    ∀ k, declaredBy nodes k = true → s.rxDropped k = false →
      (s.got k ++ s.queue k ++ flight s k).map Except.ok ++ chunkFor k.2 (s.chunk k.1)
        ++ s.remaining k = feedOf nodes k
  finished : cut = false → s.phase = .finished →
    ∀ k, declaredBy nodes k = true → s.rxDropped k = false →
      (s.got k ++ s.queue k ++ flight s k).map Except.ok = feedOf nodes k
  pre : ∀ k, declaredBy nodes k = true → s.rxDropped k = false →
      (s.got k ++ s.queue k ++ flight s k).map Except.ok <+: feedOf nodes k
  dropped : ∀ k, declaredBy nodes k = true → (s.got k).map Except.ok <+: feedOf nodes k
  undeclared : ∀ k, declaredBy nodes k = false → s.got k = [] ∧ s.queue k = [] ∧ s.sawEnd k = false
  cutDead : cut = true → s.connected = false
  disconnected : s.connected = false → s.sendersAlive = false
  eosLast : hasEos s.wire = true → ∃ ws, s.wire = ws ++ [.eos] ∧ hasEos ws = false
  dead : s.sendersAlive = false → s.wire = [] ∧ (s.phase ≠ .running ∨ s.connected = false)
  ended : ∀ k, s.sawEnd k = true → s.sendersAlive = false ∧ s.queue k = []

theorem inv_init (nodes : List (Node U)) : Inv nodes false (init nodes) := by
  constructor <;> simp [init, hasEos, flight, wireFor, chunkFor]

theorem eosLast_tail {m : Msg U} {rest : List (Msg U)}
    (h : hasEos (m :: rest) = true → ∃ ws, m :: rest = ws ++ [.eos] ∧ hasEos ws = false) :
    hasEos rest = true → ∃ ws, rest = ws ++ [.eos] ∧ hasEos ws = false := by
  intro hr
  cases m with
  | eos =>
    obtain ⟨ws, h1, h2⟩ := h rfl
    cases ws with
    | nil => simp at h1; subst h1; simp [hasEos] at hr
    | cons a as =>
      simp only [List.cons_append, List.cons.injEq] at h1
      obtain ⟨rfl, -⟩ := h1
      simp [hasEos] at h2
  | batch us =>
    obtain ⟨ws, h1, h2⟩ := h (by simpa [hasEos] using hr)
    cases ws with
    | nil => simp at h1
    | cons a as =>
      simp only [List.cons_append, List.cons.injEq] at h1
      obtain ⟨rfl, h1⟩ := h1
      exact ⟨as, h1, by simpa [hasEos] using h2⟩

/-- While the sending task runs and the stream is up, nothing was cut. -/
theorem Inv.cut_false {nodes : List (Node U)} {cut : Bool} {s : State U} (h : Inv nodes cut s)
    (hc : s.connected = true) : cut = false := by
  cases cut with
  | false => rfl
  | true => have := h.cutDead rfl; rw [hc] at this; cases this

/-- The sending task stops, for whatever reason, and its guard sends the end-of-feed message. -/
theorem Inv.stop {nodes : List (Node U)} {cut : Bool} {s : State U} (h : Inv nodes cut s)
    (hp : s.phase = .running) (ph : Phase) (hph : ph ≠ .running)
    (hfin : ph = .finished → ∀ k, declaredBy nodes k = true →
      s.chunk k.1 = [] ∧ s.remaining k = []) :
    Inv nodes cut { s with phase := ph, wire := sendMsg s .eos } := by
  have hfl : ∀ k, flight { s with phase := ph, wire := sendMsg s .eos } k = flight s k := by
    intro k
    simp only [flight, sendMsg]
    cases s.connected <;> simp [wireFor_append, wireFor]
  refine ⟨fun _ hr => absurd hr hph, ?_, ?_, h.dropped, h.undeclared, h.cutDead, h.disconnected,
    ?_, ?_, h.ended⟩
  · intro hc hf k hd hx
    rw [hfl k]
    obtain ⟨-, -, -, hk⟩ := h.running hc hp
    obtain ⟨q1, q2⟩ := hfin hf k hd
    have := hk k hd hx
    rw [q1, q2] at this
    simpa [chunkFor] using this
  · intro k hd hx
    rw [hfl k]
    exact h.pre k hd hx
  · intro he
    simp only [sendMsg] at he ⊢
    cases hcon : s.connected with
    | true =>
      simp only [if_true]
      exact ⟨s.wire, rfl, (h.running (h.cut_false hcon) hp).2.2.1⟩
    | false =>
      rw [hcon] at he
      exact h.eosLast he
  · intro ha
    simp only at ha
    obtain ⟨q1, q2⟩ := h.dead ha
    have hcon : s.connected = false := by
      rcases q2 with q | q
      · exact absurd hp q
      · exact q
    exact ⟨by simp [sendMsg, hcon, q1], Or.inr hcon⟩

theorem inv_step (nodes : List (Node U)) {cut : Bool} {s : State U} (h : Inv nodes cut s)
    (st : Step) :
    Inv nodes (cut || (match st with | .close => s.sendersAlive | _ => false))
      (step nodes (declaredBy nodes) s st) := by
  cases st with
  | pull id p =>
    simp only [Bool.or_false]
    simp only [step]
    split
    · next x rest hp hr =>
      refine ⟨?_, ?_, h.pre, h.dropped, h.undeclared, h.cutDead, h.disconnected, h.eosLast, h.dead,
        h.ended⟩
      · intro hc _
        obtain ⟨ha, hcon, he, hk⟩ := h.running hc hp
        refine ⟨ha, hcon, he, ?_⟩
        intro k hd hx
        have hthis := hk k hd hx
        show ((s.got k ++ s.queue k ++ flight s k).map Except.ok ++ chunkFor k.2 (upd s.chunk id _ k.1))
          ++ upd s.remaining (id, p) rest k = _
        obtain ⟨a, b⟩ := k
        by_cases hid : a = id
        · subst hid
          rw [upd_same]
          by_cases hpb : b = p
          · subst hpb
            rw [upd_same]
            rw [hr] at hthis
            simpa [chunkFor] using hthis
          · have hne : (a, b) ≠ (a, p) := by simp [hpb]
            rw [upd_ne hne]
            have hpb' : ¬ p = b := fun h => hpb h.symm
            simp only [chunkFor, List.filterMap_append, List.filterMap_cons, hpb', if_false,
              List.filterMap_nil, List.append_nil]
            exact hthis
        · have hne : (a, b) ≠ (id, p) := by simp [hid]
          rw [upd_ne hne, upd_ne hid]
          exact hthis
      · intro hc hf
        simp only [hp] at hf
        cases hf
    · exact h
  | flush id =>
    simp only [Bool.or_false]
    simp only [step]
    split
    · next c cs hp hcs =>
      split
      · next us hus =>
        have hb := buildBatch_ok id _ us hus
        cases hcon : s.connected with
        | true =>
          have hcf := h.cut_false hcon
          subst hcf
          obtain ⟨ha, -, he, hk⟩ := h.running rfl hp
          simp only [if_true, sendMsg, hcon]
          refine ⟨?_, ?_, ?_, h.dropped, h.undeclared, by simp, by simp, ?_, ?_, h.ended⟩
          · intro _ _
            refine ⟨ha, rfl, by simp [hasEos_append, he, hasEos], ?_⟩
            intro k hd hx
            have hthis := hk k hd hx
            simp only [flight, ha, if_true] at hthis ⊢
            rw [wireFor_append]
            simp only [wireFor, List.append_nil]
            by_cases hid : k.1 = id
            · rw [hid, upd_same]
              rw [hid, hcs] at hthis
              have hbk := hb k
              rw [if_pos hid] at hbk
              simp only [List.map_append, chunkFor, List.filterMap_nil, List.append_nil,
                List.append_assoc] at hthis ⊢ hbk
              rw [hbk]
              exact hthis
            · rw [upd_ne hid]
              have hbk := hb k
              rw [if_neg hid] at hbk
              have hnil : unitsFor k us = [] := by simpa using hbk
              rw [hnil]
              simpa using hthis
          · intro _ hf
            simp only [hp] at hf
            cases hf
          · intro k hd hx
            have hthis := hk k hd hx
            simp only [flight, ha, if_true] at hthis ⊢
            rw [wireFor_append]
            simp only [wireFor, List.append_nil]
            by_cases hid : k.1 = id
            · rw [hid, hcs] at hthis
              have hbk := hb k
              rw [if_pos hid] at hbk
              refine ⟨s.remaining k, ?_⟩
              simp only [List.map_append, List.append_assoc] at hthis ⊢
              rw [hbk]
              exact hthis
            · have hbk := hb k
              rw [if_neg hid] at hbk
              have hnil : unitsFor k us = [] := by simpa using hbk
              rw [hnil, List.append_nil]
              have := h.pre k hd hx
              simpa only [flight, ha, if_true] using this
          · intro he'
            simp only [hasEos_append, he] at he'
            simp [hasEos] at he'
          · intro hf
            simp only [ha] at hf
            cases hf
        | false =>
          simp only [Bool.false_eq_true, if_false]
          have hdis := h.disconnected hcon
          refine ⟨?_, ?_, h.pre, h.dropped, h.undeclared, fun _ => rfl, fun _ => hdis, h.eosLast,
            fun hd => ⟨(h.dead hd).1, Or.inr rfl⟩, h.ended⟩
          · intro hc hr
            have := (h.running hc hp).2.1
            rw [hcon] at this; cases this
          · intro hc hf
            simp only [hp] at hf
            cases hf
      · next e he => exact h.stop hp .failed (by simp) (by simp)
    · exact h
  | finish =>
    simp only [Bool.or_false]
    simp only [step]
    split
    · next hp =>
      split
      · next hall =>
        refine h.stop hp .finished (by simp) ?_
        intro _ k hd
        rw [List.all_eq_true] at hall
        simp only [declaredBy, List.any_eq_true, Bool.and_eq_true, beq_iff_eq,
          decide_eq_true_eq] at hd
        obtain ⟨n, hn, hid, hlt⟩ := hd
        have := hall n hn
        simp only [Bool.and_eq_true, List.isEmpty_iff, List.all_eq_true, List.mem_range] at this
        refine ⟨hid ▸ this.1, ?_⟩
        have h2 := this.2 k.2 hlt
        rw [hid] at h2
        exact h2
      · exact h
    · exact h
  | abort =>
    simp only [Bool.or_false]
    simp only [step]
    split
    · next hp => exact h.stop hp .failed (by simp) (by simp)
    · exact h
  | deliver =>
    simp only [Bool.or_false]
    simp only [step]
    split
    · exact h
    · next rest hw =>
      have hrest : rest = [] := by
        obtain ⟨ws, q1, q2⟩ := h.eosLast (by rw [hw]; rfl)
        rw [hw] at q1
        cases ws with
        | nil => simpa using q1
        | cons a as =>
          simp only [List.cons_append, List.cons.injEq] at q1
          obtain ⟨rfl, -⟩ := q1
          simp [hasEos] at q2
      subst hrest
      have ha : s.sendersAlive = true := by
        cases hh : s.sendersAlive with
        | true => rfl
        | false => have := (h.dead hh).1; rw [hw] at this; cases this
      have hcon : s.connected = true := by
        cases hh : s.connected with
        | true => rfl
        | false => have := h.disconnected hh; rw [ha] at this; cases this
      have hcf := h.cut_false hcon
      subst hcf
      have hnr : s.phase ≠ .running := by
        intro hp
        have := (h.running rfl hp).2.2.1
        rw [hw] at this
        simp [hasEos] at this
      have hfl : ∀ k, flight s k = [] := by
        intro k; simp [flight, ha, hw, wireFor]
      refine ⟨fun _ hr => absurd hr hnr, ?_, ?_, h.dropped, h.undeclared, by simp,
        (fun hc => absurd hc (by simp [hcon])), by simp [hasEos],
        fun _ => ⟨rfl, Or.inl hnr⟩, fun k hk => ⟨rfl, (h.ended k hk).2⟩⟩
      · intro _ hf k hd hx
        have := h.finished rfl hf k hd hx
        rw [hfl k] at this
        simpa [flight] using this
      · intro k hd hx
        have := h.pre k hd hx
        rw [hfl k] at this
        simpa [flight] using this
    · next us rest hw =>
      have ha : s.sendersAlive = true := by
        cases hh : s.sendersAlive with
        | true => rfl
        | false => have := (h.dead hh).1; rw [hw] at this; cases this
      rw [if_pos ha]
      have hmove : ∀ k, declaredBy nodes k = true → s.rxDropped k = false →
          s.got k ++ us.foldl (deliverUnit (declaredBy nodes) s.rxDropped) s.queue k ++ wireFor k rest
            = s.got k ++ s.queue k ++ flight s k := by
        intro k hd hx
        rw [foldl_deliver]
        simp [hd, hx, flight, ha, hw, wireFor]
      refine ⟨?_, ?_, ?_, h.dropped, ?_, h.cutDead, h.disconnected, ?_, ?_, ?_⟩
      · intro hc hp
        obtain ⟨-, hcon, he, hk⟩ := h.running hc hp
        rw [hw] at he
        refine ⟨ha, hcon, by simpa [hasEos] using he, ?_⟩
        intro k hd hx
        have hthis := hk k hd hx
        rw [← hmove k hd hx] at hthis
        simpa only [flight, ha, if_true] using hthis
      · intro hc hp k hd hx
        have hthis := h.finished hc hp k hd hx
        rw [← hmove k hd hx] at hthis
        simpa only [flight, ha, if_true] using hthis
      · intro k hd hx
        have hthis := h.pre k hd hx
        rw [← hmove k hd hx] at hthis
        simpa only [flight, ha, if_true] using hthis
      · intro k hd
        obtain ⟨q1, q2, q3⟩ := h.undeclared k hd
        refine ⟨q1, ?_, q3⟩
        simp only [foldl_deliver, hd, Bool.false_and, Bool.false_eq_true, if_false]
        exact q2
      · exact eosLast_tail (by rw [← hw]; exact h.eosLast)
      · intro hf; simp only [ha] at hf; cases hf
      · intro k hk
        have := (h.ended k hk).1
        rw [ha] at this; cases this
  | close =>
    simp only [step]
    refine ⟨?_, ?_, ?_, h.dropped, h.undeclared, fun _ => rfl, fun _ => rfl, by simp [hasEos],
      fun _ => ⟨rfl, Or.inr rfl⟩, fun k hk => ⟨rfl, (h.ended k hk).2⟩⟩
    · intro hc hp
      simp only [Bool.or_eq_false_iff] at hc
      have := (h.running hc.1 hp).1
      rw [hc.2] at this; cases this
    · intro hc hp k hd hx
      simp only [Bool.or_eq_false_iff] at hc
      have := h.finished hc.1 hp k hd hx
      simpa [flight, hc.2] using this
    · intro k hd hx
      have := h.pre k hd hx
      simp only [flight, Bool.false_eq_true, if_false, List.append_nil]
      refine List.IsPrefix.trans ?_ this
      exact ⟨(flight s k).map Except.ok, by simp⟩
  | recv k0 =>
    simp only [Bool.or_false]
    simp only [step]
    split
    · exact h
    · next hcond =>
      simp only [Bool.or_eq_true, Bool.not_eq_true', not_or, Bool.not_eq_true,
        Bool.not_eq_false] at hcond
      obtain ⟨hx0, hd0⟩ := hcond
      split
      · next u rest hq =>
        have hmove : ∀ k, upd s.got k0 (s.got k0 ++ [u]) k ++ upd s.queue k0 rest k
            = s.got k ++ s.queue k := by
          intro k
          by_cases hk : k = k0
          · subst hk; rw [upd_same, upd_same, hq]; simp
          · rw [upd_ne hk, upd_ne hk]
        refine ⟨?_, ?_, ?_, ?_, ?_, h.cutDead, h.disconnected, h.eosLast, h.dead, ?_⟩
        · intro hc hp
          obtain ⟨ha, hcon, he, hk⟩ := h.running hc hp
          refine ⟨ha, hcon, he, ?_⟩
          intro k hd hx
          show ((upd s.got k0 (s.got k0 ++ [u]) k ++ upd s.queue k0 rest k ++ flight s k).map Except.ok) ++ _ ++ _ = _; rw [hmove]
          exact hk k hd hx
        · intro hc hp k hd hx
          show ((upd s.got k0 (s.got k0 ++ [u]) k ++ upd s.queue k0 rest k ++ flight s k).map Except.ok) = _; rw [hmove]
          exact h.finished hc hp k hd hx
        · intro k hd hx
          show ((upd s.got k0 (s.got k0 ++ [u]) k ++ upd s.queue k0 rest k ++ flight s k).map Except.ok) <+: _; rw [hmove]
          exact h.pre k hd hx
        · intro k hd
          by_cases hk : k = k0
          · subst hk
            have := h.pre k hd0 hx0
            rw [hq] at this
            simp only [upd_same]
            refine List.IsPrefix.trans ?_ this
            exact ⟨(rest ++ flight s k).map Except.ok, by simp⟩
          · simp only [upd_ne hk]; exact h.dropped k hd
        · intro k hd
          have hk : k ≠ k0 := by rintro rfl; rw [hd] at hd0; cases hd0
          simp only [upd_ne hk]
          exact h.undeclared k hd
        · intro k hk
          obtain ⟨q1, q2⟩ := h.ended k hk
          have hne : k ≠ k0 := by rintro rfl; rw [hq] at q2; cases q2
          simp only [upd_ne hne]
          exact ⟨q1, q2⟩
      · next hq =>
        split
        · exact h
        · next ha =>
          have ha : s.sendersAlive = false := by simpa using ha
          refine ⟨h.running, h.finished, h.pre, h.dropped, ?_, h.cutDead, h.disconnected, h.eosLast,
            h.dead, ?_⟩
          · intro k hd
            have hk : k ≠ k0 := by rintro rfl; rw [hd] at hd0; cases hd0
            simp only [upd_ne hk]
            exact h.undeclared k hd
          · intro k hk
            by_cases hkk : k = k0
            · subst hkk; exact ⟨ha, hq⟩
            · simp only [upd_ne hkk] at hk
              exact h.ended k hk
  | dropRx k0 =>
    simp only [Bool.or_false]
    simp only [step]
    have hne : ∀ k, upd s.rxDropped k0 true k = false → k ≠ k0 ∧ s.rxDropped k = false := by
      intro k hk
      by_cases h : k = k0
      · subst h; rw [upd_same] at hk; cases hk
      · rw [upd_ne h] at hk; exact ⟨h, hk⟩
    have hq : ∀ k, s.queue k = [] → upd s.queue k0 [] k = [] := by
      intro k hk
      by_cases h : k = k0
      · subst h; exact upd_same _ _ _
      · rw [upd_ne h]; exact hk
    refine ⟨?_, ?_, ?_, h.dropped, ?_, h.cutDead, h.disconnected, h.eosLast, h.dead, ?_⟩
    · intro hc hp
      obtain ⟨ha, hcon, he, hk⟩ := h.running hc hp
      refine ⟨ha, hcon, he, ?_⟩
      intro k hd hx
      obtain ⟨h1, h2⟩ := hne k hx
      simp only [upd_ne h1]
      exact hk k hd h2
    · intro hc hp k hd hx
      obtain ⟨h1, h2⟩ := hne k hx
      simp only [upd_ne h1]
      exact h.finished hc hp k hd h2
    · intro k hd hx
      obtain ⟨h1, h2⟩ := hne k hx
      simp only [upd_ne h1]
      exact h.pre k hd h2
    · intro k hd
      obtain ⟨q1, q2, q3⟩ := h.undeclared k hd
      exact ⟨q1, hq k q2, q3⟩
    · intro k hk
      obtain ⟨q1, q2⟩ := h.ended k hk
      exact ⟨q1, hq k q2⟩

end DD.WU
