import Mathlib.Algebra.BigOperators.Group.Finset.Basic
import Mathlib.Data.List.Induction
import Verif.Spec.Traffic
/-
C85: what an exchange reports about its traffic is what happened.
-/
namespace DD.Traffic
open Demux

variable {α : Type}

/-! ### Arrivals -/

theorem fanout_wire (s : State α) (e : Err) : (fanout s e).wire = s.wire := rfl

theorem send_wire (s : State α) (i n : Nat) (a : α) : (send s i n a).wire = s.wire := by
  unfold send; split <;> rfl

/-- A message that is taken off the wire is its first one. -/
theorem taskStep_wire (c : Cfg α) (s : State α) :
    (taskStep c s).wire = s.wire ∨ ∃ w, s.wire = w :: (taskStep c s).wire := by
  unfold taskStep
  split
  · exact .inl rfl
  split
  · exact .inl rfl
  · split
    · exact .inl rfl
    split
    · split <;> exact .inl rfl
    · exact .inl rfl
  · split
    · exact .inl rfl
    split
    · exact .inl rfl
    split
    · exact .inl rfl
    · next e ws h => exact .inr ⟨_, h⟩
    · next ws h => exact .inr ⟨_, h⟩
    · next p size a ws h =>
      split
      · exact .inr ⟨_, h⟩
      split
      · exact .inr ⟨.msg p size a, by rw [send_wire]; exact h⟩
      · exact .inr ⟨_, h⟩

theorem pollStep_wire (c : Cfg α) (s : State α) (i : Nat) : (pollStep c s i).wire = s.wire := by
  unfold pollStep
  split
  · dsimp only
    split
    · rfl
    · split <;> rfl
  · rfl

theorem step_wire (c : Cfg α) (s : State α) (x : Step) :
    (Demux.step c s x).wire = s.wire ∨ (x = .task ∧ ∃ w, s.wire = w :: (Demux.step c s x).wire) := by
  cases x with
  | task => rcases taskStep_wire c s with h | h; exacts [.inl h, .inr ⟨rfl, h⟩]
  | poll i => exact .inl (pollStep_wire c s i)
  | dropInner i => left; show (dropInner c s i).wire = _; unfold dropInner; split <;> rfl
  | dropCallback i => left; show (dropCallback c s i).wire = _; unfold dropCallback; split <;> rfl
  | crash => exact .inl rfl

theorem took_none (c : Cfg α) (s : State α) (x : Step × Nat) (h : (Demux.step c s x.1).wire = s.wire) : took c s x = [] := by
  unfold took; rw [h, if_neg (Nat.lt_irrefl _)]

theorem took_some (c : Cfg α) (s : State α) (x : Step × Nat) (w : Wire α) (h : s.wire = w :: (Demux.step c s x.1).wire) :
    took c s x = [(w, x.2)] := by
  unfold took
  rw [if_pos (by rw [h]; simp), h]; rfl

theorem run_append (created rows : α → Nat) (c : Cfg α) (l : List (Step × Nat)) (x : Step × Nat) :
    run created rows c (l ++ [x]) = step created rows c (run created rows c l) x := by
  unfold run; rw [List.foldl_append]; rfl

theorem arrivals_append (c : Cfg α) (l : List (Step × Nat)) (x : Step × Nat) :
    ∀ s, arrivals c s (l ++ [x]) = arrivals c s l ++ took c (Demux.run c s (l.map (·.1))) x := by
  induction l with
  | nil => intro s; simp [arrivals, Demux.run]
  | cons y l ih => intro s; simp only [List.cons_append, arrivals, ih, List.map_cons, List.append_assoc]; rfl

theorem run_conn (created rows : α → Nat) (c : Cfg α) (l : List (Step × Nat)) :
    (run created rows c l).conn = Demux.run c (init c) (l.map (·.1)) := by
  induction l using List.reverseRecOn with
  | nil => rfl
  | append_singleton l x ih =>
    rw [run_append, List.map_append, Demux.run, List.foldl_append]
    show Demux.step c (run created rows c l).conn x.1 = _
    rw [ih]; rfl

/-- **C85**: what arrives is what the worker sent, from the beginning and without gaps. -/
theorem C85_arrivals (c : Cfg α) (l : List (Step × Nat)) :
    (arrivals c (init c) l).map (·.1) ++ (Demux.run c (init c) (l.map (·.1))).wire = c.sent := by
  induction l using List.reverseRecOn with
  | nil => rfl
  | append_singleton l x ih =>
    rw [arrivals_append, List.map_append, List.map_append]
    have : Demux.run c (init c) (List.map (·.1) l ++ List.map (·.1) [x]) = Demux.step c (Demux.run c (init c) (l.map (·.1))) x.1 := by
      unfold Demux.run; rw [List.foldl_append]; rfl
    rw [this]
    generalize Demux.run c (init c) (l.map (·.1)) = s at *
    rcases step_wire c s x.1 with h | ⟨_, w, h⟩
    · rw [took_none c s x h, h]; simpa using ih
    · rw [took_some c s x w h, ← ih, h]; simp

/-! ### What the metrics hold -/

/-- What one arrival does to the metrics. -/
def note (created : α → Nat) (c : Cfg α) (held : Nat) (m : Meter) (a : Wire α × Nat) : Meter :=
  let m := match delay created a with | some d => m.addLatency d | none => m
  match sizeOf c a.1 with | some size => m.buffer held size | none => m

theorem meterTask_eq (created : α → Nat) (c : Cfg α) (s : State α) (now : Nat) (m : Meter) :
    meterTask created c s now m = (took c s (.task, now)).foldl (note created c s.reserved) m := by
  have key : ∀ w ws, s.wire = w :: ws → (taskStep c s).wire = ws →
      (took c s (.task, now)) = [(w, now)] := fun w ws h h2 => took_some c s (.task, now) w (by rw [h]; exact congrArg _ h2.symm)
  have none : (taskStep c s).wire = s.wire → took c s (.task, now) = [] := took_none c s (.task, now)
  unfold meterTask
  by_cases ha : s.aborted
  · rw [if_pos ha, none (by unfold taskStep; rw [if_pos ha])]; rfl
  rw [if_neg ha]
  cases hp : s.phase with
  | done => rw [none (by unfold taskStep; rw [if_neg ha, hp])]; rfl
  | waiting =>
    rw [none (by
      unfold taskStep; rw [if_neg ha, hp]; dsimp only
      split
      · rfl
      split
      · split <;> rfl
      · rfl)]; rfl
  | running =>
    dsimp only
    by_cases hc : s.cancelled
    · rw [if_pos hc, none (by unfold taskStep; rw [if_neg ha, hp]; dsimp only; rw [if_pos hc])]; rfl
    rw [if_neg hc]
    by_cases hb : s.reserved ≥ c.budget
    · rw [if_pos hb, none (by unfold taskStep; rw [if_neg ha, hp]; dsimp only; rw [if_neg hc, if_pos hb])]; rfl
    rw [if_neg hb]
    have ht : taskStep c s = match s.wire with
      | [] => { s with phase := .done }
      | .err e :: ws => fanout { s with wire := ws } e
      | .badMeta :: ws => fanout { s with wire := ws } (.internal "flight metadata")
      | .msg p size a :: ws =>
        if p < c.start then fanout { s with wire := ws } (.internal "partition out of range")
        else if p - c.start < c.n then send { s with wire := ws } (p - c.start) size a
        else fanout { s with wire := ws } (.internal "partition out of range") := by
      unfold taskStep; rw [if_neg ha, hp]; dsimp only; rw [if_neg hc, if_neg hb]; rfl
    cases hw : s.wire with
    | nil => rw [none (by rw [ht, hw])]; rfl
    | cons w ws =>
      cases w with
      | err e => rw [key _ ws hw (by rw [ht, hw]; rfl)]; rfl
      | badMeta => rw [key _ ws hw (by rw [ht, hw]; rfl)]; rfl
      | msg p size a =>
        rw [key _ ws hw (by
          rw [ht, hw]; dsimp only
          split
          · rfl
          split
          · rw [send_wire]
          · rfl)]
        dsimp only [List.foldl_cons, List.foldl_nil, note, delay, sizeOf, Meter.receive, Times.messageLatency]
        by_cases h1 : p < c.start
        · rw [if_pos h1, if_neg (by omega : ¬ (c.start ≤ p ∧ p < c.start + c.n))]; rfl
        · rw [if_neg h1]
          by_cases h2 : p - c.start < c.n
          · rw [if_pos h2, if_pos (by omega : c.start ≤ p ∧ p < c.start + c.n)]; rfl
          · rw [if_neg h2, if_neg (by omega : ¬ (c.start ≤ p ∧ p < c.start + c.n))]; rfl

/-- The metrics other than the rows change with arrivals only. -/
theorem step_meter (created rows : α → Nat) (c : Cfg α) (s : Metered α) (x : Step × Nat) :
    ∃ r, (step created rows c s x).meter =
      { (took c s.conn x).foldl (note created c s.conn.reserved) s.meter with rows := r } := by
  obtain ⟨x, now⟩ := x
  have none : x ≠ .task → took c s.conn (x, now) = [] := fun h =>
    took_none c s.conn (x, now) ((step_wire c s.conn x).resolve_right (fun h2 => h h2.1))
  cases x with
  | task => exact ⟨_, by show meterTask created c s.conn now s.meter = _; rw [meterTask_eq]⟩
  | poll i =>
    rw [none (by simp)]
    show ∃ r, meterPoll rows c s.conn i s.meter = _
    unfold meterPoll
    split
    · split
      · exact ⟨_, rfl⟩
      · exact ⟨_, rfl⟩
    · exact ⟨_, rfl⟩
  | dropInner i => rw [none (by simp)]; exact ⟨_, rfl⟩
  | dropCallback i => rw [none (by simp)]; exact ⟨_, rfl⟩
  | crash => rw [none (by simp)]; exact ⟨_, rfl⟩

/-- At most one message arrives in a step. -/
theorem took_cases (c : Cfg α) (s : State α) (x : Step × Nat) : took c s x = [] ∨ ∃ a, took c s x = [a] := by
  rcases step_wire c s x.1 with h | ⟨_, w, h⟩
  · exact .inl (took_none c s x h)
  · exact .inr ⟨_, took_some c s x w h⟩

theorem note_messages (created : α → Nat) (c : Cfg α) (held : Nat) (m : Meter) (a : Wire α × Nat) :
    (note created c held m a).messages = m.messages + (sizeOf c a.1).toList.length ∧
    (note created c held m a).bytes % 2 ^ 64 = (m.bytes + (sizeOf c a.1).toList.sum) % 2 ^ 64 ∧
    (m.bytes < 2 ^ 64 → (note created c held m a).bytes < 2 ^ 64) := by
  have h : ∀ m : Meter, (match delay created a with | some d => m.addLatency d | none => m).messages = m.messages ∧
      (match delay created a with | some d => m.addLatency d | none => m).bytes = m.bytes := by
    intro m; cases delay created a <;> exact ⟨rfl, rfl⟩
  unfold note
  dsimp only
  cases sizeOf c a.1 with
  | none => simp [h]
  | some size =>
    dsimp only [Meter.buffer, MetricKind.record]
    rw [(h m).1, (h m).2]
    refine ⟨by simp, by simp [wordSize], fun _ => Nat.mod_lt _ (by decide)⟩

/-- **C85**: the messages and bytes a connection reports are those that have arrived for the partitions that were asked for. -/
theorem C85_messages (created rows : α → Nat) (c : Cfg α) (l : List (Step × Nat)) :
    let sizes := (arrivals c (init c) l).filterMap fun a => sizeOf c a.1
    (run created rows c l).meter.messages = sizes.length ∧ (run created rows c l).meter.bytes = sizes.sum % 2 ^ 64 := by
  dsimp only
  induction l using List.reverseRecOn with
  | nil => exact ⟨rfl, rfl⟩
  | append_singleton l x ih =>
    rw [run_append, arrivals_append, ← run_conn created rows]
    obtain ⟨r, hr⟩ := step_meter created rows c (run created rows c l) x
    rw [hr]
    rcases took_cases c (run created rows c l).conn x with h | ⟨a, h⟩
    · rw [h]; simpa using ih
    · rw [h]
      obtain ⟨h1, h2, h3⟩ := note_messages created c (run created rows c l).conn.reserved (run created rows c l).meter a
      have hlt := h3 (by rw [ih.2]; exact Nat.mod_lt _ (by decide))
      rw [Nat.mod_eq_of_lt hlt] at h2
      constructor
      · show (note created c _ _ a).messages = _
        rw [h1, ih.1, List.filterMap_append, List.length_append]
        congr 1
      · show (note created c _ _ a).bytes = _
        rw [h2, ih.2, List.filterMap_append, List.sum_append, Nat.mod_add_mod]
        congr 2

/-- **C85**: a connection that has received everything a worker sent reports all its messages and bytes, however often the
partitions were read or dropped. -/
theorem C85_all_messages (created rows : α → Nat) (c : Cfg α) (l : List (Step × Nat))
    (hend : (run created rows c l).conn.wire = []) (hok : ∀ w ∈ c.sent, ∃ size, sizeOf c w = some size) :
    (run created rows c l).meter.messages = c.sent.length ∧
      (run created rows c l).meter.bytes = (c.sent.filterMap (sizeOf c)).sum % 2 ^ 64 := by
  have h := C85_arrivals c l
  rw [← run_conn created rows, hend, List.append_nil] at h
  have h2 := C85_messages created rows c l
  dsimp only at h2
  have h3 : (arrivals c (init c) l).filterMap (fun a => sizeOf c a.1) = c.sent.filterMap (sizeOf c) := by
    rw [← h, List.filterMap_map]; rfl
  rw [h3] at h2
  refine ⟨?_, h2.2⟩
  rw [h2.1]
  clear h h2 h3 hend
  generalize c.sent = sent at hok ⊢
  induction sent with
  | nil => rfl
  | cons w ws ih =>
    obtain ⟨size, hs⟩ := hok w (by simp)
    simp [hs, ih fun w hw => hok w (by simp [hw])]

/-! ### Latencies -/

theorem note_latencies (created : α → Nat) (c : Cfg α) (held : Nat) (m : Meter) (a : Wire α × Nat) :
    (note created c held m a).latencies = match delay created a with
      | some d => some ((m.latencies.getD {}).add d) | none => m.latencies := by
  unfold note
  dsimp only
  cases sizeOf c a.1 <;> cases delay created a <;> rfl

theorem describes_one (d : Nat) : Describes (({} : Latencies).add d) [d] where
  any := by simp
  count := rfl
  total := by simp [Latencies.add, wordSize]
  first := by simp [Latencies.add, MetricKind.record, MetricKind.empty]
  most_ge := by simp [Latencies.add, MetricKind.record, MetricKind.empty]; omega
  most_mem := ⟨d, by simp, by simp [Latencies.add, MetricKind.record, MetricKind.empty]⟩
  least_le := by simp only [List.mem_singleton, forall_eq]; exact Nat.min_le_right _ _
  least_mem := fun h => ⟨d, by simp, by
    have := h d (by simp)
    simp only [Latencies.add, MetricKind.record, MetricKind.empty, wordSize]; omega⟩

theorem describes_add (l : Latencies) (ds : List Nat) (d : Nat) (h : Describes l ds) : Describes (l.add d) (ds ++ [d]) where
  any := by simp
  count := by simp [Latencies.add, h.count]
  total := by simp [Latencies.add, wordSize, h.total]
  first := by
    have hf := h.first
    cases ds with
    | nil => exact absurd rfl h.any
    | cons e es =>
      simp only [List.head?_cons, Option.map_some, Option.some.injEq, List.cons_append] at hf ⊢
      rw [hf]
      have : l.first ≠ 0 := by omega
      simp [Latencies.add, MetricKind.record, this]
  most_ge := by
    intro e he
    have : (l.add d).most = max l.most (max d 1) := rfl
    rw [this]
    rcases List.mem_append.1 he with he | he
    · exact Nat.le_trans (h.most_ge e he) (Nat.le_max_left _ _)
    · rw [List.mem_singleton.1 he]; exact Nat.le_max_right _ _
  most_mem := by
    have : (l.add d).most = max l.most (max d 1) := rfl
    rw [this]
    obtain ⟨e, he, hm⟩ := h.most_mem
    by_cases hle : l.most ≤ max d 1
    · exact ⟨d, by simp, (Nat.max_eq_right hle).symm⟩
    · exact ⟨e, by simp [he], by rw [hm]; exact (Nat.max_eq_left (by omega)).symm⟩
  least_le := by
    intro e he
    have : (l.add d).least = min l.least (max d 1) := rfl
    rw [this]
    rcases List.mem_append.1 he with he | he
    · exact Nat.le_trans (Nat.min_le_left _ _) (h.least_le e he)
    · rw [List.mem_singleton.1 he]; exact Nat.min_le_right _ _
  least_mem := by
    intro hs
    have : (l.add d).least = min l.least (max d 1) := rfl
    rw [this]
    obtain ⟨e, he, hm⟩ := h.least_mem fun x hx => hs x (by simp [hx])
    by_cases hle : max d 1 ≤ l.least
    · exact ⟨d, by simp, (Nat.min_eq_right hle).symm⟩
    · exact ⟨e, by simp [he], by rw [hm]; exact (Nat.min_eq_left (by omega)).symm⟩

/-- **C85**: the latencies a connection reports are those of the messages that have arrived; nothing is reported if no message
had a known one. -/
theorem C85_latencies (created rows : α → Nat) (c : Cfg α) (l : List (Step × Nat)) :
    let delays := (arrivals c (init c) l).filterMap (delay created)
    match (run created rows c l).meter.latencies with
    | none => delays = []
    | some ls => Describes ls delays := by
  dsimp only
  induction l using List.reverseRecOn with
  | nil => exact rfl
  | append_singleton l x ih =>
    rw [run_append, arrivals_append, ← run_conn created rows]
    obtain ⟨r, hr⟩ := step_meter created rows c (run created rows c l) x
    rw [hr]
    rcases took_cases c (run created rows c l).conn x with h | ⟨a, h⟩
    · rw [h]; simpa using ih
    · rw [h, List.filterMap_append]
      dsimp only [List.foldl_cons, List.foldl_nil]
      rw [note_latencies]
      cases hd : delay created a with
      | none => simpa [hd] using ih
      | some d =>
        have h1 : List.filterMap (delay created) [a] = [d] := by simp [hd]
        rw [h1]
        dsimp only
        cases hl : (run created rows c l).meter.latencies with
        | none => rw [hl] at ih; dsimp only at ih; rw [ih]; exact describes_one d
        | some ls => rw [hl] at ih; exact describes_add ls _ d ih

/-! ### Memory -/

theorem note_maxMem (created : α → Nat) (c : Cfg α) (held : Nat) (m : Meter) (a : Wire α × Nat) :
    (note created c held m a).maxMem = match sizeOf c a.1 with
      | some size => max m.maxMem (held + size) | none => m.maxMem := by
  have h : (match delay created a with | some d => m.addLatency d | none => m).maxMem = m.maxMem := by
    cases delay created a <;> rfl
  unfold note
  dsimp only
  cases sizeOf c a.1 with
  | none => exact h
  | some size =>
    dsimp only [Meter.buffer]
    rw [h]
    split
    · exact (Nat.max_eq_right (by omega)).symm
    · exact (Nat.max_eq_left (by omega)).symm

/-- A step that takes in a message: the gate was open, and what is held grows by its size or not at all. -/
theorem took_reserved (c : Cfg α) (s : State α) (x : Step × Nat) (a : Wire α × Nat) (h : took c s x = [a]) :
    s.reserved < c.budget ∧ (Demux.step c s x.1).reserved ≤ s.reserved + (sizeOf c a.1).toList.sum := by
  obtain ⟨x, now⟩ := x
  rcases step_wire c s x with h2 | ⟨rfl, w, h2⟩
  · rw [took_none c s (x, now) h2] at h; exact absurd h (by simp)
  rw [took_some c s (.task, now) w h2] at h
  obtain rfl : (w, now) = a := by simpa using h
  have hne : (taskStep c s).wire ≠ s.wire := fun e => by
    have h2 : s.wire = w :: (taskStep c s).wire := h2
    rw [e] at h2
    have := congrArg List.length h2
    simp at this
  have hhd : s.wire.head? = some w := by rw [h2]; rfl
  show _ ∧ (taskStep c s).reserved ≤ _
  revert hne
  unfold taskStep
  split
  · exact fun hne => absurd rfl hne
  split
  · exact fun hne => absurd rfl hne
  · split
    · exact fun hne => absurd rfl hne
    split
    · split <;> exact fun hne => absurd rfl hne
    · exact fun hne => absurd rfl hne
  · split
    · exact fun hne => absurd rfl hne
    split
    · exact fun hne => absurd rfl hne
    next hb =>
    intro _
    refine ⟨by omega, ?_⟩
    split
    · exact Nat.le_add_right _ _
    · exact Nat.le_add_right _ _
    · exact Nat.le_add_right _ _
    · next p size a ws hw =>
      rw [hw] at hhd
      obtain rfl : Wire.msg p size a = w := by simpa using hhd
      split
      · exact Nat.le_add_right _ _
      split
      · rw [sizeOf, if_pos (by omega)]
        unfold send
        split
        · exact Nat.le_of_eq (by simp)
        · exact Nat.le_add_right _ _
      · exact Nat.le_add_right _ _

/-- What is held grows only by messages. -/
theorem reserved_le (c : Cfg α) (s : State α) (x : Step × Nat) (h : took c s x = []) :
    (Demux.step c s x.1).reserved ≤ s.reserved := by
  obtain ⟨x, now⟩ := x
  cases x with
  | task =>
    have hw : (taskStep c s).wire = s.wire := by
      rcases taskStep_wire c s with h2 | ⟨w, h2⟩
      · exact h2
      · rw [took_some c s (.task, now) w h2] at h; exact absurd h (by simp)
    show (taskStep c s).reserved ≤ _
    revert hw
    unfold taskStep
    split
    · exact fun _ => Nat.le_refl _
    split
    · exact fun _ => Nat.le_refl _
    · split
      · exact fun _ => Nat.le_refl _
      split
      · split <;> exact fun _ => Nat.le_refl _
      · exact fun _ => Nat.le_refl _
    · split
      · exact fun _ => Nat.le_refl _
      split
      · exact fun _ => Nat.le_refl _
      split
      · exact fun _ => Nat.le_refl _
      · exact fun _ => Nat.le_refl _
      · exact fun _ => Nat.le_refl _
      · next p size a ws hw =>
        split
        · exact fun _ => Nat.le_refl _
        split
        · intro e
          rw [send_wire, hw] at e
          exact absurd (congrArg List.length e) (by simp)
        · exact fun _ => Nat.le_refl _
  | poll i =>
    show (pollStep c s i).reserved ≤ _
    unfold pollStep
    split
    · dsimp only
      split
      · exact Nat.sub_le _ _
      · split <;> exact Nat.le_refl _
    · exact Nat.le_refl _
  | dropInner i => show (dropInner c s i).reserved ≤ _; unfold dropInner; split <;> exact Nat.le_refl _
  | dropCallback i => show (dropCallback c s i).reserved ≤ _; unfold dropCallback; split <;> exact Nat.le_refl _
  | crash => exact Nat.le_refl _

theorem maxMem_step (created rows : α → Nat) (c : Cfg α) (s : Metered α) (x : Step × Nat)
    (h : s.conn.reserved ≤ s.meter.maxMem) :
    s.meter.maxMem ≤ (step created rows c s x).meter.maxMem ∧
      (step created rows c s x).conn.reserved ≤ (step created rows c s x).meter.maxMem := by
  obtain ⟨r, hr⟩ := step_meter created rows c s x
  rw [hr]
  show _ ∧ (Demux.step c s.conn x.1).reserved ≤ _
  rcases took_cases c s.conn x with h2 | ⟨a, h2⟩
  · rw [h2]
    exact ⟨Nat.le_refl _, Nat.le_trans (reserved_le c s.conn x h2) h⟩
  · have h3 := (took_reserved c s.conn x a h2).2
    rw [h2]
    show _ ≤ (note created c s.conn.reserved s.meter a).maxMem ∧ _ ≤ (note created c s.conn.reserved s.meter a).maxMem
    rw [note_maxMem]
    cases h4 : sizeOf c a.1 with
    | none => rw [h4] at h3; exact ⟨Nat.le_refl _, Nat.le_trans h3 h⟩
    | some size =>
      rw [h4] at h3
      exact ⟨Nat.le_max_left _ _, Nat.le_trans h3 (by simp)⟩

/-- **C85**: at no time did the connection hold more than it reports. -/
theorem C85_memory_bound (created rows : α → Nat) (c : Cfg α) (before after : List (Step × Nat)) :
    (run created rows c before).conn.reserved ≤ (run created rows c (before ++ after)).meter.maxMem := by
  have inv : ∀ l, (run created rows c l).conn.reserved ≤ (run created rows c l).meter.maxMem := by
    intro l
    induction l using List.reverseRecOn with
    | nil => exact Nat.le_refl _
    | append_singleton l x ih => rw [run_append]; exact (maxMem_step created rows c _ x ih).2
  induction after using List.reverseRecOn with
  | nil => simpa using inv before
  | append_singleton l x ih =>
    rw [← List.append_assoc, run_append]
    exact Nat.le_trans ih (maxMem_step created rows c _ x (inv _)).1

/-- **C85**: what it reports was needed: it is what was held when some message arrived, which is below the budget, and that
message. -/
theorem C85_memory_reached (created rows : α → Nat) (c : Cfg α) (l : List (Step × Nat)) :
    (run created rows c l).meter.maxMem = 0 ∨
    ∃ before x after w size, l = before ++ x :: after ∧ took c (run created rows c before).conn x = [(w, x.2)] ∧
      sizeOf c w = some size ∧ (run created rows c before).conn.reserved < c.budget ∧
      (run created rows c l).meter.maxMem = (run created rows c before).conn.reserved + size := by
  induction l using List.reverseRecOn with
  | nil => exact .inl rfl
  | append_singleton l x ih =>
    have lift : (run created rows c (l ++ [x])).meter.maxMem = (run created rows c l).meter.maxMem →
        ((run created rows c (l ++ [x])).meter.maxMem = 0 ∨
    ∃ before y after w size, l ++ [x] = before ++ y :: after ∧ took c (run created rows c before).conn y = [(w, y.2)] ∧
      sizeOf c w = some size ∧ (run created rows c before).conn.reserved < c.budget ∧
      (run created rows c (l ++ [x])).meter.maxMem = (run created rows c before).conn.reserved + size) := by
      intro he
      rw [he]
      rcases ih with ih | ⟨b, y, a, w, size, h1, h2⟩
      · exact .inl ih
      · exact .inr ⟨b, y, a ++ [x], w, size, by rw [h1]; simp, h2⟩
    obtain ⟨r, hr⟩ := step_meter created rows c (run created rows c l) x
    have hm : (run created rows c (l ++ [x])).meter.maxMem =
        ((took c (run created rows c l).conn x).foldl (note created c (run created rows c l).conn.reserved)
          (run created rows c l).meter).maxMem := by rw [run_append, hr]
    rcases step_wire c (run created rows c l).conn x.1 with h | ⟨_, w, h⟩
    · exact lift (by rw [hm, took_none c _ x h]; rfl)
    · have ht := took_some c _ x w h
      rw [ht] at hm
      have hm : _ = (note created c (run created rows c l).conn.reserved (run created rows c l).meter (w, x.2)).maxMem := hm
      rw [note_maxMem] at hm
      cases hs : sizeOf c w with
      | none => rw [hs] at hm; exact lift hm
      | some size =>
        rw [hs] at hm
        dsimp only at hm
        by_cases hle : (run created rows c l).conn.reserved + size ≤ (run created rows c l).meter.maxMem
        · exact lift (by rw [hm]; exact Nat.max_eq_left hle)
        · exact .inr ⟨l, x, [], w, size, rfl, ht, hs, (took_reserved c _ x _ ht).1, by rw [hm]; exact Nat.max_eq_right (by omega)⟩

/-! ### Rows -/

theorem rowsOf_append (size : α → Nat) (a b : List (Except Err α)) : rowsOf size (a ++ b) = rowsOf size a + rowsOf size b := by
  simp [rowsOf]

theorem upd_same {β : Type} (f : Nat → β) (i : Nat) (x : β) : upd f i x i = x := by simp [upd]

theorem upd_other {β : Type} (f : Nat → β) (i j : Nat) (x : β) (h : j ≠ i) : upd f i x j = f j := by simp [upd, h]

theorem upd_out (f : Nat → Chan α) (i j : Nat) (x : Chan α) (h : x.out = (f i).out) : (upd f i x j).out = (f j).out := by
  by_cases hj : j = i
  · subst hj; rw [upd_same, h]
  · rw [upd_other _ _ _ _ hj]

theorem fanout_out (s : State α) (e : Err) (j : Nat) : ((fanout s e).chans j).out = (s.chans j).out := by
  show (if (s.chans j).inner then { s.chans j with queue := (s.chans j).queue ++ [.err e] } else s.chans j).out = _
  split <;> rfl

theorem send_out (s : State α) (i n : Nat) (a : α) (j : Nat) : ((send s i n a).chans j).out = (s.chans j).out := by
  unfold send
  split
  · apply upd_out; rfl
  · rfl

theorem taskStep_out (c : Cfg α) (s : State α) (j : Nat) : ((taskStep c s).chans j).out = (s.chans j).out := by
  unfold taskStep
  split
  · rfl
  split
  · rfl
  · split
    · rfl
    split
    · split
      · exact fanout_out _ _ _
      · rfl
    · rfl
  · split
    · rfl
    split
    · rfl
    split
    · rfl
    · exact fanout_out _ _ _
    · exact fanout_out _ _ _
    · split
      · exact fanout_out _ _ _
      split
      · exact send_out _ _ _ _ _
      · exact fanout_out _ _ _

theorem meterTask_rows (created : α → Nat) (c : Cfg α) (s : State α) (now : Nat) (m : Meter) :
    (meterTask created c s now m).rows = m.rows := by
  have hr : ∀ d, (m.receive d now).rows = m.rows := by
    intro d; unfold Meter.receive; split <;> rfl
  unfold meterTask
  split
  · rfl
  split
  · rfl
  · rfl
  · split
    · rfl
    split
    · rfl
    split
    · dsimp only
      split
      · exact hr _
      split
      · exact hr _
      · exact hr _
    · rfl

/-- **C85**: the rows reported for a partition are those of the batches its stream has returned. -/
theorem C85_rows (created rows : α → Nat) (c : Cfg α) (l : List (Step × Nat)) (i : Nat) :
    (run created rows c l).meter.rows i = rowsOf rows ((run created rows c l).conn.chans i).out := by
  induction l using List.reverseRecOn with
  | nil => rfl
  | append_singleton l x ih =>
    rw [run_append]
    generalize run created rows c l = s at *
    obtain ⟨x, now⟩ := x
    cases x with
    | task =>
      show (meterTask created c s.conn now s.meter).rows i = rowsOf rows ((taskStep c s.conn).chans i).out
      rw [meterTask_rows, taskStep_out, ih]
    | poll j =>
      show (meterPoll rows c s.conn j s.meter).rows i = rowsOf rows ((pollStep c s.conn j).chans i).out
      unfold meterPoll pollStep
      by_cases h : j < c.n ∧ (s.conn.chans j).inner = true ∧ (s.conn.chans j).eos = false
      · rw [if_pos h, if_pos h]
        dsimp only
        cases hq : (s.conn.chans j).queue with
        | nil =>
          dsimp only
          split
          · rw [ih]; refine congrArg _ (Eq.symm ?_); apply upd_out; rfl
          · exact ih
        | cons it q =>
          by_cases hj : i = j
          · subst hj
            cases it with
            | ok n a =>
              dsimp only
              rw [upd_same, upd_same, rowsOf_append, ← ih]
              simp [rowsOf, Item.result]
            | err e =>
              dsimp only
              rw [upd_same, rowsOf_append, ← ih]
              simp [rowsOf, Item.result]
          · cases it with
            | ok n a => dsimp only; rw [upd_other _ _ _ _ hj, upd_other _ _ _ _ hj, ih]
            | err e => dsimp only; rw [upd_other _ _ _ _ hj, ih]
      · rw [if_neg h, if_neg h, ih]
    | dropInner j =>
      show s.meter.rows i = rowsOf rows ((dropInner c s.conn j).chans i).out
      rw [ih]; unfold dropInner; split
      · refine congrArg _ (Eq.symm ?_); apply upd_out; rfl
      · rfl
    | dropCallback j =>
      show s.meter.rows i = rowsOf rows ((dropCallback c s.conn j).chans i).out
      rw [ih]; unfold dropCallback; split
      · refine congrArg _ (Eq.symm ?_); apply upd_out; rfl
      · rfl
    | crash => exact ih

/-! ### Time -/

theorem after_append (l : List Tick) (t : Tick) : Clocked.after (l ++ [t]) = (Clocked.after l).tick t := by
  unfold Clocked.after; rw [List.foldl_append]; rfl

theorem gone_iff (l : List Tick) (i : Nat) : (Clocked.after l).gone i = true ↔ Tick.drop i ∈ l := by
  induction l using List.reverseRecOn with
  | nil => simp [Clocked.after]
  | append_singleton l t ih =>
    rw [after_append, List.mem_append, List.mem_singleton]
    cases t with
    | poll j n r =>
      have : ((Clocked.after l).tick (.poll j n r)).gone = (Clocked.after l).gone := by
        unfold Clocked.tick; dsimp only
        split
        · rfl
        split <;> rfl
      rw [this, ih]; simp
    | drop j =>
      unfold Clocked.tick; dsimp only
      by_cases hg : (Clocked.after l).gone j
      · rw [if_pos hg, ih]
        constructor
        · exact .inl
        · rintro (h | h)
          · exact h
          · obtain rfl : i = j := by simpa using h
            exact ih.1 hg
      · rw [if_neg hg]
        have : ∀ b : Bool, upd (Clocked.after l).gone j true i = true ↔ (Tick.drop i ∈ l ∨ Tick.drop i = Tick.drop j) := by
          intro _
          by_cases hij : i = j
          · subst hij; simp [upd_same]
          · rw [upd_other _ _ _ _ hij, ih]; simp [hij]
        split <;> exact this true

theorem alive_of_proper (l : List Tick) (t : Tick) (h : Proper (l ++ [t])) : (Clocked.after l).gone t.of = false := by
  rw [Bool.eq_false_iff]
  intro hg
  have := h l t [] rfl _ ((gone_iff l _).1 hg) rfl
  simp at this

theorem proper_init (l : List Tick) (t : Tick) (h : Proper (l ++ [t])) : Proper l := by
  intro pre x post e
  exact h pre x (post ++ [t]) (by rw [e]; simp)

theorem unfinished_other (i : Nat) (l : List Tick) (t : Tick) (h : t.of ≠ i) : unfinished i (l ++ [t]) = unfinished i l := by
  unfold unfinished; simp [List.filter_append, h]

theorem unfinished_ready (i : Nat) (l : List Tick) (t : Tick) (h : t.of = i) (hr : t.isReady = true) : unfinished i (l ++ [t]) = 0 := by
  unfold unfinished; simp [List.filter_append, h, hr]

theorem unfinished_pending (i : Nat) (l : List Tick) (t : Tick) (h : t.of = i) (hr : t.isReady = false) :
    unfinished i (l ++ [t]) = unfinished i l + t.nanos := by
  unfold unfinished; simp [List.filter_append, h, hr]; omega

/-- What a future or stream has not added yet is the time since its last poll that was ready. -/
theorem curr_eq (l : List Tick) (h : Proper l) (i : Nat) (hi : (Clocked.after l).gone i = false) :
    (Clocked.after l).curr i = unfinished i l := by
  induction l using List.reverseRecOn with
  | nil => rfl
  | append_singleton l t ih =>
    have hp := proper_init l t h
    have ha := alive_of_proper l t h
    rw [after_append] at hi ⊢
    cases t with
    | poll j n r =>
      have ha : (Clocked.after l).gone j = false := ha
      have hgone : (Clocked.after l).gone i = false := by
        rw [Bool.eq_false_iff]; intro hg
        have hd := (gone_iff l i).1 hg
        have := (gone_iff (l ++ [Tick.poll j n r]) i).2 (by simp [hd])
        rw [after_append, hi] at this; exact absurd this (by simp)
      have ih := ih hp hgone
      unfold Clocked.tick; dsimp only
      rw [if_neg (by simp [ha])]
      by_cases hij : i = j
      · subst hij
        cases r with
        | true => rw [if_pos rfl, unfinished_ready i l _ rfl rfl]; exact upd_same _ _ _
        | false => rw [if_neg (by simp), unfinished_pending i l _ rfl rfl, ← ih]; exact upd_same _ _ _
      · rw [unfinished_other i l (.poll j n r) (fun e => hij e.symm), ← ih]
        split
        · exact upd_other _ _ _ _ hij
        · exact upd_other _ _ _ _ hij
    | drop j =>
      have ha : (Clocked.after l).gone j = false := ha
      have hij : i ≠ j := by
        rintro rfl
        have := (gone_iff (l ++ [Tick.drop i]) i).2 (by simp)
        rw [after_append, hi] at this; exact absurd this (by simp)
      have hgone : (Clocked.after l).gone i = false := by
        rw [Bool.eq_false_iff]; intro hg
        have hd := (gone_iff l i).1 hg
        have := (gone_iff (l ++ [Tick.drop j]) i).2 (by simp [hd])
        rw [after_append, hi] at this; exact absurd this (by simp)
      rw [unfinished_other i l (.drop j) (fun e => hij e.symm), ← ih hp hgone]
      unfold Clocked.tick; dsimp only
      rw [if_neg (by simp [ha])]
      split <;> rfl

/-- What the futures and streams numbered below `n` that still exist have not added yet. -/
def pending (n : Nat) (s : Clocked) : Nat := ∑ i ∈ Finset.range n, if s.gone i then 0 else s.curr i

theorem pending_change (n : Nat) (s s' : Clocked) (j : Nat) (hj : j < n) (h : ∀ i, i ≠ j → s'.gone i = s.gone i ∧ s'.curr i = s.curr i) :
    pending n s' + (if s.gone j then 0 else s.curr j) = pending n s + (if s'.gone j then 0 else s'.curr j) := by
  have hm : j ∈ Finset.range n := Finset.mem_range.2 hj
  unfold pending
  rw [← Finset.add_sum_erase _ _ hm, ← Finset.add_sum_erase (a := j) (Finset.range n) (fun i => if s.gone i then 0 else s.curr i) hm]
  have : ∑ i ∈ (Finset.range n).erase j, (if s'.gone i then 0 else s'.curr i) =
      ∑ i ∈ (Finset.range n).erase j, (if s.gone i then 0 else s.curr i) :=
    Finset.sum_congr rfl fun i hi => by rw [(h i (Finset.ne_of_mem_erase hi)).1, (h i (Finset.ne_of_mem_erase hi)).2]
  rw [this]; omega

theorem time_pending (n : Nat) (l : List Tick) (h : Proper l) (hn : ∀ t ∈ l, t.of < n) :
    ∃ extra, (Clocked.after l).shown + pending n (Clocked.after l) = (l.map Tick.nanos).sum + extra ∧
      extra ≤ (l.filter Tick.isReady).length ∧ ((∀ i m r, Tick.poll i m r ∈ l → 0 < m) → extra = 0) := by
  induction l using List.reverseRecOn with
  | nil => exact ⟨0, by simp [Clocked.after, pending], Nat.le_refl _, fun _ => rfl⟩
  | append_singleton l t ih =>
    obtain ⟨ex, ih, hex, hz⟩ := ih (proper_init l t h) (fun t ht => hn t (by simp [ht]))
    have hz : (∀ i m r, Tick.poll i m r ∈ l ++ [t] → 0 < m) → ex = 0 := fun hp => hz fun i m r ht => hp i m r (by simp [ht])
    have ha := alive_of_proper l t h
    rw [after_append, List.map_append, List.sum_append, List.filter_append, List.length_append]
    generalize Clocked.after l = s at *
    cases t with
    | poll j m r =>
      have hg0 : s.gone j = false := ha
      have hj : j < n := hn (.poll j m r) (by simp)
      cases r with
      | true =>
        have e : s.tick (.poll j m true) = { s with shown := s.shown + max (s.curr j + m) 1, curr := upd s.curr j 0 } := by
          unfold Clocked.tick; dsimp only; rw [if_neg (by simp [hg0]), if_pos rfl]
        have hc := pending_change n s (s.tick (.poll j m true)) j hj fun i hi => by rw [e]; exact ⟨rfl, upd_other _ _ _ _ hi⟩
        rw [e] at hc ⊢
        dsimp only at hc ⊢
        simp only [upd_same, hg0, Bool.false_eq_true, if_false] at hc
        refine ⟨ex + (max (s.curr j + m) 1 - (s.curr j + m)), ?_, ?_, fun hp => ?_⟩
        · have : max (s.curr j + m) 1 ≥ s.curr j + m := Nat.le_max_left _ _
          simp only [List.map_cons, List.map_nil, List.sum_singleton, Tick.nanos]
          omega
        · have : (List.filter Tick.isReady [Tick.poll j m true]).length = 1 := rfl
          rw [this]
          rcases Nat.le_total (s.curr j + m) 1 with h1 | h1
          · rw [Nat.max_eq_right h1]; omega
          · rw [Nat.max_eq_left h1]; omega
        · have hm := hp j m true (by simp)
          rw [Nat.max_eq_left (by omega), hz hp]; omega
      | false =>
        have e : s.tick (.poll j m false) = { s with curr := upd s.curr j (s.curr j + m) } := by
          unfold Clocked.tick; dsimp only; rw [if_neg (by simp [hg0]), if_neg (by simp)]
        have hc := pending_change n s (s.tick (.poll j m false)) j hj fun i hi => by rw [e]; exact ⟨rfl, upd_other _ _ _ _ hi⟩
        rw [e] at hc ⊢
        dsimp only at hc ⊢
        simp only [upd_same, hg0, Bool.false_eq_true, if_false] at hc
        refine ⟨ex, ?_, by omega, hz⟩
        simp only [List.map_cons, List.map_nil, List.sum_singleton, Tick.nanos]
        omega
    | drop j =>
      have hg0 : s.gone j = false := ha
      have hj : j < n := hn (.drop j) (by simp)
      refine ⟨ex, ?_, by omega, hz⟩
      show _ = _ + [0].sum + _
      by_cases hc0 : s.curr j > 0
      · have e : s.tick (.drop j) = { s with shown := s.shown + s.curr j, gone := upd s.gone j true } := by
          unfold Clocked.tick; dsimp only; rw [if_neg (by simp [hg0]), if_pos hc0, Nat.max_eq_left (by omega)]
        have hc := pending_change n s (s.tick (.drop j)) j hj fun i hi => by rw [e]; exact ⟨upd_other _ _ _ _ hi, rfl⟩
        rw [e] at hc ⊢
        dsimp only at hc ⊢
        simp only [upd_same, if_true, hg0, Bool.false_eq_true, if_false] at hc
        simp only [List.sum_singleton]
        omega
      · have e : s.tick (.drop j) = { s with gone := upd s.gone j true } := by
          unfold Clocked.tick; dsimp only; rw [if_neg (by simp [hg0]), if_neg hc0]
        have hc := pending_change n s (s.tick (.drop j)) j hj fun i hi => by rw [e]; exact ⟨upd_other _ _ _ _ hi, rfl⟩
        rw [e] at hc ⊢
        dsimp only at hc ⊢
        simp only [upd_same, if_true, hg0, Bool.false_eq_true, if_false] at hc
        simp only [List.sum_singleton]
        omega

/-- **C85**: the time an exchange shows is the time of all polls of it, counted once, but for the time that is being spent on
items that have not arrived yet, whatever is polled in between and whenever streams are dropped. An item that took no measurable
time is shown as one nanosecond. -/
theorem C85_time (n : Nat) (l : List Tick) (h : Proper l) (hn : ∀ t ∈ l, t.of < n) :
    ∃ extra, (Clocked.after l).shown + (∑ i ∈ Finset.range n, if Tick.drop i ∈ l then 0 else unfinished i l) =
        (l.map Tick.nanos).sum + extra ∧
      extra ≤ (l.filter Tick.isReady).length ∧ ((∀ i m r, Tick.poll i m r ∈ l → 0 < m) → extra = 0) := by
  obtain ⟨ex, h1, h2⟩ := time_pending n l h hn
  refine ⟨ex, ?_, h2⟩
  rw [← h1]
  congr 1
  refine Finset.sum_congr rfl fun i _ => ?_
  by_cases hg : (Clocked.after l).gone i = true
  · rw [if_pos ((gone_iff l i).1 hg), if_pos hg]
  · rw [if_neg (fun hd => hg ((gone_iff l i).2 hd)), if_neg hg, curr_eq l h i (by simpa using hg)]

/-- **C85**: when the exchange is over the time it shows is the time of all polls. -/
theorem C85_time_at_the_end (n : Nat) (l : List Tick) (h : Proper l) (hn : ∀ t ∈ l, t.of < n)
    (hpos : ∀ i m r, Tick.poll i m r ∈ l → 0 < m) (hd : ∀ i < n, Tick.drop i ∈ l) :
    (Clocked.after l).shown = (l.map Tick.nanos).sum := by
  obtain ⟨ex, h1, _, h3⟩ := C85_time n l h hn
  rw [h3 hpos, Finset.sum_eq_zero fun i hi => if_pos (hd i (Finset.mem_range.1 hi))] at h1
  exact h1

/-! ### Examples -/

namespace Demo

/-- Two partitions; messages are their creation time and their rows. -/
def cfg : Cfg (Nat × Nat) :=
  { start := 4, n := 2, budget := 100, connectErr := none
    sent := [.msg 4 60 (10, 3), .msg 5 70 (20, 2), .msg 4 30 (90, 5), .msg 9 1 (1, 1)] }

/-- The second partition is dropped with its message; the last message is for a partition nobody asked for. -/
def steps : List (Step × Nat) :=
  [(.poll 0, 0), (.task, 1), (.task, 40), (.task, 50), (.task, 55), (.poll 0, 56), (.dropInner 1, 57), (.poll 0, 58), (.task, 60),
   (.task, 61), (.poll 0, 62), (.poll 0, 63), (.task, 64)]

end Demo

example : (run Prod.fst Prod.snd Demo.cfg Demo.steps).meter.messages = 3 ∧
    (run Prod.fst Prod.snd Demo.cfg Demo.steps).meter.bytes = 160 ∧ (run Prod.fst Prod.snd Demo.cfg Demo.steps).meter.maxMem = 130 ∧
    (run Prod.fst Prod.snd Demo.cfg Demo.steps).meter.latencies = some ⟨30, 63, 30, 123, 3⟩ ∧
    (run Prod.fst Prod.snd Demo.cfg Demo.steps).meter.rows 0 = 8 := by decide +kernel

example : Proper [.poll 0 5 false, .poll 1 3 true, .poll 0 2 true, .poll 0 4 false, .drop 0, .drop 1] := by
  intro pre t post h u hu e
  match pre with
  | [] => simp at hu
  | [a] => simp only [List.cons_append, List.nil_append, List.cons.injEq] at h; obtain ⟨rfl, rfl, _⟩ := h; simp_all [Tick.of]
  | [a, b] =>
    simp only [List.cons_append, List.nil_append, List.cons.injEq] at h; obtain ⟨rfl, rfl, rfl, _⟩ := h
    simp only [List.mem_cons, List.not_mem_nil, or_false] at hu; rcases hu with rfl | rfl <;> simp_all [Tick.of]
  | [a, b, c] =>
    simp only [List.cons_append, List.nil_append, List.cons.injEq] at h; obtain ⟨rfl, rfl, rfl, rfl, _⟩ := h
    simp only [List.mem_cons, List.not_mem_nil, or_false] at hu; rcases hu with rfl | rfl | rfl <;> simp_all [Tick.of]
  | [a, b, c, d] =>
    simp only [List.cons_append, List.nil_append, List.cons.injEq] at h; obtain ⟨rfl, rfl, rfl, rfl, rfl, _⟩ := h
    simp only [List.mem_cons, List.not_mem_nil, or_false] at hu; rcases hu with rfl | rfl | rfl | rfl <;> simp_all [Tick.of]
  | [a, b, c, d, e'] =>
    simp only [List.cons_append, List.nil_append, List.cons.injEq] at h; obtain ⟨rfl, rfl, rfl, rfl, rfl, rfl, _⟩ := h
    simp only [List.mem_cons, List.not_mem_nil, or_false] at hu; rcases hu with rfl | rfl | rfl | rfl | rfl <;> simp_all [Tick.of]
  | a :: b :: c :: d :: e' :: f :: rest => simp at h

example : (Clocked.after [.poll 0 5 false, .poll 1 3 true, .poll 0 2 true, .poll 0 4 false, .drop 0, .drop 1]).shown = 14 := by
  decide

end DD.Traffic
