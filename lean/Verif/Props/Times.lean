/-
C74: the times a query reports are the times that passed, as far as the clocks of the machines agree.
-/
import Verif.Model.Times

namespace DD.Times

/-- The moments follow each other. -/
def Moments.Ordered (m : Moments) : Prop :=
  m.created ≤ m.sent ∧ m.sent ≤ m.received ∧ m.received ≤ m.processed

/-- A clock that shows the passing of time, set `offset` ahead. -/
def setTo (offset : Nat) : Clock := fun τ => τ + offset

/-- **C74, work unit latencies with clocks that agree.** If both machines' clocks are set alike, reading a
unit never panics and records exactly the time that passed between its creation and its sending, its
arrival and its use. -/
theorem C74_equal_clocks (checked : Bool) (offset : Nat) (m : Moments) (h : m.Ordered) :
    unitLatencies checked (stamps (setTo offset) (setTo offset) m) =
      some (m.sent - m.created, m.received - m.created, m.processed - m.created) := by
  obtain ⟨h1, h2, h3⟩ := h
  unfold unitLatencies stamps sub setTo
  simp only
  rw [if_pos (by omega), if_pos (by omega), if_pos (by omega)]
  simp only [Nat.add_sub_add_right]

/-- **C74, work unit latencies in general (partial).** If the worker's clock is behind the coordinator's by
`behind`, and no unit arrives faster than that, reading a unit never panics, and the latencies are short
of the truth by `behind`.
Missing for the full claim: a worker whose clock is further behind (`C74_slow_clock_false`). -/
theorem C74_clock_behind_partial (checked : Bool) (offset behind : Nat) (m : Moments) (h : m.Ordered)
    (hb : m.created + behind ≤ m.received) :
    unitLatencies checked (stamps (setTo (offset + behind)) (setTo offset) m) =
      some (m.sent - m.created, m.received - m.created - behind,
        m.processed - m.created - behind) := by
  obtain ⟨h1, h2, h3⟩ := h
  unfold unitLatencies stamps sub setTo
  simp only
  rw [if_pos (by omega), if_pos (by omega), if_pos (by omega)]
  simp only [Option.some.injEq, Prod.mk.injEq]
  omega

/-- **C74, clocks ahead.** If the worker's clock is ahead by `ahead`, reading a unit never panics and the
latencies exceed the truth by `ahead`. -/
theorem C74_clock_ahead (checked : Bool) (offset ahead : Nat) (m : Moments) (h : m.Ordered) :
    unitLatencies checked (stamps (setTo offset) (setTo (offset + ahead)) m) =
      some (m.sent - m.created, m.received - m.created + ahead,
        m.processed - m.created + ahead) := by
  obtain ⟨h1, h2, h3⟩ := h
  unfold unitLatencies stamps sub setTo
  simp only
  rw [if_pos (by omega), if_pos (by omega), if_pos (by omega)]
  simp only [Option.some.injEq, Prod.mk.injEq]
  omega

/-- **Finding.** However fast the network: every unit that reaches a worker sooner than the worker's clock
is behind makes the leaf panic in a build with overflow checks; without them the unit is read, and the
latency recorded is some 580 years. -/
theorem C74_slow_clock_false (offset behind : Nat) (m : Moments) (h : m.Ordered)
    (hb : m.received < m.created + behind) (hsmall : behind ≤ 2 ^ 63) :
    unitLatencies true (stamps (setTo (offset + behind)) (setTo offset) m) = none ∧
    ∃ a b c, unitLatencies false (stamps (setTo (offset + behind)) (setTo offset) m) = some (a, b, c) ∧
      2 ^ 63 ≤ b := by
  obtain ⟨h1, h2, h3⟩ := h
  constructor
  · unfold unitLatencies stamps sub setTo
    simp only
    rw [if_pos (by omega), if_neg (show ¬ m.created + (offset + behind) ≤ m.received + offset by omega)]
    rfl
  · unfold unitLatencies stamps sub setTo
    simp only
    rw [if_pos (by omega), if_neg (show ¬ m.created + (offset + behind) ≤ m.received + offset by omega)]
    by_cases hp : m.created + (offset + behind) ≤ m.processed + offset
    · rw [if_pos hp]
      refine ⟨_, _, _, rfl, ?_⟩
      unfold word
      omega
    · rw [if_neg hp]
      refine ⟨_, _, _, rfl, ?_⟩
      unfold word
      omega

/-- The maximum over any number of units is at least every one of them, so one such unit is what the query
shows. -/
theorem C74_maximum_shows_it (latencies : List Nat) (x : Nat) (h : x ∈ latencies) :
    x ≤ latencies.foldl addMax 0 := by
  suffices H : ∀ (l : List Nat) (v : Nat), v ≤ l.foldl addMax v ∧ ∀ x ∈ l, x ≤ l.foldl addMax v from
    (H latencies 0).2 x h
  intro l
  induction l with
  | nil => intro v; exact ⟨Nat.le_refl _, fun x hx => by cases hx⟩
  | cons y ys ih =>
    intro v
    obtain ⟨h1, h2⟩ := ih (addMax v y)
    have hv : v ≤ addMax v y := Nat.le_max_left ..
    have hy : y ≤ addMax v y := Nat.le_trans (Nat.le_max_left ..) (Nat.le_max_right ..)
    refine ⟨Nat.le_trans hv h1, ?_⟩
    intro x hx
    rcases List.mem_cons.mp hx with rfl | hx
    · exact Nat.le_trans hy h1
    · exact h2 x hx

/-- Non-vacuity: a unit that takes 300 ns to a worker whose clock is 1000 ns behind. -/
example : Moments.Ordered ⟨1, 2, 301, 400⟩ ∧ (301 : Nat) < 1 + 1000 ∧
    unitLatencies true (stamps (setTo 6000) (setTo 5000) ⟨1, 2, 301, 400⟩) = none ∧
    unitLatencies true (stamps (setTo 5000) (setTo 5000) ⟨1, 2, 301, 400⟩) = some (1, 300, 399) := by
  refine ⟨⟨?_, ?_, ?_⟩, ?_, ?_, ?_⟩ <;> decide

/-- **C74, messages between workers.** Whatever the clocks say, a recorded latency is the difference of the
two readings, and a message that seems to come from the future, or carries no time, is not counted
rather than counted wrongly. -/
theorem C74_message_latency (created received : Nat) :
    (messageLatency created received = none ↔ created = 0 ∨ received < created) ∧
    ∀ d, messageLatency created received = some d → created + d = received := by
  unfold messageLatency
  split
  · rename_i h
    refine ⟨⟨fun h' => (nomatch h'), fun h' => by omega⟩, ?_⟩
    intro d hd
    cases hd
    omega
  · rename_i h
    exact ⟨⟨fun _ => by omega, fun _ => rfl⟩, fun d hd => (nomatch hd)⟩

example : messageLatency 100 130 = some 30 ∧ messageLatency 130 100 = none := by decide

theorem foldl_started (asked : List Nat) (t : TaskTimes) (h : t.executed ≠ 0) :
    asked.foldl TaskTimes.markStarted t = t := by
  induction asked with
  | nil => rfl
  | cons a rest ih =>
    rw [List.foldl_cons]
    have : t.markStarted a = t := if_neg h
    rw [this, ih]

/-- A time after the start of the query, as shown: at least one nanosecond, and one nanosecond if the
worker's clock reads less than the coordinator's did at the start. -/
def shown (start now : Nat) : Nat := max (now - start) 1

/-- **C74, the times of a task.** For any readings of the worker's clock, in any order: the time at which
the plan was added is that of the adding, the time at which execution began is that of the *first*
request for a partition, whatever requests follow, and the time at which it finished is that of the
end; a task that was never asked has no beginning. -/
theorem C74_task_times (start added ended : Nat) (asked : List Nat) :
    (TaskTimes.after start added asked ended).added = shown start added ∧
    (TaskTimes.after start added asked ended).finished = shown start ended ∧
    (TaskTimes.after start added asked ended).executed =
      match asked with
      | [] => 0
      | first :: _ => shown start first := by
  cases asked with
  | nil =>
    refine ⟨?_, ?_, rfl⟩
    · simp only [TaskTimes.after, TaskTimes.new, List.foldl_nil, TaskTimes.markFinished, addMax, shown]
      omega
    · simp only [TaskTimes.after, TaskTimes.new, List.foldl_nil, TaskTimes.markFinished, addMax, shown]
      omega
  | cons first rest =>
    have h0 : ((TaskTimes.new start added).markStarted first).executed ≠ 0 := by
      simp only [TaskTimes.markStarted, TaskTimes.new, if_true, addMax]
      omega
    simp only [TaskTimes.after, List.foldl_cons, foldl_started rest _ h0]
    simp only [TaskTimes.markStarted, TaskTimes.new, TaskTimes.markFinished, if_true, addMax, shown]
    omega

/-- Non-vacuity: three requests, the second of them when the clock had been set back. -/
example : TaskTimes.after 1000 1200 [1500, 900, 1700] 2000 =
    { start := 1000, added := 200, executed := 500, finished := 1000 } := by
  decide

/-- With clocks that agree the three times are in the order in which things happened. -/
theorem C74_task_times_ordered (start added first ended : Nat) (rest : List Nat)
    (h1 : added ≤ first) (h2 : first ≤ ended) :
    let t := TaskTimes.after start added (first :: rest) ended
    t.added ≤ t.executed ∧ t.executed ≤ t.finished := by
  obtain ⟨ha, hf, he⟩ := C74_task_times start added ended (first :: rest)
  simp only at he ⊢
  rw [ha, hf, he]
  unfold shown
  omega

end DD.Times
