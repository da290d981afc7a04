/-
C98: the answers of workers about their tasks.
-/
import Verif.Model.Answers

namespace DD.Answers
open Spec

variable {R M : Type}

/-- What happened to one task in a history of all tasks. -/
def ofTask (key : Key) (es : List (Key × Option (Msg R M))) : List (Option (Msg R M)) :=
  (es.filter fun e => e.1 = key).map (·.2)

/-! ### One task -/

/-- The channel of one task after its own events. -/
def chanStep (c : Chan R) : Option (Msg R M) → Chan R
  | some (.loadInfo r) => if c.isOpen then ⟨c.sent ++ [r], true⟩ else c
  | some .loadInfoEos => ⟨c.sent, false⟩
  | some (.taskMetrics _) => c
  | none => ⟨c.sent, false⟩

/-- The stored metrics of one task after its own events. -/
def storeStep (collect : Bool) (s : Option M) : Option (Msg R M) → Option M
  | some (.taskMetrics m) => if collect then some m else s
  | _ => s

theorem step_chan (collect : Bool) (st : State R M) (key k : Key) (e : Option (Msg R M)) :
    (st.step collect (key, e)).chan k = if k = key then chanStep (st.chan k) e else st.chan k := by
  by_cases h : k = key
  · subst h
    rw [if_pos rfl]
    match e with
    | none => simp [State.step, chanStep]
    | some .loadInfoEos => simp [State.step, chanStep]
    | some (.taskMetrics m) => simp only [State.step, chanStep]; split <;> rfl
    | some (.loadInfo r) => simp only [State.step, chanStep]; split <;> simp
  · rw [if_neg h]
    match e with
    | none => simp [State.step, h]
    | some .loadInfoEos => simp [State.step, h]
    | some (.taskMetrics m) => simp only [State.step]; split <;> rfl
    | some (.loadInfo r) => simp only [State.step]; split <;> simp [h]

theorem step_store (collect : Bool) (st : State R M) (key k : Key) (e : Option (Msg R M)) :
    (st.step collect (key, e)).store k = if k = key then storeStep collect (st.store k) e else st.store k := by
  by_cases h : k = key
  · subst h
    rw [if_pos rfl]
    match e with
    | none => simp [State.step, storeStep]
    | some .loadInfoEos => simp [State.step, storeStep]
    | some (.taskMetrics m) => simp only [State.step, storeStep]; split <;> simp
    | some (.loadInfo r) => simp only [State.step, storeStep]; split <;> rfl
  · rw [if_neg h]
    match e with
    | none => simp [State.step]
    | some .loadInfoEos => simp [State.step]
    | some (.taskMetrics m) => simp only [State.step]; split <;> simp [h]
    | some (.loadInfo r) => simp only [State.step]; split <;> rfl

theorem run_task (collect : Bool) (k : Key) (es : List (Key × Option (Msg R M))) : ∀ st : State R M,
    (es.foldl (State.step collect) st).chan k = (ofTask k es).foldl chanStep (st.chan k)
    ∧ (es.foldl (State.step collect) st).store k = (ofTask k es).foldl (storeStep collect) (st.store k) := by
  induction es with
  | nil => intro st; exact ⟨rfl, rfl⟩
  | cons e es ih =>
    intro st
    obtain ⟨key, e⟩ := e
    rw [List.foldl_cons, (ih _).1, (ih _).2, step_chan, step_store]
    unfold ofTask
    by_cases h : k = key
    · subst h
      simp
    · have h' : key ≠ k := fun x => h x.symm
      simp [h, h']

/-! ### Mixed streams -/

def isMetrics : Msg R M → Bool
  | .taskMetrics _ => true
  | _ => false

theorem mixed_filter {a b l : List (Msg R M)} (h : Mixed a b l) (ha : ∀ x ∈ a, isMetrics x = false)
    (hb : ∀ x ∈ b, isMetrics x = true) : l.filter (fun x => !isMetrics x) = a ∧ l.filter isMetrics = b := by
  induction h with
  | nil => exact ⟨rfl, rfl⟩
  | left x _ ih =>
    have hx := ha x List.mem_cons_self
    obtain ⟨h1, h2⟩ := ih (fun y hy => ha y (List.mem_cons_of_mem _ hy)) hb
    simp [hx, h1, h2]
  | right x _ ih =>
    have hx := hb x List.mem_cons_self
    obtain ⟨h1, h2⟩ := ih ha fun y hy => hb y (List.mem_cons_of_mem _ hy)
    simp [hx, h1, h2]

theorem answer_filter {samplers : List (Option R)} {metrics : Option M} {l : List (Msg R M)}
    (h : Answer samplers metrics l) :
    l.filter (fun x => !isMetrics x) = (reported samplers).map Msg.loadInfo ++ [.loadInfoEos]
    ∧ l.filter isMetrics = metricsStream metrics := by
  have hl : loadInfoStream (M := M) samplers = (reported samplers).map Msg.loadInfo ++ [.loadInfoEos] := by
    unfold loadInfoStream reported
    congr 1
    rw [List.map_filterMap]
    rfl
  rw [← hl]
  refine mixed_filter h ?_ ?_
  · rw [hl]
    intro x hx
    simp only [List.mem_append, List.mem_map, List.mem_singleton] at hx
    rcases hx with ⟨r, -, rfl⟩ | rfl <;> rfl
  · intro x hx
    unfold metricsStream at hx
    split at hx
    · simp at hx
    · simp only [List.mem_singleton] at hx
      subst hx; rfl

theorem chan_filter (l : List (Msg R M)) : ∀ c : Chan R,
    (l.map some).foldl chanStep c = ((l.filter fun x => !isMetrics x).map some).foldl chanStep c := by
  induction l with
  | nil => intro c; rfl
  | cons x l ih =>
    intro c
    cases x with
    | taskMetrics m => simpa [isMetrics, chanStep] using ih c
    | loadInfo r => simpa [isMetrics] using ih _
    | loadInfoEos => simpa [isMetrics] using ih _

theorem store_filter (collect : Bool) (l : List (Msg R M)) : ∀ s : Option M,
    (l.map some).foldl (storeStep collect) s = ((l.filter isMetrics).map some).foldl (storeStep collect) s := by
  induction l with
  | nil => intro c; rfl
  | cons x l ih =>
    intro c
    cases x with
    | taskMetrics m =>
      have hf : (Msg.taskMetrics m :: l).filter isMetrics = .taskMetrics m :: l.filter (isMetrics (R := R)) := by
        rw [List.filter_cons]; rfl
      rw [hf]
      exact ih _
    | loadInfo r => simpa [isMetrics, storeStep] using ih c
    | loadInfoEos => simpa [isMetrics, storeStep] using ih c

theorem chan_loads (rs : List R) : ∀ sent : List R,
    ((rs.map (Msg.loadInfo (M := M))).map some).foldl chanStep ⟨sent, true⟩ = ⟨sent ++ rs, true⟩ := by
  induction rs with
  | nil => intro sent; simp
  | cons r rs ih =>
    intro sent
    simp only [List.map_cons, List.foldl_cons, chanStep, if_true]
    rw [ih]
    simp

/-- A part of the reports and their end is all of it, or a part of the reports. -/
theorem loads_prefix (rs : List R) (p : List (Msg R M)) (h : p <+: rs.map Msg.loadInfo ++ [.loadInfoEos]) :
    p = rs.map Msg.loadInfo ++ [.loadInfoEos] ∨ ∃ k, p = (rs.take k).map Msg.loadInfo := by
  rcases List.prefix_concat_iff.mp h with h | h
  · exact .inl h
  · refine .inr ⟨p.length, ?_⟩
    rw [List.map_take]
    exact List.prefix_iff_eq_take.mp h

theorem chan_all (rs : List R) :
    ((rs.map (Msg.loadInfo (M := M)) ++ [Msg.loadInfoEos]).map some).foldl chanStep ⟨[], true⟩ = ⟨rs, false⟩ := by
  rw [List.map_append, List.foldl_append, chan_loads]
  simp [chanStep]

/-! ### C98 -/

/-- **C98** For every number of samplers and order in which they are done, every way the reports and the metrics
are mixed, and every history of the other tasks and stages: once the answer of a worker has arrived, the coordinator
has the reports of all samplers that reported, in that order; it knows that there are no more; and it has the
metrics of this task under this task, if it collects metrics. -/
theorem C98_answers_arrive_complete (collect : Bool) (key : Key) (samplers : List (Option R)) (metrics : Option M)
    (l : List (Msg R M)) (hl : Answer samplers metrics l) (es : List (Key × Option (Msg R M)))
    (he : ofTask key es = l.map some ∨ ofTask key es = l.map some ++ [none]) :
    (run collect es).chan key = ⟨reported samplers, false⟩
    ∧ (run collect es).store key = if collect then metrics else none := by
  obtain ⟨h1, h2⟩ := answer_filter hl
  have hc : (l.map some).foldl chanStep (⟨[], true⟩ : Chan R) = ⟨reported samplers, false⟩ := by
    rw [chan_filter, h1, chan_all]
  have hs : (l.map some).foldl (storeStep collect) (none : Option M) = if collect then metrics else none := by
    rw [store_filter, h2]
    unfold metricsStream
    cases metrics <;> cases collect <;> rfl
  have hr := run_task collect key es (State.init (R := R) (M := M))
  unfold run
  rw [hr.1, hr.2]
  change List.foldl chanStep ⟨[], true⟩ _ = _ ∧ List.foldl (storeStep collect) none _ = _
  rcases he with he | he
  · rw [he, hc, hs]; exact ⟨rfl, rfl⟩
  · rw [he, List.foldl_append, List.foldl_append, hc, hs]
    exact ⟨rfl, rfl⟩

/-- **C98**, planning goes on without the metrics: as soon as the end of the reports has arrived, whatever else of
the answer has or has not, the coordinator has all reports and knows that there are no more. -/
theorem C98_reports_do_not_wait_for_metrics (collect : Bool) (key : Key) (samplers : List (Option R))
    (metrics : Option M) (l p : List (Msg R M)) (hl : Answer samplers metrics l) (hp : p <+: l)
    (hend : Msg.loadInfoEos ∈ p) (es : List (Key × Option (Msg R M))) (he : ofTask key es = p.map some) :
    (run collect es).chan key = ⟨reported samplers, false⟩ := by
  obtain ⟨h1, -⟩ := answer_filter hl
  have hpre := hp.filter fun x => !isMetrics x
  rw [h1] at hpre
  have hr := run_task collect key es (State.init (R := R) (M := M))
  unfold run
  rw [hr.1, he, chan_filter]
  have hmem : Msg.loadInfoEos ∈ p.filter fun x => !isMetrics x := List.mem_filter.mpr ⟨hend, rfl⟩
  rcases loads_prefix _ _ hpre with h | ⟨k, h⟩
  · rw [h]; exact chan_all _
  · rw [h] at hmem
    obtain ⟨r, -, hr⟩ := List.mem_map.mp hmem
    cases hr

/-- **C98**, until then it waits: while the end of the reports has not arrived and the connection stands, the
coordinator has the first reports and keeps waiting for more. -/
theorem C98_waits_for_reports (collect : Bool) (key : Key) (samplers : List (Option R))
    (metrics : Option M) (l p : List (Msg R M)) (hl : Answer samplers metrics l) (hp : p <+: l)
    (hend : Msg.loadInfoEos ∉ p) (es : List (Key × Option (Msg R M))) (he : ofTask key es = p.map some) :
    ∃ k, (run collect es).chan key = ⟨(reported samplers).take k, true⟩ := by
  obtain ⟨h1, -⟩ := answer_filter hl
  have hpre := hp.filter fun x => !isMetrics x
  rw [h1] at hpre
  have hr := run_task collect key es (State.init (R := R) (M := M))
  unfold run
  rw [hr.1, he, chan_filter]
  rcases loads_prefix _ _ hpre with h | ⟨k, h⟩
  · have : Msg.loadInfoEos ∈ p.filter fun x => !isMetrics x := by rw [h]; simp
    exact absurd (List.mem_filter.mp this).1 hend
  · exact ⟨k, by rw [h]; exact chan_loads _ []⟩

/-- **C98**, broken connections: wherever the answer of a worker breaks off, the coordinator stops waiting for
reports of this task; what it has are the first of them, and as metrics those of this task or none. -/
theorem C98_broken_answers_end (collect : Bool) (key : Key) (samplers : List (Option R)) (metrics : Option M)
    (l p : List (Msg R M)) (hl : Answer samplers metrics l) (hp : p <+: l) (es : List (Key × Option (Msg R M)))
    (he : ofTask key es = p.map some ++ [none]) :
    (∃ k, (run collect es).chan key = ⟨(reported samplers).take k, false⟩)
    ∧ ((run collect es).store key = none ∨ (run collect es).store key = metrics) := by
  obtain ⟨h1, h2⟩ := answer_filter hl
  have hpre := hp.filter fun x => !isMetrics x
  have hpre2 := hp.filter isMetrics
  rw [h1] at hpre
  rw [h2] at hpre2
  have hr := run_task collect key es (State.init (R := R) (M := M))
  unfold run
  rw [hr.1, hr.2, he, List.foldl_append, List.foldl_append, chan_filter, store_filter]
  constructor
  · rcases loads_prefix _ _ hpre with h | ⟨k, h⟩
    · refine ⟨(reported samplers).length, ?_⟩
      rw [h, List.take_length]
      change List.foldl chanStep (List.foldl chanStep ⟨[], true⟩ _) _ = _
      rw [chan_all]; rfl
    · refine ⟨k, ?_⟩
      rw [h]
      change List.foldl chanStep (List.foldl chanStep ⟨[], true⟩ _) _ = _
      rw [chan_loads]; rfl
  · unfold metricsStream at hpre2
    split at hpre2
    · rw [List.prefix_nil.mp hpre2]
      exact .inl rfl
    · rename_i m
      rcases List.prefix_concat_iff.mp (show _ <+: [] ++ [_] from hpre2) with h | h
      · rw [h]
        cases collect
        · exact .inl rfl
        · exact .inr rfl
      · rw [List.prefix_nil.mp h]
        exact .inl rfl

/-- Non-vacuity: two tasks; the first has three samplers, of which the second was dropped, and its metrics overtake
the last report; the second breaks off after its first report. -/
example :
    Answer (R := Nat) (M := String) [some 1, none, some 3] (some "m") [.loadInfo 1, .taskMetrics "m", .loadInfo 3, .loadInfoEos]
    ∧ Answer (R := Nat) (M := String) [some 7, some 8] none [.loadInfo 7, .loadInfo 8, .loadInfoEos]
    ∧ ofTask (0, 0) ([((0, 0), some (.loadInfo 1)), ((0, 1), some (.loadInfo 7)), ((0, 0), some (.taskMetrics "m")),
        ((0, 0), some (.loadInfo 3)), ((0, 1), none), ((0, 0), some .loadInfoEos)] : List (Key × Option (Msg Nat String)))
        = [.loadInfo 1, .taskMetrics "m", .loadInfo 3, .loadInfoEos].map some
    ∧ (run true ([((0, 0), some (.loadInfo 1)), ((0, 1), some (.loadInfo 7)), ((0, 0), some (.taskMetrics "m")),
        ((0, 0), some (.loadInfo 3)), ((0, 1), none), ((0, 0), some .loadInfoEos)] : List (Key × Option (Msg Nat String)))).chan (0, 0)
        = ⟨[1, 3], false⟩
    ∧ (run true ([((0, 0), some (.loadInfo 1)), ((0, 1), some (.loadInfo 7)), ((0, 0), some (.taskMetrics "m")),
        ((0, 0), some (.loadInfo 3)), ((0, 1), none), ((0, 0), some .loadInfoEos)] : List (Key × Option (Msg Nat String)))).chan (0, 1)
        = ⟨[7], false⟩ := by
  refine ⟨?_, ?_, rfl, rfl, rfl⟩
  · exact .left _ (.right _ (.left _ (.left _ .nil)))
  · exact .left _ (.left _ (.left _ .nil))

end DD.Answers
