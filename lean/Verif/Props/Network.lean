/-
C77: a query ends.
-/
import Verif.Lemmas.NetworkEnd
import Verif.Lemmas.NetworkFlow

namespace DD.Net

variable {S α σ : Type} [DecidableEq S]

namespace Net

/-- **C77** A query does only finitely many things: whatever its operators compute, whatever they are willing to read and however it is
scheduled, from some point on nothing happens any more. -/
theorem C77_comes_to_rest (n : Net S α σ) (hok : n.Ok) (sched : Nat → Step S) :
    ∃ T, ∀ t, T ≤ t → n.runFor sched t = n.runFor sched T :=
  comes_to_rest hok sched

/-- **C77** (partial) A query never hangs: as long as the coordinator has not read everything, something can happen, for all sizes of
messages and all sizes of buffers. Partial because the operators of every task must read their inputs in one order (`Orderly`) and drop
all of them when they stop (`Stops`); see `C77_merge_join_hangs_false` and `C77_dropped_partition_hangs_false`. -/
theorem C77_never_stuck_partial (n : Net S α σ) (hok : n.Ok) (hroot : n.root ∈ n.stages) {rank : S → Nat} (hord : n.Orderly rank)
    (hpr : n.Prompt) {busy : State S α σ → S → Nat → Prop} (hstop : n.Stops busy) (st : State S α σ) (hst : n.Reached st) (hfin : ¬ n.Finished st) :
    ∃ x, n.Concerns x ∧ n.step st x ≠ st := by
  refine Classical.byContradiction fun hno => hfin ?_
  refine finished_of_stuck hok hroot hord hpr hstop hst fun x hx => ?_
  exact Classical.byContradiction fun hne => hno ⟨x, hx, hne⟩

/-- **C77** (partial) A query ends under every schedule that tries every step again and again. -/
theorem C77_ends_partial (n : Net S α σ) (hok : n.Ok) (hroot : n.root ∈ n.stages) {rank : S → Nat} (hord : n.Orderly rank)
    (hpr : n.Prompt) {busy : State S α σ → S → Nat → Prop} (hstop : n.Stops busy) (sched : Nat → Step S) (hfair : n.Fair sched) :
    ∃ T, ∀ t, T ≤ t → n.Finished (n.runFor sched t) := by
  obtain ⟨T, hT⟩ := comes_to_rest hok sched
  refine ⟨T, fun t ht => ?_⟩
  rw [hT t ht]
  refine finished_of_stuck hok hroot hord hpr hstop (runFor_reached n sched T) fun x hx => ?_
  obtain ⟨t', ht', hx'⟩ := hfair x hx T
  have h1 := hT t' ht'
  have h2 := hT (t' + 1) (by omega)
  change n.step (n.runFor sched t') (sched t') = _ at h2
  rw [h1, hx'] at h2
  exact h2

/-- **C77** Nothing is lost, repeated or reordered on the way, whatever else happens in the query and whichever connections fail: at any
time the reader of a stream has got the first part of what the writer computed for it, followed at most by the error of the connection if
the connection failed. When it has seen the end of the stream it has got everything the writer computed before it ended the stream, unless
the connection failed; then it has got the error. -/
theorem C77_delivers (n : Net S α σ) (st : State S α σ) (h : n.Reached st) (s : S) (d : Stream) (hs : n.isStream s d = true) :
    (st.got s d <+: st.made s d
      ∨ (st.failed s d.reader d.writer = true ∧ ∃ x, x <+: st.made s d ∧ st.got s d = x ++ [n.error s d.reader d.writer]))
    ∧ (st.eof s d = true → st.gone s d = false →
      if st.failed s d.reader d.writer = true then ∃ x, x <+: st.made s d ∧ st.got s d = x ++ [n.error s d.reader d.writer]
      else st.got s d = st.made s d) :=
  ⟨(flow_reached h).pre s d, delivered h hs⟩

/-! ### Operators that read one input after the other -/

/-- All streams of all stages. -/
def allStreams (n : Net S α σ) : List (S × Stream) := n.stages.flatMap fun s => (n.streams s).map fun d => (s, d)

/-- The query with tasks that read their inputs one after the other, in the order of `rank`, and end what they send when they have read
everything, or at any other time. They may stop reading at any time, but then they drop all their inputs. -/
def inOrder (n : Net S α σ) (rank : S → Nat) : Net S α σ := { n with
  wants := fun st s d => n.allStreams.all fun x =>
    !(n.isStream x.1 x.2 && decide (n.parent x.1 = n.parent s) && decide (x.2.reader = d.reader) && decide (rank x.1 < rank s)) || st.eof x.1 x.2
  mayClose := fun st s d => n.mayClose st s d || n.allStreams.all fun x =>
    !(n.isStream x.1 x.2 && decide (n.parent x.1 = s) && decide (x.2.reader = d.writer)) || st.eof x.1 x.2
  mayDrop := fun st s d => n.mayDrop st s d
    || (n.allStreams.any fun x => n.isStream x.1 x.2 && decide (n.parent x.1 = n.parent s) && decide (x.2.reader = d.reader) && st.gone x.1 x.2)
    || (decide (n.parent s ≠ n.root) && (n.streams (n.parent s)).all fun d' => !decide (d'.writer = d.reader) || st.done (n.parent s) d') }

/-- A task still reads: it has not dropped any of its inputs, and has not ended everything it sends. -/
def busyInOrder (n : Net S α σ) (st : State S α σ) (s : S) (t : Nat) : Prop :=
  (∀ s' d', n.isStream s' d' = true → n.parent s' = s → d'.reader = t → st.gone s' d' = false)
    ∧ (s = n.root ∨ ∃ d ∈ n.streams s, d.writer = t ∧ st.done s d = false)

theorem mem_allStreams {n : Net S α σ} {s : S} {d : Stream} (h : n.isStream s d = true) : (s, d) ∈ n.allStreams := by
  obtain ⟨h1, _, h3⟩ := isStream_iff.mp h
  exact List.mem_flatMap.mpr ⟨s, h1, List.mem_map.mpr ⟨d, h3, rfl⟩⟩

theorem mayClose_inOrder {n : Net S α σ} {rank : S → Nat} {st : State S α σ} {s : S} {d : Stream}
    (h : ∀ s' d', n.isStream s' d' = true → n.parent s' = s → d'.reader = d.writer → st.eof s' d' = true) :
    (n.inOrder rank).mayClose st s d = true := by
  refine Bool.or_eq_true_iff.mpr (Or.inr (List.all_eq_true.mpr fun x hx => ?_))
  by_cases hc : n.isStream x.1 x.2 = true ∧ n.parent x.1 = s ∧ x.2.reader = d.writer
  · simp [h x.1 x.2 hc.1 hc.2.1 hc.2.2]
  · have : (n.isStream x.1 x.2 && decide (n.parent x.1 = s) && decide (x.2.reader = d.writer)) = false := by
      cases e : (n.isStream x.1 x.2 && decide (n.parent x.1 = s) && decide (x.2.reader = d.writer)) with
      | false => rfl
      | true =>
        exfalso; apply hc
        simpa [and_assoc] using e
    simp [this]

theorem mayDrop_inOrder {n : Net S α σ} {rank : S → Nat} {st : State S α σ} {s : S} {d : Stream}
    (h : ¬ n.busyInOrder st (n.parent s) d.reader) : (n.inOrder rank).mayDrop st s d = true := by
  cases hm : (n.inOrder rank).mayDrop st s d with
  | true => rfl
  | false =>
    exfalso
    apply h
    simp only [inOrder, Bool.or_eq_false_iff] at hm
    obtain ⟨⟨_, h1⟩, h2⟩ := hm
    constructor
    · intro s' d' hs hp hr
      have := List.any_eq_false.mp h1 (s', d') (mem_allStreams hs)
      simpa [hs, hp, hr] using this
    · by_cases hroot : n.parent s = n.root
      · exact Or.inl hroot
      · right
        simp only [ne_eq, hroot, not_false_eq_true, decide_true, Bool.true_and, List.all_eq_false] at h2
        obtain ⟨d', hd', hx⟩ := h2
        refine ⟨d', hd', ?_⟩
        simpa using hx

theorem wants_inOrder {n : Net S α σ} {rank : S → Nat} {st : State S α σ} {s : S} {d : Stream}
    (h : ∀ s' d', n.isStream s' d' = true → n.parent s' = n.parent s → d'.reader = d.reader → rank s' < rank s → st.eof s' d' = true) :
    (n.inOrder rank).wants st s d = true := by
  refine List.all_eq_true.mpr fun x hx => ?_
  by_cases hc : n.isStream x.1 x.2 = true ∧ n.parent x.1 = n.parent s ∧ x.2.reader = d.reader ∧ rank x.1 < rank s
  · simp [h x.1 x.2 hc.1 hc.2.1 hc.2.2.1 hc.2.2.2]
  · have : (n.isStream x.1 x.2 && decide (n.parent x.1 = n.parent s) && decide (x.2.reader = d.reader) && decide (rank x.1 < rank s)) = false := by
      cases e : (n.isStream x.1 x.2 && decide (n.parent x.1 = n.parent s) && decide (x.2.reader = d.reader) && decide (rank x.1 < rank s)) with
      | false => rfl
      | true =>
        exfalso; apply hc
        simpa [and_assoc] using e
    simp [this]

/-- Nothing is lost for a connection none of whose streams was dropped. -/
theorem leak_step {n : Net S α σ} {st : State S α σ} (h : ∀ s r w, st.leak s r w ≠ 0 → ∃ d, n.isStream s d = true ∧ d.reader = r ∧ st.gone s d = true)
    (x : Step S) (s : S) (r w : Nat) (hl : (n.step st x).leak s r w ≠ 0) :
    ∃ d, n.isStream s d = true ∧ d.reader = r ∧ (n.step st x).gone s d = true := by
  cases x with
  | drop s' d' =>
    unfold step at hl ⊢
    dsimp only at hl ⊢
    split at hl
    · rename_i hc
      rw [if_pos hc]
      simp only [Bool.and_eq_true] at hc
      have hgone : (n.dropped st s' d').gone = set st.gone s' d' true := by
        unfold dropped
        split
        · rfl
        · dsimp only
          split <;> rfl
      rw [hgone]
      by_cases e : s = s' ∧ r = d'.reader
      · exact ⟨d', by rw [e.1]; exact hc.1.1, e.2.symm, by rw [e.1]; exact set_self _ _ _ _⟩
      · have hleak : (n.dropped st s' d').leak s r w = st.leak s r w := by
          unfold dropped
          split
          · rfl
          · dsimp only
            split
            all_goals
              change setConn st.leak s' d'.reader d'.writer _ s r w = _
              rw [setConn_eq, if_neg fun h => e ⟨h.1, h.2.1⟩]
        rw [hleak] at hl
        obtain ⟨d, h1, h2, h3⟩ := h s r w hl
        refine ⟨d, h1, h2, ?_⟩
        rw [set_eq]
        split
        · rfl
        · exact h3
    · rename_i hc
      rw [if_neg hc]
      exact h s r w hl
  | ask s' d' => unfold step at hl ⊢; dsimp only at hl ⊢; split at hl <;> split <;> first | contradiction | exact h s r w hl
  | take s' d' =>
    have e1 : (n.step st (.take s' d')).leak = st.leak := by
      unfold step; dsimp only
      split
      · split <;> rfl
      · rfl
    have e2 : (n.step st (.take s' d')).gone = st.gone := by
      unfold step; dsimp only
      split
      · split <;> rfl
      · rfl
    rw [e1] at hl; rw [e2]; exact h s r w hl
  | eof s' d' =>
    have e1 : (n.step st (.eof s' d')).leak = st.leak := by unfold step; dsimp only; split <;> rfl
    have e2 : (n.step st (.eof s' d')).gone = st.gone := by unfold step; dsimp only; split <;> rfl
    rw [e1] at hl; rw [e2]; exact h s r w hl
  | push s' d' =>
    have e : (n.step st (.push s' d')).leak = st.leak ∧ (n.step st (.push s' d')).gone = st.gone := by
      unfold step; dsimp only
      split
      · split
        · split <;> exact ⟨rfl, rfl⟩
        · split <;> exact ⟨rfl, rfl⟩
        · exact ⟨rfl, rfl⟩
      · exact ⟨rfl, rfl⟩
    rw [e.1] at hl; rw [e.2]; exact h s r w hl
  | close s' d' =>
    have e : (n.step st (.close s' d')).leak = st.leak ∧ (n.step st (.close s' d')).gone = st.gone := by
      unfold step; dsimp only; split <;> exact ⟨rfl, rfl⟩
    rw [e.1] at hl; rw [e.2]; exact h s r w hl
  | send s' d' =>
    have e : (n.step st (.send s' d')).leak = st.leak ∧ (n.step st (.send s' d')).gone = st.gone := by
      unfold step; dsimp only
      split
      · split
        · split <;> exact ⟨rfl, rfl⟩
        · exact ⟨rfl, rfl⟩
      · exact ⟨rfl, rfl⟩
    rw [e.1] at hl; rw [e.2]; exact h s r w hl
  | carry s' r' w' =>
    have e : (n.step st (.carry s' r' w')).leak = st.leak ∧ (n.step st (.carry s' r' w')).gone = st.gone := by
      unfold step; dsimp only
      split
      · split
        · split <;> exact ⟨rfl, rfl⟩
        · exact ⟨rfl, rfl⟩
      · exact ⟨rfl, rfl⟩
    rw [e.1] at hl; rw [e.2]; exact h s r w hl
  | fail s' r' w' =>
    have e : (n.step st (.fail s' r' w')).leak = st.leak ∧ (n.step st (.fail s' r' w')).gone = st.gone := by
      unfold step; dsimp only; split <;> exact ⟨rfl, rfl⟩
    rw [e.1] at hl; rw [e.2]; exact h s r w hl

theorem leak_reached {n : Net S α σ} : ∀ (steps : List (Step S)) (st : State S α σ),
    (∀ s r w, st.leak s r w ≠ 0 → ∃ d, n.isStream s d = true ∧ d.reader = r ∧ st.gone s d = true) →
    ∀ s r w, (steps.foldl n.step st).leak s r w ≠ 0 → ∃ d, n.isStream s d = true ∧ d.reader = r ∧ (steps.foldl n.step st).gone s d = true
  | [], _, h => h
  | x :: rest, st, h => leak_reached rest _ (leak_step h x)

/-- The steps of a query. -/
def allSteps (n : Net S α σ) : List (Step S) := n.allStreams.flatMap fun x =>
  [.ask x.1 x.2, .take x.1 x.2, .eof x.1 x.2, .drop x.1 x.2, .push x.1 x.2, .close x.1 x.2, .send x.1 x.2, .carry x.1 x.2.reader x.2.writer]

/-- Every query has a fair schedule: all its steps in turn. -/
theorem fair_exists (n : Net S α σ) (hne : n.allSteps ≠ []) : n.Fair fun t => n.allSteps[t % n.allSteps.length]'(Nat.mod_lt _ (List.length_pos_iff.mpr hne)) := by
  intro x hx t
  have hmem : x ∈ n.allSteps := by
    cases x with
    | carry s r w =>
      obtain ⟨d, hd, rfl, rfl⟩ := hx
      exact List.mem_flatMap.mpr ⟨_, mem_allStreams hd, by simp⟩
    | ask s d => exact List.mem_flatMap.mpr ⟨_, mem_allStreams hx, by simp⟩
    | take s d => exact List.mem_flatMap.mpr ⟨_, mem_allStreams hx, by simp⟩
    | eof s d => exact List.mem_flatMap.mpr ⟨_, mem_allStreams hx, by simp⟩
    | drop s d => exact List.mem_flatMap.mpr ⟨_, mem_allStreams hx, by simp⟩
    | push s d => exact List.mem_flatMap.mpr ⟨_, mem_allStreams hx, by simp⟩
    | close s d => exact List.mem_flatMap.mpr ⟨_, mem_allStreams hx, by simp⟩
    | send s d => exact List.mem_flatMap.mpr ⟨_, mem_allStreams hx, by simp⟩
    | fail s r w => cases hx
  obtain ⟨i, hi, rfl⟩ := List.getElem_of_mem hmem
  refine ⟨n.allSteps.length * t + i, ?_, ?_⟩
  · have : t ≤ n.allSteps.length * t := Nat.le_mul_of_pos_left t (by omega)
    omega
  · simp only [Nat.mul_add_mod, Nat.mod_eq_of_lt hi]

/-- **C77** (partial) If every task reads its inputs one after the other, in the same order in all tasks of a stage, then the query ends,
whatever the tasks compute, however large messages and buffers are, whenever tasks end what they send, and whenever they stop reading,
provided that a task that drops an input drops all of them. -/
theorem C77_ordered_reading_ends_partial (n : Net S α σ) (rank : S → Nat) (hok : n.Ok) (hroot : n.root ∈ n.stages)
    (sched : Nat → Step S) (hfair : n.Fair sched) :
    ∃ T, ∀ t, T ≤ t → n.Finished ((n.inOrder rank).runFor sched t) := by
  refine C77_ends_partial (n.inOrder rank) ⟨hok.parent, hok.depth, hok.head, hok.room⟩ hroot (rank := rank) ?_ ?_
    (busy := n.busyInOrder) ⟨?_, ?_, ?_⟩ sched hfair
  · intro st _ s d _ _ _ h
    exact wants_inOrder h
  · intro st _ s d _ _ _ h
    exact mayClose_inOrder h
  · intro st _ s t h
    exact h.2
  · intro st _ s d _ _ h
    exact mayDrop_inOrder h
  · rintro st ⟨steps, rfl⟩ s d hs hb q w b hl
    have hzero : ((n.inOrder rank).run steps).leak s d.reader d.writer = 0 := by
      refine Classical.byContradiction fun hne => ?_
      obtain ⟨d', h1, h2, h3⟩ := leak_reached (n := n.inOrder rank) steps _ (fun s r w h => absurd rfl h) s d.reader d.writer hne
      have := hb.1 s d' h1 rfl h2
      change ((n.inOrder rank).run steps).gone s d' = true at h3
      rw [this] at h3
      cases h3
    rw [hzero]
    exact (hok.room _ _ _ _ _ _ hl).2.2

/-- Only `drop` drops a stream. -/
theorem gone_step {n : Net S α σ} {st : State S α σ} {x : Step S} {s : S} {d : Stream} (h : (n.step st x).gone s d = true) :
    st.gone s d = true ∨ n.mayDrop st s d = true := by
  cases x with
  | drop s' d' =>
    unfold step at h
    dsimp only at h
    split at h
    · rename_i hr
      simp only [Bool.and_eq_true] at hr
      have hgone : (n.dropped st s' d').gone = set st.gone s' d' true := by
        unfold dropped
        split
        · rfl
        · dsimp only
          split <;> rfl
      rw [hgone, set_eq] at h
      split at h
      · rename_i e
        right
        rw [e.1, e.2]
        exact hr.2
      · exact Or.inl h
    · exact Or.inl h
  | eof s' d' =>
    left
    unfold step at h; dsimp only at h
    split at h <;> exact h
  | ask s' d' =>
    left
    unfold step at h; dsimp only at h
    split at h <;> exact h
  | take s' d' =>
    left
    unfold step at h; dsimp only at h
    split at h
    · split at h <;> exact h
    · exact h
  | push s' d' =>
    left
    unfold step at h; dsimp only at h
    split at h
    · split at h
      · split at h <;> exact h
      · split at h <;> exact h
      · exact h
    · exact h
  | close s' d' =>
    left
    unfold step at h; dsimp only at h
    split at h <;> exact h
  | send s' d' =>
    left
    unfold step at h; dsimp only at h
    split at h
    · split at h
      · split at h <;> exact h
      · exact h
    · exact h
  | carry s' r w =>
    left
    unfold step at h; dsimp only at h
    split at h
    · split at h
      · split at h <;> exact h
      · exact h
    · exact h
  | fail s' r w =>
    left
    unfold step at h; dsimp only at h
    split at h <;> exact h

/-- **C77** (partial) If moreover the coordinator drops nothing, it reads everything to the end. -/
theorem C77_ordered_reading_reads_everything_partial (n : Net S α σ) (rank : S → Nat) (hok : n.Ok) (hroot : n.root ∈ n.stages)
    (hkeep : ∀ st s d, n.parent s = n.root → n.mayDrop st s d = false) (sched : Nat → Step S) (hfair : n.Fair sched) :
    ∃ T, ∀ t, T ≤ t → ∀ s d, n.isStream s d = true → n.parent s = n.root →
      ((n.inOrder rank).runFor sched t).eof s d = true ∧ ((n.inOrder rank).runFor sched t).gone s d = false := by
  have hgone : ∀ t s d, n.isStream s d = true → n.parent s = n.root → ((n.inOrder rank).runFor sched t).gone s d = false := by
    intro t
    induction t with
    | zero => intro s d _ _; rfl
    | succ t ih =>
      intro s d hs hp
      cases hg : ((n.inOrder rank).runFor sched (t + 1)).gone s d with
      | false => rfl
      | true =>
        exfalso
        rcases gone_step (n := n.inOrder rank) (x := sched t) hg with h | h
        · rw [ih s d hs hp] at h; cases h
        · simp only [inOrder, hkeep _ s d hp, hp, ne_eq, not_true_eq_false, decide_false, Bool.false_and, Bool.or_false, Bool.false_or] at h
          obtain ⟨x, _, hx⟩ := List.any_eq_true.mp h
          simp only [Bool.and_eq_true, decide_eq_true_eq] at hx
          have := ih x.1 x.2 hx.1.1.1 hx.1.1.2
          simp only [inOrder] at this
          rw [this] at hx
          cases hx.2
  obtain ⟨T, hT⟩ := C77_ordered_reading_ends_partial n rank hok hroot sched hfair
  exact ⟨T, fun t ht s d hs hp => ⟨hT t ht s d hs hp, hgone t s d hs hp⟩⟩

/-- Non-vacuity: a join of two shuffles in two tasks with three partitions each over producers with two tasks each, over gRPC with the
default budget and queue, whose tasks send what they receive on, with a limit of four batches: the partitions of the join end when four
batches were received, and the coordinator drops everything when it has seen the end of a partition. It has a fair schedule, so it ends. -/
def Demo.join : Net Nat Nat Nat where
  stages := [0, 1, 2, 3]
  root := 0
  parent := fun s => if s = 1 then 0 else 1
  depth := fun s => if s = 0 then 0 else if s = 1 then 1 else 2
  streams := fun s => match s with
    | 1 => (List.range 2).flatMap fun w => (List.range 3).map fun q => ⟨w, 0, q⟩
    | 2 | 3 => (List.range 2).flatMap fun w => (List.range 2).flatMap fun r => (List.range 3).map fun q => ⟨w, r, r * 3 + q⟩
    | _ => []
  link := fun _ _ _ => .remote 2 16 67108864
  size := id
  error := fun _ _ _ => 0
  mem := 0
  first := fun s d => if s = 2 ∨ s = 3 then List.replicate 10 (1000000 * (d.partition + 1)) else []
  recv := fun m s d x => (if s = 1 then m else m + 1, fun d' => if d'.partition = d.partition % 3 then x.toList else [])
  wants := fun _ _ _ => true
  mayClose := fun st s _ => decide (s = 1) && decide (4 ≤ st.mem)
  mayDrop := fun st s _ => decide (s = 1) && (List.range 3).any fun q => st.eof 1 ⟨0, 0, q⟩

example : ∃ sched, Demo.join.Fair sched ∧ ∃ T, ∀ t, T ≤ t → Demo.join.Finished ((Demo.join.inOrder id).runFor sched t) := by
  have hne : Demo.join.allSteps ≠ [] := by decide
  refine ⟨_, fair_exists _ hne, C77_ordered_reading_ends_partial _ id ?_ (by decide) _ (fair_exists _ hne)⟩
  exact {
    parent := by decide
    depth := by decide
    head := rfl
    room := by
      intro s r w q win b h
      cases h
      decide }

/-- Non-vacuity: the same without the limit. -/
def Demo.fullJoin : Net Nat Nat Nat := { Demo.join with mayClose := fun _ _ _ => false, mayDrop := fun _ _ _ => false }

example : ∃ sched, ∃ T, ∀ t, T ≤ t → ∀ s d, Demo.fullJoin.isStream s d = true → Demo.fullJoin.parent s = Demo.fullJoin.root →
    ((Demo.fullJoin.inOrder id).runFor sched t).eof s d = true ∧ ((Demo.fullJoin.inOrder id).runFor sched t).gone s d = false := by
  have hne : Demo.fullJoin.allSteps ≠ [] := by decide
  refine ⟨_, C77_ordered_reading_reads_everything_partial _ id ?_ (by decide) (fun _ _ _ _ => rfl) _ (fair_exists _ hne)⟩
  exact {
    parent := by decide
    depth := by decide
    head := rfl
    room := by
      intro s r w q win b h
      cases h
      decide }

/-! ### Operators that wait for one input while another one is full -/

/-- Nothing can happen in a state in which no stream can be asked for, read, ended or moved on. -/
def idle (n : Net S α σ) (st : State S α σ) : Bool := n.allStreams.all fun (s, d) =>
  !(n.reads st s d && (!st.asked s d.reader d.writer || !(st.queue s d).isEmpty || n.ended st s d))
    && !(n.isStream s d && !st.eof s d && n.mayDrop st s d)
    && !(n.isStream s d && st.asked s d.reader d.writer && (!(st.pend s d).isEmpty || (!st.done s d && n.mayClose st s d)))
    && match n.link s d.reader d.writer with
      | .remote _ w b => ((st.fwd s d).isEmpty || decide (w ≤ (st.wire s d.reader d.writer).length))
          && ((st.wire s d.reader d.writer).isEmpty || decide (b ≤ n.reserved st s d.reader d.writer))
      | .local => true

theorem stuck_of_idle {n : Net S α σ} {st : State S α σ} (h : n.idle st = true) : Stuck n st := by
  intro x hx
  have key : ∀ s d, n.isStream s d = true →
      (n.reads st s d = true → st.asked s d.reader d.writer = true ∧ st.queue s d = [] ∧ n.ended st s d = false)
      ∧ (st.eof s d = true ∨ n.mayDrop st s d = false)
      ∧ (st.asked s d.reader d.writer = true → st.pend s d = [] ∧ (st.done s d = true ∨ n.mayClose st s d = false))
      ∧ (∀ q w b, n.link s d.reader d.writer = .remote q w b →
          (st.fwd s d = [] ∨ w ≤ (st.wire s d.reader d.writer).length)
          ∧ (st.wire s d.reader d.writer = [] ∨ b ≤ n.reserved st s d.reader d.writer)) := by
    intro s d hs
    have := List.all_eq_true.mp h (s, d) (mem_allStreams hs)
    simp only [hs, Bool.true_and, Bool.and_eq_true, Bool.not_eq_true'] at this
    obtain ⟨⟨⟨h1, h0⟩, h2⟩, h3⟩ := this
    refine ⟨fun hr => ?_, ?_, fun ha => ?_, fun q w b hl => ?_⟩
    · simpa [hr, and_assoc] using h1
    · cases he : st.eof s d with
      | true => exact Or.inl rfl
      | false => right; simpa [he] using h0
    · simp only [ha, Bool.true_and, Bool.or_eq_false_iff, Bool.not_eq_false', List.isEmpty_iff] at h2
      refine ⟨h2.1, ?_⟩
      cases hd : st.done s d with
      | true => exact Or.inl rfl
      | false =>
        right
        simpa [hd] using h2.2
    · rw [hl] at h3
      simpa using h3
  cases x with
  | ask s d =>
    obtain ⟨h1, _, _, _⟩ := key s d hx
    unfold step; dsimp only
    rw [if_neg]
    intro hr
    rw [Bool.and_eq_true, Bool.not_eq_true'] at hr
    rw [(h1 hr.1).1] at hr
    cases hr.2
  | take s d =>
    obtain ⟨h1, _, _, _⟩ := key s d hx
    unfold step; dsimp only
    split
    · rename_i hr
      rw [(h1 hr).2.1]
    · rfl
  | eof s d =>
    obtain ⟨h1, _, _, _⟩ := key s d hx
    unfold step; dsimp only
    rw [if_neg]
    intro hr
    rw [Bool.and_eq_true] at hr
    rw [(h1 hr.1).2.2] at hr
    cases hr.2
  | drop s d =>
    obtain ⟨_, h0, _, _⟩ := key s d hx
    unfold step; dsimp only
    rw [if_neg]
    intro hr
    simp only [Bool.and_eq_true, Bool.not_eq_true'] at hr
    rcases h0 with h0 | h0
    · rw [hr.1.2] at h0; cases h0
    · rw [hr.2] at h0; cases h0
  | push s d =>
    obtain ⟨_, _, h2, _⟩ := key s d hx
    unfold step; dsimp only
    split
    · rename_i hr
      rw [Bool.and_eq_true] at hr
      rw [(h2 hr.2).1]
    · rfl
  | close s d =>
    obtain ⟨_, _, h2, _⟩ := key s d hx
    unfold step; dsimp only
    rw [if_neg]
    intro hr
    simp only [Bool.and_eq_true, Bool.not_eq_true'] at hr
    rcases (h2 hr.1.1.1.2).2 with hd | hd
    · rw [hr.1.1.2] at hd; cases hd
    · rw [hr.2] at hd; cases hd
  | send s d =>
    obtain ⟨_, _, _, h3⟩ := key s d hx
    unfold step; dsimp only
    split
    · split
      · rename_i a rest q w b hf hl
        rcases (h3 q w b hl).1 with h | h
        · rw [h] at hf; cases hf
        · rw [if_neg (by omega)]
      · rfl
    · rfl
  | carry s r w =>
    obtain ⟨d, hd, rfl, rfl⟩ := hx
    obtain ⟨_, _, _, h3⟩ := key s d hd
    unfold step; dsimp only
    split
    · rename_i q w b d' a rest hl hw
      rcases (h3 q w b hl).2 with h | h
      · rw [h] at hw; cases hw
      · rw [if_neg (by omega)]
    · rfl
  | fail s r w => cases hx

/-- A query that is stuck stays as it is. -/
theorem run_stuck {n : Net S α σ} {steps : List (Step S)} (h : Stuck n (n.run steps)) (rest : List (Step S)) (hr : ∀ x ∈ rest, n.Concerns x) :
    n.run (steps ++ rest) = n.run steps := by
  have : ∀ (st : State S α σ), Stuck n st → (∀ x ∈ rest, n.Concerns x) → rest.foldl n.step st = st := by
    intro st hst
    clear hr
    induction rest with
    | nil => intro _; rfl
    | cons x rest ih =>
      intro hr
      rw [List.foldl_cons, hst x (hr x (by simp))]
      exact ih fun y hy => hr y (List.mem_cons_of_mem _ hy)
  unfold run
  rw [List.foldl_append]
  exact this _ h hr

/-- A merge join of two inputs (stages 2 and 3) in one task with two partitions. Each partition reads a batch of the left side, then one of
the right side, and then goes on (`SortMergeJoinExec`, external: it needs the next row of both sides to go on). `mem` counts the
batches it got. -/
def Demo.mergeJoin : Net Nat Nat (Nat → Nat → Nat) where
  stages := [0, 1, 2, 3]
  root := 0
  parent := fun s => if s = 1 then 0 else 1
  depth := fun s => if s = 0 then 0 else if s = 1 then 1 else 2
  streams := fun s => match s with
    | 1 | 2 | 3 => [⟨0, 0, 0⟩, ⟨0, 0, 1⟩]
    | _ => []
  link := fun _ _ _ => .remote 2 16 67108864
  size := id
  error := fun _ _ _ => 0
  mem := fun _ _ => 0
  first := fun s d => if s = 2 ∧ d.partition = 1 then [67108864, 67108864] else if s = 2 ∨ s = 3 then [67108864] else []
  recv := fun m s d _ => (fun s' q => if s' = s ∧ q = d.partition then m s' q + 1 else m s' q, fun _ => [])
  wants := fun st s d => match s with
    | 2 => decide (st.mem 2 d.partition ≤ st.mem 3 d.partition) || st.eof 3 d
    | 3 => decide (st.mem 3 d.partition < st.mem 2 d.partition) || st.eof 2 d
    | _ => true
  mayClose := fun st s d => s != 1 || (st.eof 2 d && st.eof 3 d)
  mayDrop := fun _ _ _ => false

/-- An execution of it: of the left side the second partition arrives first, of the right side the first one. -/
def Demo.steps : List (Step Nat) :=
  let d0 : Stream := ⟨0, 0, 0⟩
  let d1 : Stream := ⟨0, 0, 1⟩
  [.ask 1 d0, .ask 2 d0, .push 2 d1, .send 2 d1, .carry 2 0 0, .take 2 d1, .push 2 d1, .send 2 d1, .carry 2 0 0, .push 2 d0, .send 2 d0,
    .ask 3 d1, .push 3 d0, .send 3 d0, .carry 3 0 0, .push 3 d1, .send 3 d1, .close 2 d0, .close 2 d1, .close 3 d0, .close 3 d1]

/-- **C77** is false for operators that read their inputs in turn: a merge join of two inputs hangs, although nothing fails. The first
partition waits for the left side, which is held back by what the second partition has not read of it, and the second partition waits
for the right side, which is held back by what the first partition has not read of it. With the default budget and queue. -/
theorem C77_merge_join_hangs_false : Demo.mergeJoin.Ok ∧ ∀ rest, (∀ x ∈ rest, Demo.mergeJoin.Concerns x) →
    Demo.mergeJoin.run (Demo.steps ++ rest) = Demo.mergeJoin.run Demo.steps ∧ ¬ Demo.mergeJoin.Finished (Demo.mergeJoin.run (Demo.steps ++ rest)) := by
  have hst : Stuck Demo.mergeJoin (Demo.mergeJoin.run Demo.steps) := stuck_of_idle (by decide +kernel)
  refine ⟨⟨by decide, by decide, rfl, ?_⟩, fun rest hrest => ?_⟩
  · intro s r w q win b h
    cases h
    decide
  · have hsame := run_stuck hst rest hrest
    have heof : (Demo.mergeJoin.run Demo.steps).eof 1 ⟨0, 0, 0⟩ = false := by decide +kernel
    refine ⟨hsame, fun hfin => ?_⟩
    have := hfin 1 ⟨0, 0, 0⟩ (by decide) (by decide)
    rw [hsame, heof] at this
    cases this

/-- Non-vacuity of `C77_delivers`: a batch that went all the way. -/
example : (Demo.mergeJoin.run Demo.steps).got 2 ⟨0, 0, 1⟩ = [67108864]
    ∧ (Demo.mergeJoin.run Demo.steps).made 2 ⟨0, 0, 1⟩ = [67108864, 67108864] := by decide +kernel

/-! ### Operators that drop one of the partitions they read -/

/-- A task with two partitions, each with its own limit of one batch (`LocalLimitExec`), on top of a shuffle: each partition reads one batch,
sends it on, ends and drops its input. The coordinator reads both partitions to the end. `mem` counts batches by partition. -/
def Demo.limits : Net Nat Nat (Nat → Nat) where
  stages := [0, 1, 2]
  root := 0
  parent := fun s => s - 1
  depth := id
  streams := fun s => match s with
    | 1 | 2 => [⟨0, 0, 0⟩, ⟨0, 0, 1⟩]
    | _ => []
  link := fun _ _ _ => .remote 2 16 67108864
  size := id
  error := fun _ _ _ => 0
  mem := fun _ => 0
  first := fun s d => if s = 2 then if d.partition = 0 then [1000, 67108864] else [1000] else []
  recv := fun m s d x => if s = 2 then (fun q => if q = d.partition then m q + 1 else m q,
      fun d' => if d'.partition = d.partition then x.toList else []) else (m, fun _ => [])
  wants := fun st s d => decide (s = 1) || decide (st.mem d.partition = 0)
  mayClose := fun st s d => decide (s = 2) || decide (0 < st.mem d.partition) || st.eof 2 d
  mayDrop := fun st s d => decide (s = 2) && decide (0 < st.mem d.partition)

/-- An execution of it: the second batch of the first partition arrives just before that partition drops its input. -/
def Demo.limitSteps : List (Step Nat) :=
  let d0 : Stream := ⟨0, 0, 0⟩
  let d1 : Stream := ⟨0, 0, 1⟩
  [.ask 1 d0, .ask 2 d0, .push 2 d0, .send 2 d0, .carry 2 0 0, .take 2 d0, .push 2 d0, .send 2 d0, .carry 2 0 0, .drop 2 d0,
    .push 2 d1, .send 2 d1, .close 2 d0, .close 2 d1, .push 1 d0, .send 1 d0, .carry 1 0 0, .take 1 d0, .close 1 d0]

/-- **C77** is false for operators that drop some of the partitions they read and go on reading others: what was received for a dropped
partition and not read counts against the budget of the connection for ever, so the other partitions of the connection hang, although
nothing fails and every task reads its only input. With the default budget and queue. -/
theorem C77_dropped_partition_hangs_false : Demo.limits.Ok ∧ ∀ rest, (∀ x ∈ rest, Demo.limits.Concerns x) →
    Demo.limits.run (Demo.limitSteps ++ rest) = Demo.limits.run Demo.limitSteps
      ∧ ¬ Demo.limits.Finished (Demo.limits.run (Demo.limitSteps ++ rest)) := by
  have hst : Stuck Demo.limits (Demo.limits.run Demo.limitSteps) := stuck_of_idle (by decide +kernel)
  refine ⟨⟨by decide, by decide, rfl, ?_⟩, fun rest hrest => ?_⟩
  · intro s r w q win b h
    cases h
    decide
  · have hsame := run_stuck hst rest hrest
    have heof : (Demo.limits.run Demo.limitSteps).eof 1 ⟨0, 0, 1⟩ = false := by decide +kernel
    refine ⟨hsame, fun hfin => ?_⟩
    have := hfin 1 ⟨0, 0, 1⟩ (by decide) (by decide)
    rw [hsame, heof] at this
    cases this

/-- Non-vacuity of `C77_delivers`: if the second partition is read before the first one drops its input, everything ends. -/
example : let d0 : Stream := ⟨0, 0, 0⟩
    let d1 : Stream := ⟨0, 0, 1⟩
    let st := Demo.limits.run [.ask 1 d0, .ask 2 d0, .push 2 d0, .send 2 d0, .carry 2 0 0, .take 2 d0, .push 2 d1, .send 2 d1, .carry 2 0 0,
      .take 2 d1, .drop 2 d0, .drop 2 d1, .push 1 d0, .send 1 d0, .carry 1 0 0, .take 1 d0, .push 1 d1, .send 1 d1, .carry 1 0 0,
      .take 1 d1, .close 1 d0, .close 1 d1, .eof 1 d0, .eof 1 d1]
    st.eof 1 d1 = true ∧ st.gone 1 d1 = false ∧ st.got 1 d1 = [1000] ∧ st.eof 2 d0 = true ∧ st.gone 2 d0 = true := by decide +kernel

/-- Non-vacuity: the connection to the shuffle fails when the first partition has dropped its input and one batch of the second one was
received and another one was not; the second partition reads that batch, then the error (here the message 0), then the end. -/
example : let d0 : Stream := ⟨0, 0, 0⟩
    let d1 : Stream := ⟨0, 0, 1⟩
    let n := { Demo.limits with first := fun s d => if s = 2 then [1000, 2000 + d.partition] else [], wants := fun _ _ _ => true }
    let st := n.run [.ask 1 d0, .ask 2 d0, .push 2 d0, .send 2 d0, .carry 2 0 0, .take 2 d0, .drop 2 d0, .push 2 d1, .push 2 d1, .send 2 d1,
      .carry 2 0 0, .send 2 d1, .fail 2 0 0, .carry 2 0 0, .take 2 d1, .take 2 d1, .eof 2 d1]
    st.failed 2 0 0 = true ∧ st.eof 2 d1 = true ∧ st.gone 2 d1 = false ∧ st.got 2 d1 = [1000, 0] ∧ st.made 2 d1 = [1000, 2001]
      ∧ st.gone 2 d0 = true ∧ st.got 2 d0 = [1000] := by decide +kernel

end Net

end DD.Net
