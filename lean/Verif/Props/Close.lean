/-
C49: closing the query releases every worker channel.
-/
import Verif.Model.Close

namespace DD.Close

/-- The query is over for the user: the result stream ended, failed or was dropped. -/
def over (p : Phase) : Prop := p = .finished ∨ p = .failed ∨ p = .dropped

structure Inv (s : State) : Prop where
  waiting : ∀ c ∈ s.chans, c.waiting = true
  notified : s.phase = .draining ∨ over s.phase → ∀ c ∈ s.chans, c.notified = true
  released : over s.phase → ∀ c ∈ s.chans, c.tx = false

theorem mem_modify {cs : List Chan} {i : Nat} {f : Chan → Chan} {c : Chan}
    (h : c ∈ modify cs i f) : c ∈ cs ∨ ∃ d ∈ cs, c = f d := by
  unfold modify at h
  cases hc : cs[i]? with
  | none => rw [hc] at h; exact .inl h
  | some d =>
    rw [hc] at h
    rcases List.mem_or_eq_of_mem_set h with h | h
    · exact .inl h
    · exact .inr ⟨d, List.mem_of_getElem? hc, h⟩

theorem inv_leave {s : State} (p : Phase) (h : ∀ c ∈ s.chans, c.waiting = true) : Inv (leave p s) := by
  have key : ∀ c ∈ (leave p s).chans, c.waiting = true ∧ c.notified = true ∧ c.tx = false := by
    intro c hc
    simp only [leave, abortAll, notifyAll, List.mem_map] at hc
    obtain ⟨d, ⟨e, he, rfl⟩, rfl⟩ := hc
    simp [h e he]
  exact ⟨fun c hc => (key c hc).1, fun _ c hc => (key c hc).2.1, fun _ c hc => (key c hc).2.2⟩

theorem inv_modify {s : State} (i : Nat) (f : Chan → Chan)
    (hw : ∀ c, (f c).waiting = c.waiting) (hn : ∀ c, (f c).notified = c.notified)
    (ht : ∀ c, c.tx = false → (f c).tx = false) (h : Inv s) :
    Inv { s with chans := modify s.chans i f } := by
  refine ⟨fun c hc => ?_, fun hp c hc => ?_, fun hp c hc => ?_⟩
  · rcases mem_modify hc with hc | ⟨d, hd, rfl⟩
    · exact h.waiting c hc
    · rw [hw]; exact h.waiting d hd
  · rcases mem_modify hc with hc | ⟨d, hd, rfl⟩
    · exact h.notified hp c hc
    · rw [hn]; exact h.notified hp d hd
  · rcases mem_modify hc with hc | ⟨d, hd, rfl⟩
    · exact h.released hp c hc
    · exact ht _ (h.released hp d hd)

theorem inv_step {s : State} (h : Inv s) (a : Step) : Inv (step s a) := by
  cases a with
  | start =>
    simp only [step]; split
    · exact ⟨h.waiting, fun hp => by simp [over] at hp, fun hp => by simp [over] at hp⟩
    · exact h
  | open_ =>
    simp only [step]; split
    · rename_i hp
      refine ⟨fun c hc => ?_, fun hq => by simp [over, hp] at hq, fun hq => by simp [over, hp] at hq⟩
      rcases List.mem_append.mp hc with hc | hc
      · exact h.waiting c hc
      · simp at hc; subst hc; rfl
    · exact h
  | openFails m =>
    simp only [step]; split
    · refine inv_leave _ fun c hc => ?_
      cases m
      · exact h.waiting c hc
      · simp only [if_true, List.mem_append, List.mem_singleton] at hc
        rcases hc with hc | rfl
        · exact h.waiting c hc
        · rfl
    · exact h
  | prepared =>
    simp only [step]; split
    · exact ⟨h.waiting, fun hp => by simp [over] at hp, fun hp => by simp [over] at hp⟩
    · exact h
  | error =>
    simp only [step]; split
    · exact inv_leave _ h.waiting
    · exact h
  | streamEnds =>
    simp only [step]; split
    · refine ⟨fun c hc => ?_, fun _ c hc => ?_, fun hp => by simp [over] at hp⟩ <;>
        simp only [notifyAll, List.mem_map] at hc <;> obtain ⟨d, hd, rfl⟩ := hc
      · exact h.waiting d hd
      · simp [h.waiting d hd]
    · exact h
  | feedEnds c => exact inv_modify c _ (fun _ => rfl) (fun _ => rfl) (fun _ _ => rfl) h
  | responseEnds c =>
    refine inv_modify c _ (fun x => ?_) (fun x => ?_) (fun x hx => ?_) h <;> split <;> first | rfl | exact hx
  | connectionFails c => exact inv_modify c _ (fun _ => rfl) (fun _ => rfl) (fun _ hx => hx) h
  | drained ok =>
    simp only [step]; split
    · rename_i hp
      refine ⟨h.waiting, fun _ => h.notified (.inl hp.1), fun _ c hc => ?_⟩
      have := List.all_eq_true.mp hp.2 c hc
      simp at this
      exact this.1
    · exact h
  | drop =>
    simp only [step]; split
    · exact h
    · exact inv_leave _ h.waiting

theorem inv_run (l : List Step) : ∀ {s : State}, Inv s → Inv (run s l) := by
  induction l with
  | nil => exact fun h => h
  | cons a l ih => exact fun h => ih (inv_step h a)

theorem inv_init : Inv State.init :=
  ⟨fun _ h => by simp [State.init] at h, fun _ _ h => by simp [State.init] at h,
   fun _ _ h => by simp [State.init] at h⟩

/-- **C49.** For every schedule: once the result stream has ended, failed or been dropped, the request
stream of every channel opened for the query has ended. -/
theorem C49_close_ends_every_channel (l : List Step) (h : over (run .init l).phase) :
    ∀ c ∈ (run .init l).chans, c.ended = true := by
  intro c hc
  have i := inv_run l inv_init
  simp [Chan.ended, i.notified (.inr h) c hc, i.released h c hc]

/-- A channel ends as soon as its feed ends, without waiting for its siblings, once the head stage has
delivered everything. -/
theorem C49_channel_ends_with_its_feed (l : List Step) (h : (run .init l).phase = .draining) :
    ∀ c ∈ (run .init l).chans, c.tx = false → c.ended = true := by
  intro c hc ht
  simp [Chan.ended, (inv_run l inv_init).notified (.inl h) c hc, ht]

/-- No channel is cut while the query runs: before the head stage's stream ends (and without error or
drop) no request stream has ended, so no worker sees a premature end of query. -/
theorem C49_no_premature_end (l : List Step)
    (h : (run .init l).phase = .preparing ∨ (run .init l).phase = .streaming) :
    ∀ c ∈ (run .init l).chans, c.ended = false := by
  have key : ∀ (l : List Step) (s : State),
      (s.phase = .notStarted ∨ s.phase = .preparing ∨ s.phase = .streaming →
        ∀ c ∈ s.chans, c.notified = false) →
      ((run s l).phase = .notStarted ∨ (run s l).phase = .preparing ∨ (run s l).phase = .streaming →
        ∀ c ∈ (run s l).chans, c.notified = false) := by
    intro l
    induction l with
    | nil => exact fun s h => h
    | cons a l ih =>
      intro s hs
      refine ih (step s a) ?_
      have modi : ∀ (i : Nat) (f : Chan → Chan), (∀ c, (f c).notified = c.notified) →
          (s.phase = .notStarted ∨ s.phase = .preparing ∨ s.phase = .streaming →
            ∀ c ∈ modify s.chans i f, c.notified = false) := by
        intro i f hf hp c hc
        rcases mem_modify hc with hc | ⟨d, hd, rfl⟩
        · exact hs hp c hc
        · rw [hf]; exact hs hp d hd
      cases a with
      | start => simp only [step]; split
                 · rename_i hp; exact fun _ => hs (.inl hp)
                 · exact hs
      | open_ =>
        simp only [step]; split
        · rename_i hp
          intro _ c hc
          rcases List.mem_append.mp hc with hc | hc
          · exact hs (.inr (.inl hp)) c hc
          · simp at hc; subst hc; rfl
        · exact hs
      | openFails m => simp only [step]; split
                       · intro hp; simp [leave] at hp
                       · exact hs
      | prepared => simp only [step]; split
                    · rename_i hp; exact fun _ => hs (.inr (.inl hp))
                    · exact hs
      | error => simp only [step]; split
                 · intro hp; simp [leave] at hp
                 · exact hs
      | streamEnds => simp only [step]; split
                      · intro hp; simp at hp
                      · exact hs
      | feedEnds c => exact modi c _ fun _ => rfl
      | responseEnds c => exact modi c _ fun x => by split <;> rfl
      | connectionFails c => exact modi c _ fun _ => rfl
      | drained ok =>
        simp only [step]; split
        · intro hp; cases ok <;> simp at hp
        · exact hs
      | drop => simp only [step]; split
                · exact hs
                · intro hp; simp [leave] at hp
  intro c hc
  have := key l .init (fun _ c hc => by simp [State.init] at hc) (.inr h) c hc
  simp [Chan.ended, this]

theorem getElem?_modify (cs : List Chan) (i j : Nat) (f : Chan → Chan) :
    (modify cs i f)[j]? = if i = j then cs[j]?.map f else cs[j]? := by
  unfold modify
  cases h : cs[i]? with
  | none =>
    simp only
    split
    · rename_i hij; subst hij; simp [h]
    · rfl
  | some c =>
    simp only [List.getElem?_set]
    split
    · rename_i hij
      subst hij
      obtain ⟨hlt, heq⟩ := List.getElem?_eq_some_iff.mp h
      simp [hlt, heq]
    · rfl

theorem run_responses (cs : List Chan) : ∀ (n : Nat) (s : State), s.phase = .draining → s.chans = cs →
    (∀ c ∈ cs, c.tx = false ∧ c.notified = true) →
    let t := run s ((List.range n).map .responseEnds)
    t.phase = .draining ∧ t.chans.length = cs.length
      ∧ ∀ (i : Nat) (c : Chan), t.chans[i]? = some c → c.tx = false ∧ c.notified = true ∧ (i < n → c.open_ = false) := by
  intro n
  induction n with
  | zero =>
    intro s hp hc h
    refine ⟨hp, by simp [run, hc], fun i c hi => ?_⟩
    simp only [run, List.range_zero, List.map_nil, List.foldl_nil, hc] at hi
    have := h c (List.mem_of_getElem? hi)
    exact ⟨this.1, this.2, fun h => absurd h (Nat.not_lt_zero _)⟩
  | succ n ih =>
    intro s hp hc h
    obtain ⟨h1, h2, h3⟩ := ih s hp hc h
    simp only [run, List.range_succ, List.map_append, List.foldl_append, List.map_cons, List.map_nil,
      List.foldl_cons, List.foldl_nil] at h1 h2 h3 ⊢
    generalize List.foldl step s ((List.range n).map .responseEnds) = t at h1 h2 h3
    refine ⟨h1, ?_, fun i c hi => ?_⟩
    · simp only [step, modify]
      cases t.chans[n]? <;> simp [h2]
    · simp only [step, getElem?_modify] at hi
      split at hi
      · rename_i hin
        subst hin
        cases hd : t.chans[n]? with
        | none => rw [hd] at hi; cases hi
        | some d =>
          rw [hd] at hi
          have := h3 n d hd
          simp only [Option.map_some, Option.some.injEq] at hi
          rw [if_pos (by simp [Chan.ended, this.1, this.2.1])] at hi
          subst hi
          exact ⟨this.1, this.2.1, fun _ => rfl⟩
      · rename_i hin
        have := h3 i c hi
        exact ⟨this.1, this.2.1, fun hlt => this.2.2 (by omega)⟩

/-- **C49**, progress: once the head stage is done and all feeds ended, the workers' answers alone bring
the query to its end, for any number of channels and after any history. -/
theorem C49_end_is_reached (l : List Step) (hp : (run .init l).phase = .draining)
    (hf : ∀ c ∈ (run .init l).chans, c.tx = false) :
    (run .init (l ++ (List.range (run .init l).chans.length).map .responseEnds ++ [.drained true])).phase
      = .finished := by
  obtain ⟨h1, h2, h3⟩ := run_responses _ (run .init l).chans.length (run .init l) hp rfl
    (fun c hc => ⟨hf c hc, (inv_run l inv_init).notified (.inl hp) c hc⟩)
  simp only [run, List.foldl_append, List.foldl_cons, List.foldl_nil] at h1 h2 h3 ⊢
  generalize List.foldl step (List.foldl step State.init l)
    (List.map Step.responseEnds (List.range (List.foldl step State.init l).chans.length)) = t at h1 h2 h3
  simp only [step]
  rw [if_pos]
  · rfl
  · refine ⟨h1, List.all_eq_true.mpr fun c hc => ?_⟩
    obtain ⟨i, hi⟩ := List.mem_iff_getElem?.mp hc
    have := h3 i c hi
    have hlt := (List.getElem?_eq_some_iff.mp hi).1
    simp [this.1, this.2.2 (by omega)]

/-- Finding: a work unit feed that never ends keeps the query from ending, although every row has been
delivered (for instance under a satisfied LIMIT): as long as that feed does not end and the user does not
drop the stream, the result stream never ends and the channel stays open. -/
theorem C49_endless_feed_blocks_end (s : State) (c : Nat) (l : List Step) (hp : s.phase = .draining)
    (hc : ∃ x, s.chans[c]? = some x ∧ x.tx = true)
    (hl : ∀ a ∈ l, a ≠ .feedEnds c ∧ a ≠ .drop) :
    (run s l).phase = .draining ∧ ∃ x, (run s l).chans[c]? = some x ∧ x.ended = false := by
  induction l generalizing s with
  | nil =>
    obtain ⟨x, hx, ht⟩ := hc
    exact ⟨hp, x, hx, by simp [Chan.ended, ht]⟩
  | cons a l ih =>
    have ha := hl a (List.mem_cons_self ..)
    have hl' : ∀ b ∈ l, b ≠ .feedEnds c ∧ b ≠ .drop := fun b hb => hl b (List.mem_cons_of_mem _ hb)
    have modi : ∀ (i : Nat) (f : Chan → Chan), (i = c → ∀ x : Chan, (f x).tx = x.tx) →
        ∃ x, (modify s.chans i f)[c]? = some x ∧ x.tx = true := by
      intro i f hf
      obtain ⟨x, hx, ht⟩ := hc
      rw [getElem?_modify]
      split
      · rename_i hic
        exact ⟨f x, by simp [hx], by rw [hf hic]; exact ht⟩
      · exact ⟨x, hx, ht⟩
    show (run (step s a) l).phase = .draining ∧ _
    have base : ∀ (t : State), step s a = t → t.phase = .draining →
        (∃ x, t.chans[c]? = some x ∧ x.tx = true) →
        (run (step s a) l).phase = .draining
          ∧ ∃ x, (run s (a :: l)).chans[c]? = some x ∧ x.ended = false := by
      intro t ht h1 h2
      have := ih t h1 h2 hl'
      rw [show run s (a :: l) = run (step s a) l from rfl, ht]
      exact this
    cases a with
    | feedEnds d =>
      exact base _ rfl hp (modi d _ fun hd => absurd (by rw [hd]) ha.1)
    | responseEnds d => exact base _ rfl hp (modi d _ fun _ x => by split <;> rfl)
    | connectionFails d => exact base _ rfl hp (modi d _ fun _ x => rfl)
    | drop => exact absurd rfl ha.2
    | drained ok =>
      refine base s ?_ hp hc
      simp only [step]
      rw [if_neg]
      rintro ⟨-, hall⟩
      obtain ⟨x, hx, ht⟩ := hc
      have := List.all_eq_true.mp hall x (List.mem_of_getElem? hx)
      simp [ht] at this
    | _ => exact base s (by simp [step, hp]) hp hc

/-- Non-vacuity: two channels, the second one opened late, one feed failing early; the query ends and
both request streams ended. -/
example : let s := run .init [.start, .open_, .feedEnds 0, .open_, .prepared, .streamEnds, .feedEnds 1,
      .responseEnds 1, .responseEnds 0, .drained true]
    (s.phase = .finished ∧ s.chans.map Chan.ended = [true, true]) := by decide

/-- Non-vacuity: planning fails after one channel was opened. -/
example : let s := run .init [.start, .open_, .openFails true]
    (s.phase = .failed ∧ s.chans.map Chan.ended = [true, true]) := by decide

/-- Non-vacuity of the finding: the state it starts from is reachable. -/
example : let s := run .init [.start, .open_, .prepared, .streamEnds]
    (s.phase = .draining ∧ s.chans.map (·.tx) = [true]) := by decide

end DD.Close
