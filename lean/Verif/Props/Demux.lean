import Verif.Lemmas.DemuxLive
import Mathlib.Data.List.TakeWhile
/-
C29-C33: what the consumers of one worker connection observe, for every message sequence and every schedule.
`expected`/`total` (in `Lemmas/Demux.lean`) is the specification: the payloads of the consumer's partition in wire order up
to the first faulty item, then that item's error.
-/
namespace DD.Demux
variable {α : Type}

/-- **C29** Whatever the interleaving of the background task, polls and drops, and even if the task panics, what a partition's
consumer received so far is a prefix of what it must receive: the payloads of its own partition, in wire order (then possibly an
error). -/
theorem C29_delivers_own_partition_in_order (c : Cfg α) (steps : List Step) (i : Nat) :
    ((run c (init c) steps).chans i).out <+: total c i := by
  obtain ⟨steps', hs, _, h⟩ := without_panic c steps
  rw [h.out i]
  exact (run_inv c steps' hs _ (init_inv c)).outPrefix i

/-- When every message names a requested partition, `total` is just the partition's payloads in order. -/
theorem C29_total_of_valid (c : Cfg α) (hc : c.connectErr = none) (hv : ∀ w ∈ c.sent, deliverable c w = true) (i : Nat) :
    total c i = (c.sent.filterMap (payloadOf (c.start + i))).map .ok := by
  have h1 : c.sent.takeWhile (deliverable c) = c.sent := List.takeWhile_eq_self_iff.mpr hv
  have h2 : c.sent.dropWhile (deliverable c) = [] := List.dropWhile_eq_nil_iff.mpr hv
  simp [total, hc, expected, h1, h2]

/-- **C29** (misrouted message) If the wire carries an item that is not deliverable (an error, undecodable metadata, a
partition outside the requested range), no consumer can see a clean end: one that ended has received an error. -/
theorem C29_faulty_message_fails_every_consumer (c : Cfg α) (steps : List Step) (hs : Step.crash ∉ steps)
    (hbad : ∃ w ∈ c.sent, deliverable c w = false) (i : Nat)
    (he : ((run c (init c) steps).chans i).eos = true) :
    ∃ e, Except.error e ∈ ((run c (init c) steps).chans i).out := by
  rw [(run_inv c steps hs _ (init_inv c)).eos i he]
  unfold total
  cases hc : c.connectErr with
  | some e => exact ⟨e, by simp⟩
  | none =>
    obtain ⟨w, hw, hd⟩ := hbad
    have hne : c.sent.dropWhile (deliverable c) ≠ [] := by
      intro h0
      have := List.dropWhile_eq_nil_iff.mp h0 w hw
      rw [hd] at this; simp at this
    obtain ⟨x, xs, hx⟩ := List.exists_cons_of_ne_nil hne
    exact ⟨faultErr x, by simp [expected, hx]⟩

/-- **C32** (client side) A consumer that saw its stream end has received everything it must receive. -/
theorem C32_client_end_is_complete (c : Cfg α) (steps : List Step) (hs : Step.crash ∉ steps) (i : Nat)
    (he : ((run c (init c) steps).chans i).eos = true) :
    ((run c (init c) steps).chans i).out = total c i :=
  (run_inv c steps hs _ (init_inv c)).eos i he

/-- **C32** (client side, clean end) If it ended and received no error, then the RPC succeeded, nothing on the wire was
faulty, and it received exactly the payloads of its partition. -/
theorem C32_client_clean_end (c : Cfg α) (steps : List Step) (hs : Step.crash ∉ steps) (i : Nat)
    (he : ((run c (init c) steps).chans i).eos = true)
    (hclean : ∀ e, Except.error e ∉ ((run c (init c) steps).chans i).out) :
    c.connectErr = none ∧ (∀ w ∈ c.sent, deliverable c w = true) ∧
    ((run c (init c) steps).chans i).out = (c.sent.filterMap (payloadOf (c.start + i))).map .ok := by
  have h1 := C32_client_end_is_complete c steps hs i he
  have hc : c.connectErr = none := by
    cases hc : c.connectErr with
    | none => rfl
    | some e => exfalso; apply hclean e; rw [h1]; simp [total, hc]
  have hv : ∀ w ∈ c.sent, deliverable c w = true := by
    intro w hw
    by_contra hd
    obtain ⟨e, hmem⟩ := C29_faulty_message_fails_every_consumer c steps hs ⟨w, hw, by simpa using hd⟩ i he
    exact hclean e hmem
  exact ⟨hc, hv, by rw [h1, C29_total_of_valid c hc hv i]⟩

/-- A panic of the background task drops the senders without sending an error: the consumer sees a clean end and loses
rows. Completeness needs the "no crash" hypothesis. -/
theorem C32_client_panic_truncates_silently :
    ∃ (c : Cfg Nat) (steps : List Step), c.connectErr = none ∧ (∀ w ∈ c.sent, deliverable c w = true) ∧
      ((run c (init c) steps).chans 0).eos = true ∧ (∀ e, Except.error e ∉ ((run c (init c) steps).chans 0).out) ∧
      ((run c (init c) steps).chans 0).out ≠ total c 0 := by
  refine ⟨⟨0, 1, 10, none, [.msg 0 1 7, .msg 0 1 8]⟩, [.poll 0, .task, .task, .crash, .poll 0, .poll 0],
    rfl, by decide, rfl, ?_, ?_⟩
  · intro e he
    simp [run, step, pollStep, taskStep, init, send, upd, Item.result] at he
  · intro h
    have := congrArg List.length h
    simp [run, step, pollStep, taskStep, init, send, upd, Item.result, total, expected, deliverable, payloadOf] at this

/-- **C30** At any time, also after a panic of the task, the bytes buffered for the consumers are zero or less than the budget plus the
largest message. -/
theorem C30_buffered_bytes_bounded (c : Cfg α) (m : Nat)
    (hm : ∀ p size a, Wire.msg p size a ∈ c.sent → size ≤ m) (steps : List Step) :
    let s := run c (init c) steps
    buffered c s = 0 ∨ buffered c s < c.budget + m := by
  intro s'
  obtain ⟨steps', hs, _, ha⟩ := without_panic c steps
  obtain ⟨s, hsdef⟩ : ∃ s, s = run c (init c) steps' := ⟨_, rfl⟩
  have h : Inv c s := hsdef ▸ run_inv c steps' hs _ (init_inv c)
  have hbuf : buffered c s' = buffered c s := by
    unfold buffered
    refine sumN_congr _ _ _ fun i _ => ?_
    have := ha.queue i
    rw [← hsdef] at this
    exact congrArg (fun q => (q.map Item.bytes).sum) this
  rw [hbuf]
  have hb := h.bytes
  rcases h.bound with h0 | ⟨p, size, a, hmem, hlt⟩
  · left; omega
  · right; have := hm p size a hmem; omega

/-! ### C31: progress -/

/-- Every partition stream is polled again and again until it is dropped, and the background task is scheduled again and
again. -/
structure Fair (c : Cfg α) (σ : Nat → Step) : Prop where
  task : ∀ t, ∃ t' ≥ t, σ t' = .task
  poll : ∀ t, ∀ j < c.n, ∃ t' ≥ t, σ t' = .poll j ∨ ((runFor c σ t').chans j).inner = false

theorem runFor_inv (c : Cfg α) (σ : Nat → Step) (hcl : ∀ t, Clean (runFor c σ t) (σ t)) (t : Nat) :
    Inv c (runFor c σ t) ∧ buffered c (runFor c σ t) = (runFor c σ t).reserved := by
  induction t with
  | zero =>
    refine ⟨init_inv c, ?_⟩
    have := (init_inv c).bytes
    have h0 : (init c).reserved = 0 := rfl
    show buffered c (init c) = (init c).reserved
    omega
  | succ t ih =>
    have hne : σ t ≠ .crash := by
      intro h; have := hcl t; rw [h] at this; exact this
    exact ⟨step_inv c _ _ hne ih.1, step_exact c _ _ (hcl t) ih.2⟩

/-- **C31** (partial) With a non-zero budget, if no stream is dropped *while messages are buffered for it*, then under any
fair schedule every consumer that is not dropped reaches the end of its stream with everything it must receive.
Missing from the full claim: siblings dropped while messages are buffered for them, and a budget of zero; both are
refuted below. -/
theorem C31_no_starvation_partial (c : Cfg α) (σ : Nat → Step) (hb : 0 < c.budget)
    (hcl : ∀ t, Clean (runFor c σ t) (σ t)) (hfair : Fair c σ)
    (i : Nat) (hi : i < c.n) (hlive : ∀ t, ((runFor c σ t).chans i).inner = true) :
    ∃ t, ((runFor c σ t).chans i).eos = true ∧ ((runFor c σ t).chans i).out = total c i := by
  have hne : ∀ t, σ t ≠ .crash := by
    intro t h; have := hcl t; rw [h] at this; exact this
  have hmono : ∀ t d, measure c (runFor c σ (t + d)) < measure c (runFor c σ t) ∨ runFor c σ (t + d) = runFor c σ t := by
    intro t d
    induction d with
    | zero => right; rfl
    | succ d ih =>
      have h1 := step_measure c (runFor c σ (t + d)) (σ (t + d)) (hne _)
      have h2 : runFor c σ (t + (d + 1)) = step c (runFor c σ (t + d)) (σ (t + d)) := rfl
      rw [h2]
      rcases h1 with h1 | h1 <;> rcases ih with ih | ih
      · left; rw [h1]; exact ih
      · right; rw [h1]; exact ih
      · left; exact Nat.lt_trans h1 ih
      · left; rw [ih] at h1 ⊢; exact h1
  have key : ∀ m t, measure c (runFor c σ t) ≤ m → ∃ t', ((runFor c σ t').chans i).eos = true := by
    intro m
    induction m with
    | zero =>
      intro t hm
      by_cases he : ((runFor c σ t).chans i).eos = true
      · exact ⟨t, he⟩
      · have hI := runFor_inv c σ hcl t
        rcases progress c _ hI.1 hI.2 hb i hi (hlive t) (by simpa using he) with h | ⟨j, _, _, h⟩ <;> omega
    | succ m ih =>
      intro t hm
      by_cases he : ((runFor c σ t).chans i).eos = true
      · exact ⟨t, he⟩
      · have hI := runFor_inv c σ hcl t
        have hgo : ∃ t', measure c (runFor c σ t') < measure c (runFor c σ t) := by
          rcases progress c _ hI.1 hI.2 hb i hi (hlive t) (by simpa using he) with h | ⟨j, hj, hinj, h⟩
          · obtain ⟨t', ht', hσ⟩ := hfair.task t
            obtain ⟨d, rfl⟩ := Nat.exists_eq_add_of_le ht'
            rcases hmono t d with h1 | h1
            · exact ⟨_, h1⟩
            · refine ⟨t + d + 1, ?_⟩
              show measure c (step c (runFor c σ (t + d)) (σ (t + d))) < _
              rw [hσ, h1]; exact h
          · obtain ⟨t', ht', hσ⟩ := hfair.poll t j hj
            obtain ⟨d, rfl⟩ := Nat.exists_eq_add_of_le ht'
            rcases hmono t d with h1 | h1
            · exact ⟨_, h1⟩
            · rcases hσ with hσ | hσ
              · refine ⟨t + d + 1, ?_⟩
                show measure c (step c (runFor c σ (t + d)) (σ (t + d))) < _
                rw [hσ, h1]; exact h
              · rw [h1, hinj] at hσ; simp at hσ
        obtain ⟨t', ht'⟩ := hgo
        exact ih t' (by omega)
  obtain ⟨t, ht⟩ := key _ 0 (Nat.le_refl _)
  exact ⟨t, ht, (runFor_inv c σ hcl t).1.eos i ht⟩

/-- **C31 is false as stated**: a sibling that is dropped while messages are buffered for it never gives their bytes back
to the budget (`memory_reservation.shrink` runs only when a message is consumed or its send fails), so the background task
waits forever. Here consumer 0 keeps polling, sibling 1 was dropped, one message for consumer 0 is on the wire, and in
no continuation in which consumer 0 is not dropped does it ever receive anything. -/
theorem C31_dropped_sibling_starves :
    ∃ (c : Cfg Nat) (steps : List Step), 0 < c.budget ∧ Step.crash ∉ steps ∧ Step.dropInner 0 ∉ steps ∧
      total c 0 = [.ok 7] ∧
      ∀ more : List Step, Step.crash ∉ more → Step.dropInner 0 ∉ more →
        ((run c (init c) (steps ++ more)).chans 0).out = [] ∧ ((run c (init c) (steps ++ more)).chans 0).eos = false := by
  let c : Cfg Nat := ⟨0, 2, 5, none, [.msg 1 5 1, .msg 0 1 7]⟩
  let steps : List Step := [.poll 0, .task, .task, .dropInner 1]
  refine ⟨c, steps, by decide, by decide, by decide, rfl, ?_⟩
  have hinv : ∀ (more : List Step) (s : State Nat), Step.crash ∉ more → Step.dropInner 0 ∉ more →
      s.phase = .running → s.reserved ≥ c.budget → s.aborted = false → s.cancelled = false →
      s.remaining ≥ 1 → ((s.chans 1).dropped = false → s.remaining ≥ 2) →
      (s.chans 0).queue = [] → (s.chans 0).out = [] → (s.chans 0).eos = false → (s.chans 0).inner = true →
      (s.chans 1).inner = false →
      ((run c s more).chans 0).out = [] ∧ ((run c s more).chans 0).eos = false := by
    intro more
    induction more with
    | nil => intro s _ _ _ _ _ _ _ _ _ ho he _ _; exact ⟨ho, he⟩
    | cons st more ih =>
      intro s hc hd h1 h2 h3 h4 h5 h6 h7 h8 h9 h10 h11
      simp only [List.mem_cons, not_or] at hc hd
      show ((run c (step c s st) more).chans 0).out = [] ∧ ((run c (step c s st) more).chans 0).eos = false
      have lt2 : ∀ i, i < c.n → i = 0 ∨ i = 1 := by
        intro i hi; have : i < 2 := hi; omega
      cases st with
      | crash => exact absurd rfl hc.1
      | task =>
        have : step c s .task = s := by
          simp [step, taskStep, h1, h2, h3, h4]
        rw [this]
        exact ih s hc.2 hd.2 h1 h2 h3 h4 h5 h6 h7 h8 h9 h10 h11
      | poll i =>
        have : step c s (.poll i) = s ∨ step c s (.poll i) = { s with firstPoll := true } := by
          simp only [step, pollStep]
          split
          · rename_i hcond
            rcases lt2 i hcond.1 with rfl | rfl
            · right; simp [h7, h1, h3]
            · rw [h11] at hcond; simp at hcond
          · left; rfl
        rcases this with h | h
        · rw [h]; exact ih s hc.2 hd.2 h1 h2 h3 h4 h5 h6 h7 h8 h9 h10 h11
        · rw [h]; exact ih _ hc.2 hd.2 h1 h2 h3 h4 h5 h6 h7 h8 h9 h10 h11
      | dropInner i =>
        have : step c s (.dropInner i) = s := by
          simp only [step, dropInner]
          split
          · rename_i hcond
            rcases lt2 i hcond.1 with rfl | rfl
            · exact absurd rfl hd.1
            · rw [h11] at hcond; simp at hcond
          · rfl
        rw [this]
        exact ih s hc.2 hd.2 h1 h2 h3 h4 h5 h6 h7 h8 h9 h10 h11
      | dropCallback i =>
        simp only [step, dropCallback]
        split
        · rename_i hcond
          rcases lt2 i hcond.1 with rfl | rfl
          · rw [h10] at hcond; simp at hcond
          · have h6' := h6 hcond.2.2
            refine ih _ hc.2 hd.2 h1 h2 h3 ?_ ?_ ?_ h7 h8 h9 h10 h11
            · simp [h4]; omega
            · show s.remaining - 1 ≥ 1; omega
            · intro hf; simp [upd] at hf
        · exact ih s hc.2 hd.2 h1 h2 h3 h4 h5 h6 h7 h8 h9 h10 h11
  intro more hc hd
  have hrun : run c (init c) (steps ++ more) = run c (run c (init c) steps) more := by
    simp [run, List.foldl_append]
  rw [hrun]
  exact hinv more _ hc hd (by decide) (by decide) (by decide) (by decide) (by decide) (by decide) (by decide) (by decide)
    (by decide) (by decide) (by decide)

/-- **C31 is false for a budget of zero**: the gate `reserved >= budget` holds even when nothing is buffered, so no
consumer ever receives a message, although the code's comment promises that one message always passes. -/
theorem C31_zero_budget_starves (c : Cfg α) (hb : c.budget = 0) (hc : c.connectErr = none) (steps : List Step)
    (hs : Step.crash ∉ steps) (i : Nat) : ((run c (init c) steps).chans i).out = [] := by
  have key : ∀ (steps : List Step) (s : State α), Step.crash ∉ steps →
      (∀ j, (s.chans j).queue = [] ∧ (s.chans j).out = []) →
      ∀ j, ((run c s steps).chans j).out = [] := by
    intro steps
    induction steps with
    | nil => intro s _ h j; exact (h j).2
    | cons st steps ih =>
      intro s hs h
      simp only [List.mem_cons, not_or] at hs
      refine ih (step c s st) hs.2 ?_
      cases st with
      | crash => exact absurd rfl hs.1
      | task =>
        intro j
        simp only [step, taskStep, hc, hb, ge_iff_le, Nat.zero_le, if_true]
        split
        · exact h j
        · split
          · exact h j
          · split
            · exact h j
            · split <;> exact h j
          · split <;> exact h j
      | poll k =>
        intro j
        simp only [step, pollStep, (h k).1]
        split
        · split
          · simp only [upd]; split
            · exact ⟨rfl, (h k).2⟩
            · exact h j
          · exact h j
        · exact h j
      | dropInner k =>
        intro j
        simp only [step, dropInner]
        split
        · simp only [upd]; split
          · exact ⟨rfl, (h k).2⟩
          · exact h j
        · exact h j
      | dropCallback k =>
        intro j
        simp only [step, dropCallback]
        split
        · simp only [upd]; split
          · exact h k
          · exact h j
        · exact h j
  exact key steps _ hs (fun j => ⟨rfl, rfl⟩) i

/-! ### C33: cancellation -/

structure CancelInv (c : Cfg α) (s : State α) : Prop where
  ab : 0 < c.n → s.holders = 0 → s.aborted = true
  ca : 0 < c.n → s.remaining = 0 → s.cancelled = true
  pos : s.cancelled = true → 0 < c.n

theorem cancelInv_step (c : Cfg α) (s : State α) (st : Step) (h : CancelInv c s) : CancelInv c (step c s st) := by
  have hf : ∀ (s' : State α) (e : Err), s'.holders = s.holders → s'.aborted = s.aborted → s'.remaining = s.remaining →
      s'.cancelled = s.cancelled → CancelInv c (fanout s' e) := by
    intro s' e h1 h2 h3 h4
    exact ⟨fun hn hh => h2 ▸ h.ab hn (h1 ▸ hh), fun hn hh => h4 ▸ h.ca hn (h3 ▸ hh), fun hh => h.pos (h4 ▸ hh)⟩
  cases st with
  | crash => exact ⟨h.ab, h.ca, h.pos⟩
  | task =>
    simp only [step, taskStep]
    split
    · exact h
    · split
      · exact h
      · split
        · exact ⟨h.ab, h.ca, h.pos⟩
        · split
          · split
            · exact hf _ _ rfl rfl rfl rfl
            · exact ⟨h.ab, h.ca, h.pos⟩
          · exact h
      · split
        · exact ⟨h.ab, h.ca, h.pos⟩
        · split
          · exact h
          · split
            · exact ⟨h.ab, h.ca, h.pos⟩
            · exact hf _ _ rfl rfl rfl rfl
            · exact hf _ _ rfl rfl rfl rfl
            · split
              · exact hf _ _ rfl rfl rfl rfl
              · split
                · simp only [send]; split <;> exact ⟨h.ab, h.ca, h.pos⟩
                · exact hf _ _ rfl rfl rfl rfl
  | poll i =>
    simp only [step, pollStep]
    split
    · split
      · exact ⟨h.ab, h.ca, h.pos⟩
      · split <;> exact ⟨h.ab, h.ca, h.pos⟩
    · exact h
  | dropInner i =>
    simp only [step, dropInner]
    split
    · refine ⟨fun _ hh => ?_, h.ca, h.pos⟩
      have hh' : s.holders - 1 = 0 := hh
      simp [hh']
    · exact h
  | dropCallback i =>
    simp only [step, dropCallback]
    split
    · rename_i hcond
      refine ⟨h.ab, fun _ hh => ?_, fun _ => by omega⟩
      have hh' : s.remaining - 1 = 0 := hh
      simp [hh']
    · exact h

theorem cancelInv_run (c : Cfg α) (steps : List Step) (s : State α) (h : CancelInv c s) :
    CancelInv c (run c s steps) := by
  induction steps generalizing s with
  | nil => exact h
  | cons st steps ih => exact ih _ (cancelInv_step c s st h)

/-- **C33** (partial: "cancelled exactly when the last stream is dropped") In every reachable state, the background task
has been stopped from outside (aborted) if and only if every partition stream has been dropped, and the cancellation
token fired if and only if every drop callback ran; so as long as one stream is alive it is neither aborted nor cancelled.
Missing: the notification of a worker that was never contacted, refuted below. -/
theorem C33_stopped_iff_all_dropped_partial (c : Cfg α) (hn : 0 < c.n) (steps : List Step) :
    let s := run c (init c) steps
    (s.aborted = true ↔ ∀ i < c.n, (s.chans i).inner = false) ∧
    (s.cancelled = true ↔ ∀ i < c.n, (s.chans i).dropped = true) := by
  intro s'
  obtain ⟨steps', hs, _, ha⟩ := without_panic c steps
  have goal : ((run c (init c) steps').aborted = true ↔ ∀ i < c.n, ((run c (init c) steps').chans i).inner = false) ∧
      ((run c (init c) steps').cancelled = true ↔ ∀ i < c.n, ((run c (init c) steps').chans i).dropped = true) →
      (s'.aborted = true ↔ ∀ i < c.n, (s'.chans i).inner = false) ∧ (s'.cancelled = true ↔ ∀ i < c.n, (s'.chans i).dropped = true) := by
    intro hg
    refine ⟨?_, ?_⟩
    · rw [ha.aborted, hg.1]; exact forall₂_congr fun i _ => by rw [ha.inner i]
    · rw [ha.cancelled, hg.2]; exact forall₂_congr fun i _ => by rw [ha.dropped i]
  apply goal
  have h : Inv c (run c (init c) steps') := run_inv c steps' hs _ (init_inv c)
  have hc : CancelInv c (run c (init c) steps') := cancelInv_run c steps' _
    ⟨fun h1 h2 => by have : c.n = 0 := h2; omega, fun h1 h2 => by have : c.n = 0 := h2; omega, fun h1 => by simp [init] at h1⟩
  generalize run c (init c) steps' = s at h hc
  have zero : ∀ (f : Nat → Bool) n, (∀ i < n, f i = false) → sumN n (fun i => ind (f i)) = 0 := by
    intro f n
    induction n with
    | zero => intro _; rfl
    | succ n ih => intro hz; rw [sumN_succ, ih (fun i hi => hz i (by omega)), hz n (by omega)]; rfl
  refine ⟨⟨?_, ?_⟩, ⟨?_, ?_⟩⟩
  · intro ha i hi
    have := h.aborted ha
    rw [h.holders] at this
    have := sumN_zero _ _ this i hi
    cases hx : (s.chans i).inner <;> simp_all [ind]
  · intro hall
    apply hc.ab hn
    rw [h.holders]
    exact zero _ _ hall
  · intro ha i hi
    have := h.cancelled ha
    rw [h.remaining] at this
    have := sumN_zero _ _ this i hi
    cases hx : (s.chans i).dropped <;> simp_all [ind]
  · intro hall
    apply hc.ca hn
    rw [h.remaining]
    exact zero _ _ (fun i hi => by simp [hall i hi])

/-- **C33** Once the task is aborted nothing more is pulled from the worker, whatever happens next. -/
theorem C33_nothing_pulled_after_abort (c : Cfg α) (s : State α) (ha : s.aborted = true) (steps : List Step) :
    (run c s steps).wire = s.wire ∧ (run c s steps).contacted = s.contacted := by
  induction steps generalizing s with
  | nil => exact ⟨rfl, rfl⟩
  | cons st steps ih =>
    have hst : (step c s st).aborted = true ∧ (step c s st).wire = s.wire ∧ (step c s st).contacted = s.contacted := by
      cases st with
      | crash => exact ⟨ha, rfl, rfl⟩
      | task => simp [step, taskStep, ha]
      | poll i =>
        simp only [step, pollStep]
        split
        · split
          · exact ⟨ha, rfl, rfl⟩
          · split <;> exact ⟨ha, rfl, rfl⟩
        · exact ⟨ha, rfl, rfl⟩
      | dropInner i =>
        simp only [step, dropInner]
        split
        · exact ⟨by simp [ha], rfl, rfl⟩
        · exact ⟨ha, rfl, rfl⟩
      | dropCallback i =>
        simp only [step, dropCallback]
        split <;> exact ⟨ha, rfl, rfl⟩
    have := ih (step c s st) hst.1
    exact ⟨this.1.trans hst.2.1, this.2.trans hst.2.2⟩

/-- **C33's last clause is false**: if no stream is ever polled, the worker is never contacted, even after every stream was
dropped and the cancellation token fired. `OnDropStream` drops the wrapped stream, and with it the last
`Arc<SpawnedTask>`, before it runs the callback that fires the token, so the branch meant to contact the worker
(`worker_client.rs:162-174`) belongs to a task that has already been aborted. -/
theorem C33_unpolled_worker_never_contacted (c : Cfg α) (steps : List Step)
    (hp : ∀ i, Step.poll i ∉ steps) : (run c (init c) steps).contacted = false := by
  obtain ⟨steps', hs', hp', ha⟩ := without_panic c steps
  rw [ha.contacted]
  have key : ∀ (steps : List Step) (s : State α), Step.crash ∉ steps → (∀ i, Step.poll i ∉ steps) → Inv c s →
      CancelInv c s → s.firstPoll = false → s.contacted = false →
      (run c s steps).contacted = false := by
    intro steps
    induction steps with
    | nil => intro s _ _ _ _ _ h; exact h
    | cons st steps ih =>
      intro s hs hp hI hC hfp hco
      simp only [List.mem_cons, not_or] at hs hp
      have hI' := step_inv c s st (fun e => hs.1 e.symm) hI
      have hC' := cancelInv_step c s st hC
      have hwait := hI.stopped hco
      have hgoal : (step c s st).firstPoll = false ∧ (step c s st).contacted = false := by
        cases st with
        | crash => exact absurd rfl hs.1
        | poll i => exact absurd rfl (hp i).1
        | dropInner i => simp only [step, dropInner]; split <;> exact ⟨hfp, hco⟩
        | dropCallback i => simp only [step, dropCallback]; split <;> exact ⟨hfp, hco⟩
        | task =>
          simp only [step, taskStep, hwait, hfp, Bool.false_eq_true, if_false]
          split
          · exact ⟨hfp, hco⟩
          · rename_i hna
            split
            · rename_i hca
              exfalso
              -- the token fired, so every stream was dropped, so the task was aborted
              have h0 := hI.cancelled hca
              rw [hI.remaining] at h0
              have hall : ∀ i < c.n, (s.chans i).dropped = true := by
                intro i hi
                have := sumN_zero _ _ h0 i hi
                cases hx : (s.chans i).dropped <;> simp_all [ind]
              have hin : ∀ i < c.n, (s.chans i).inner = false := by
                intro i hi
                cases hx : (s.chans i).inner with
                | false => rfl
                | true => have := hI.innerFirst i hx; rw [hall i hi] at this; simp at this
              have zero : ∀ n, (∀ i < n, (s.chans i).inner = false) → sumN n (fun i => ind (s.chans i).inner) = 0 := by
                intro n
                induction n with
                | zero => intro _; rfl
                | succ n ihn => intro hz; rw [sumN_succ, ihn (fun i hi => hz i (by omega)), hz n (by omega)]; rfl
              by_cases hn : 0 < c.n
              · exact hna (hC.ab hn (hI.holders.trans (zero _ hin)))
              · exact hn (hC.pos hca)
            · exact ⟨hfp, hco⟩
      exact ih _ hs.2 (fun i => (hp i).2) hI' hC' hgoal.1 hgoal.2
  exact key steps' _ hs' (fun i => hp' i (hp i)) (init_inv c)
    ⟨fun h1 h2 => by have : c.n = 0 := h2; omega, fun h1 h2 => by have : c.n = 0 := h2; omega, fun h1 => by simp [init] at h1⟩ rfl rfl

/-- Non-vacuity of the previous theorem: three streams, all dropped without a poll; the token did fire. -/
example : let c : Cfg Nat := ⟨0, 3, 5, none, [.msg 1 5 1]⟩
    let s := run c (init c) [.task, .dropInner 2, .dropInner 0, .dropCallback 0, .dropCallback 2, .dropInner 1,
      .dropCallback 1, .task, .task]
    s.cancelled = true ∧ s.contacted = false ∧ s.aborted = true := by decide

/-- Non-vacuity of C29/C30/C32: two partitions interleaved on the wire, one of them behind an offset. -/
example : let c : Cfg Nat := ⟨4, 2, 3, none, [.msg 5 2 10, .msg 4 2 20, .msg 5 2 11, .msg 4 1 21]⟩
    let s := run c (init c) ([.poll 1, .task, .task, .task, .task, .poll 1, .poll 0, .task, .task, .poll 1, .poll 0]
      ++ [.task, .poll 0, .poll 1, .task, .poll 0, .poll 1, .poll 0, .poll 1])
    (s.chans 0).out.length = 2 ∧ (s.chans 1).out.length = 2 ∧ (s.chans 0).eos = true ∧ (s.chans 1).eos = true := by decide

/-- Non-vacuity of C31: a fair, clean schedule (task and polls in turn) for a connection with one partition. -/
example : let c : Cfg Nat := ⟨0, 1, 1, none, [.msg 0 5 1]⟩
    let σ : Nat → Step := fun t => if t % 2 = 0 then .task else .poll 0
    (∀ t, Clean (runFor c σ t) (σ t)) ∧ Fair c σ := by
  intro c σ
  refine ⟨fun t => ?_, ⟨fun t => ?_, fun t j hj => ?_⟩⟩
  · by_cases h : t % 2 = 0 <;> simp [σ, h, Clean]
  · exact ⟨2 * t, by omega, by simp [σ]⟩
  · have hj0 : j = 0 := by have : j < 1 := hj; omega
    subst hj0
    refine ⟨2 * t + 1, by omega, Or.inl ?_⟩
    simp only [σ]; rw [if_neg (by omega)]

end DD.Demux
