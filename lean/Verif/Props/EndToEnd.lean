import Verif.Model.SelectAll
import Verif.Props.Demux
/-
C29/C32 across the whole connection: the server merges the partition streams of a task, the client demultiplexes them.
-/
namespace DD.SelectAll
open DD.Demux (upd)
variable {α : Type}

/-- Items of the merged stream that came from partition stream `i`. -/
def itemsOf (i : Nat) (out : List (Nat × Except Err α)) : List (Except Err α) :=
  out.filterMap fun p => if p.1 = i then some p.2 else none

structure Inv (n : Nat) (sources : Nat → List (Except Err α)) (s : State α) : Prop where
  split : ∀ i < n, itemsOf i s.out ++ (s.srcs i).queue ++ (s.srcs i).todo = sources i
  fin : ∀ i < n, (s.srcs i).finished = true → (s.srcs i).todo = []
  eos : s.eos = true → ∀ i < n, itemsOf i s.out = sources i
  tags : ∀ p ∈ s.out, p.1 < n

def isCrash : Step → Bool
  | .crash _ => true
  | _ => false

theorem itemsOf_append (i : Nat) (a b : List (Nat × Except Err α)) :
    itemsOf i (a ++ b) = itemsOf i a ++ itemsOf i b := by simp [itemsOf]

theorem step_inv (n cap : Nat) (sources : Nat → List (Except Err α)) (s : State α) (st : Step)
    (hst : isCrash st = false) (h : Inv n sources s) : Inv n sources (step n cap s st) := by
  cases st with
  | crash i => simp [isCrash] at hst
  | forward k =>
    simp only [step]
    split
    · rename_i hk
      refine ⟨fun i hi => ?_, fun i hi => ?_, h.eos, h.tags⟩
      · simp only [upd]
        split
        · rename_i hik; subst hik
          have hs := h.split i hi
          simp only [forwardStep]
          split
          · exact hs
          · split
            · rename_i ht; rw [ht] at hs; simpa [ht] using hs
            · rename_i x rest ht
              split
              · rw [ht] at hs; simpa using hs
              · exact hs
        · exact h.split i hi
      · simp only [upd]
        split
        · rename_i hik; subst hik
          simp only [forwardStep]
          split
          · exact h.fin i hi
          · rename_i hf
            split
            · rename_i ht; intro _; exact ht
            · split
              · intro hf'; exact absurd hf' hf
              · intro hf'; exact absurd hf' hf
        · exact h.fin i hi
    · exact h
  | take k =>
    simp only [step]
    split
    · rename_i hk
      split
      · rename_i x q hq
        have hsp : ∀ i < n, itemsOf i (s.out ++ [(k, x)]) ++ (upd s.srcs k { s.srcs k with queue := q } i).queue
            ++ (upd s.srcs k { s.srcs k with queue := q } i).todo = sources i := by
          intro i hi
          have hs := h.split i hi
          simp only [upd]
          split
          · rename_i hik; subst hik
            rw [hq] at hs
            simpa [itemsOf] using hs
          · rename_i hik
            have : itemsOf i (s.out ++ [(k, x)]) = itemsOf i s.out := by
              simp [itemsOf, List.filterMap_append, Ne.symm hik]
            rw [this]; exact hs
        refine ⟨hsp, fun i hi => ?_, fun he i hi => ?_, fun p hp => ?_⟩
        · simp only [upd]
          split
          · rename_i hik; subst hik; exact h.fin i hi
          · exact h.fin i hi
        · -- after the end nothing was queued, so this case cannot happen
          exfalso
          have h1 := h.eos he k hk
          have h2 := h.split k hk
          rw [h1, hq] at h2
          have := congrArg List.length h2
          simp at this
        · simp only [List.mem_append, List.mem_singleton] at hp
          rcases hp with hp | rfl
          · exact h.tags p hp
          · exact hk
      · exact h
    · exact h
  | finish =>
    simp only [step]
    split
    · rename_i hall
      refine ⟨h.split, h.fin, fun _ i hi => ?_, h.tags⟩
      have := List.all_eq_true.mp hall i (List.mem_range.mpr hi)
      simp only [Bool.and_eq_true, List.isEmpty_iff] at this
      have hs := h.split i hi
      rw [this.2, h.fin i hi this.1] at hs
      simpa using hs
    · exact h

theorem run_inv (n cap : Nat) (sources : Nat → List (Except Err α)) (steps : List Step)
    (hs : ∀ st ∈ steps, isCrash st = false) : Inv n sources (run n cap sources steps) := by
  have key : ∀ (steps : List Step) (s : State α), (∀ st ∈ steps, isCrash st = false) → Inv n sources s →
      Inv n sources (steps.foldl (step n cap) s) := by
    intro steps
    induction steps with
    | nil => intro s _ h; exact h
    | cons st steps ih =>
      intro s hs h
      exact ih _ (fun st' h' => hs st' (by simp [h'])) (step_inv n cap sources s st (hs st (by simp)) h)
  exact key steps _ hs ⟨fun i _ => by simp [itemsOf], fun i _ hf => by simp at hf, fun he => by simp at he, fun p hp => by simp at hp⟩

/-- What holds although forwarding tasks panic. -/
structure Weak (n : Nat) (sources : Nat → List (Except Err α)) (s : State α) : Prop where
  split : ∀ i < n, itemsOf i s.out ++ (s.srcs i).queue ++ (s.srcs i).todo <+: sources i
  tags : ∀ p ∈ s.out, p.1 < n

theorem step_weak (n cap : Nat) (sources : Nat → List (Except Err α)) (s : State α) (st : Step) (h : Weak n sources s) :
    Weak n sources (step n cap s st) := by
  cases st with
  | crash k =>
    simp only [step]
    split
    · refine ⟨fun i hi => ?_, h.tags⟩
      simp only [upd]
      split
      · rename_i hik; subst hik
        rw [List.append_nil]
        exact (List.prefix_append _ _).trans (h.split i hi)
      · exact h.split i hi
    · exact h
  | forward k =>
    simp only [step]
    split
    · refine ⟨fun i hi => ?_, h.tags⟩
      simp only [upd]
      split
      · rename_i hik; subst hik
        have hs := h.split i hi
        simp only [forwardStep]
        split
        · exact hs
        · split
          · rename_i ht; rw [ht] at hs; simpa [ht] using hs
          · rename_i x rest ht
            split
            · rw [ht] at hs; simpa using hs
            · exact hs
      · exact h.split i hi
    · exact h
  | take k =>
    simp only [step]
    split
    · rename_i hk
      split
      · rename_i x q hq
        refine ⟨fun i hi => ?_, fun p hp => ?_⟩
        · have hs := h.split i hi
          simp only [upd]
          split
          · rename_i hik; subst hik
            rw [hq] at hs
            simpa [itemsOf] using hs
          · rename_i hik
            have : itemsOf i (s.out ++ [(k, x)]) = itemsOf i s.out := by
              simp [itemsOf, List.filterMap_append, Ne.symm hik]
            rw [this]; exact hs
        · simp only [List.mem_append, List.mem_singleton] at hp
          rcases hp with hp | rfl
          · exact h.tags p hp
          · exact hk
      · exact h
    · exact h
  | finish =>
    simp only [step]
    split
    · exact ⟨h.split, h.tags⟩
    · exact h

theorem run_weak (n cap : Nat) (sources : Nat → List (Except Err α)) (steps : List Step) :
    Weak n sources (run n cap sources steps) := by
  have key : ∀ (steps : List Step) (s : State α), Weak n sources s → Weak n sources (steps.foldl (step n cap) s) := by
    intro steps
    induction steps with
    | nil => intro s h; exact h
    | cons st steps ih => intro s h; exact ih _ (step_weak n cap sources s st h)
  exact key steps _ ⟨fun i _ => by simp [itemsOf], fun p hp => by simp at hp⟩

/-- **C29** (server side) The merged stream keeps every partition's order and mixes nothing up: the items tagged with a
partition are always, even if forwarding tasks panic, a prefix of that partition's stream; when the merged stream has ended, and no
task panicked, they are all of it. -/
theorem C29_server_merge (n cap : Nat) (sources : Nat → List (Except Err α)) (steps : List Step) (i : Nat) (hi : i < n) :
    itemsOf i (run n cap sources steps).out <+: sources i ∧
    ((∀ st ∈ steps, isCrash st = false) → (run n cap sources steps).eos = true →
      itemsOf i (run n cap sources steps).out = sources i) := by
  refine ⟨?_, fun hs he => (run_inv n cap sources steps hs).eos he i hi⟩
  have := (run_weak n cap sources steps).split i hi
  rw [List.append_assoc] at this
  exact (List.prefix_append _ _).trans this

/-- What the client receives: what the server's merged stream yielded, and then either the end of the stream (only if the
merged stream ended) or a transport error. -/
def Received (size : α → Nat) (start : Nat) (srv : State α) (sent : List (Demux.Wire α)) : Prop :=
  (srv.eos = true ∧ sent = srv.out.map (wireOf size start)) ∨
  (∃ e k, sent = (srv.out.take k).map (wireOf size start) ++ [.err e])

/-- A transport error can only append to what was received. -/
theorem payload_wireOf (size : α → Nat) (start i : Nat) (p : Nat × Except Err α) :
    Demux.payloadOf (start + i) (wireOf size start p)
      = match p with | (j, .ok a) => if j = i then some a else none | (_, .error _) => none := by
  obtain ⟨j, r⟩ := p
  cases r with
  | error e => rfl
  | ok a =>
    simp only [wireOf, Demux.payloadOf]
    by_cases h : j = i
    · simp [h]
    · rw [if_neg (by omega), if_neg h]

/-- **C32** (whole connection) A consumer whose stream ended without an error received exactly the rows of its producer
partition, and that partition's stream (like those of all its siblings) ended without an error. Schedules of server and
client, queue sizes, budgets and error points are arbitrary; neither side panics. -/
theorem C32_clean_end_is_complete_partial (n cap : Nat) (sources : Nat → List (Except Err α)) (size : α → Nat)
    (ssteps : List Step) (hss : ∀ st ∈ ssteps, isCrash st = false)
    (c : Demux.Cfg α)
    (hrecv : Received size c.start (run n cap sources ssteps) c.sent)
    (csteps : List Demux.Step) (hcs : Demux.Step.crash ∉ csteps) (i : Nat) (hi : i < n)
    (he : ((Demux.run c (Demux.init c) csteps).chans i).eos = true)
    (hclean : ∀ e, Except.error e ∉ ((Demux.run c (Demux.init c) csteps).chans i).out) :
    ((Demux.run c (Demux.init c) csteps).chans i).out = sources i ∧
    ∀ j < n, ∀ e, Except.error e ∉ sources j := by
  obtain ⟨_, hv, hout⟩ := Demux.C32_client_clean_end c csteps hcs i he hclean
  have hI := run_inv n cap sources ssteps hss
  rcases hrecv with ⟨heos, hsent⟩ | ⟨e, k, hsent⟩
  · have hnoerr : ∀ p ∈ (run n cap sources ssteps).out, ∀ e, p.2 ≠ .error e := by
      intro p hp e hpe
      have := hv (wireOf size c.start p) (by rw [hsent]; exact List.mem_map_of_mem hp)
      obtain ⟨j, r⟩ := p
      simp only at hpe
      subst hpe
      simp [wireOf, Demux.deliverable] at this
    constructor
    · rw [hout, hsent, ← hI.eos heos i hi]
      unfold itemsOf
      generalize (run n cap sources ssteps).out = out at hnoerr
      induction out with
      | nil => rfl
      | cons p out ih =>
        have ih := ih (fun p' hp' => hnoerr p' (by simp [hp']))
        simp only [List.map_cons, List.filterMap_cons, payload_wireOf]
        obtain ⟨j, r⟩ := p
        cases r with
        | error e => exact absurd rfl (hnoerr (j, .error e) (by simp) e)
        | ok a =>
          by_cases hj : j = i
          · simp only [hj, if_true, List.map_cons]; rw [ih]
          · simp only [hj, if_false]; exact ih
    · intro j hj e hmem
      rw [← hI.eos heos j hj] at hmem
      simp only [itemsOf, List.mem_filterMap] at hmem
      obtain ⟨p, hp, hpe⟩ := hmem
      split at hpe
      · simp only [Option.some.injEq] at hpe; exact hnoerr p hp e hpe
      · simp at hpe
  · exfalso
    have := hv (.err e) (by rw [hsent]; simp)
    simp [Demux.deliverable] at this

/-- **C32** (whole connection) Errors are neither invented nor replaced: when the RPC was accepted and the transport did not
fail, an error a consumer received is an error of one of the producer's partition streams, whatever panics. -/
theorem C32_error_is_the_producers (n cap : Nat) (sources : Nat → List (Except Err α)) (size : α → Nat)
    (ssteps : List Step) (c : Demux.Cfg α) (hc : c.connectErr = none) (hn : c.n = n) (k : Nat)
    (hsent : c.sent = ((run n cap sources ssteps).out.take k).map (wireOf size c.start))
    (csteps : List Demux.Step) (i : Nat) (e : Err)
    (he : Except.error e ∈ ((Demux.run c (Demux.init c) csteps).chans i).out) :
    ∃ j < n, Except.error e ∈ sources j := by
  have hI := run_weak n cap sources ssteps
  have h1 := (Demux.C29_delivers_own_partition_in_order c csteps i).subset he
  rw [Demux.total, hc] at h1
  simp only [Demux.expected, List.mem_append, List.mem_map, reduceCtorEq, and_false, exists_false, false_or,
    Option.mem_toList, Option.map_eq_some_iff, Except.error.injEq] at h1
  obtain ⟨w, hw, hf⟩ := h1
  have hbad : Demux.deliverable c w = false := by
    have := List.head?_dropWhile_not (Demux.deliverable c) c.sent
    rw [hw] at this
    simpa using this
  have hmem : w ∈ c.sent := (List.dropWhile_sublist _).subset (List.mem_of_head? hw)
  rw [hsent, List.mem_map] at hmem
  obtain ⟨⟨j, r⟩, hp, rfl⟩ := hmem
  have hp : (j, r) ∈ (run n cap sources ssteps).out := List.mem_of_mem_take hp
  have hj : j < n := hI.tags _ hp
  cases r with
  | ok a =>
    simp only [wireOf, Demux.deliverable, decide_eq_false_iff_not] at hbad
    omega
  | error e' =>
    simp only [wireOf, Demux.faultErr] at hf
    subst hf
    refine ⟨j, hj, ?_⟩
    refine (hI.split j hj).subset ?_
    simp only [List.mem_append]
    exact .inl (.inl (List.mem_filterMap.mpr ⟨_, hp, by simp⟩))

/-- **C29** (whole connection) At every moment, whatever fails or panics, the rows a consumer has received are a prefix of the rows of
its producer partition's stream. -/
theorem C29_end_to_end_prefix (n cap : Nat) (sources : Nat → List (Except Err α)) (size : α → Nat)
    (ssteps : List Step) (c : Demux.Cfg α) (hrecv : Received size c.start (run n cap sources ssteps) c.sent)
    (csteps : List Demux.Step) (i : Nat) (hi : i < n) :
    (((Demux.run c (Demux.init c) csteps).chans i).out.filterMap Except.toOption)
      <+: (sources i).filterMap Except.toOption := by
  have h1 := Demux.C29_delivers_own_partition_in_order c csteps i
  have h2 := (C29_server_merge n cap sources ssteps i hi).1
  refine (h1.filterMap _).trans (List.IsPrefix.trans ?_ (h2.filterMap _))
  generalize (run n cap sources ssteps) = srv at *
  unfold Demux.total
  cases c.connectErr with
  | some e => exact List.nil_prefix
  | none =>
    -- payloads of a wire prefix are the ok items of the same prefix of the merged stream
    have hmap : ∀ l : List (Nat × Except Err α),
        (l.map (wireOf size c.start)).filterMap (Demux.payloadOf (c.start + i)) = (itemsOf i l).filterMap Except.toOption := by
      intro l
      induction l with
      | nil => rfl
      | cons p l ih =>
        simp only [List.map_cons, List.filterMap_cons, payload_wireOf, itemsOf]
        obtain ⟨j, r⟩ := p
        cases r with
        | error e =>
          by_cases hj : j = i
          · simp only [hj, if_true, List.filterMap_cons, Except.toOption]; exact ih
          · simp only [hj, if_false]; exact ih
        | ok a =>
          by_cases hj : j = i
          · simp only [hj, if_true, List.filterMap_cons, Except.toOption]; rw [ih]; rfl
          · simp only [hj, if_false]; exact ih
    have hexp : (Demux.expected c i c.sent).filterMap Except.toOption
        = (c.sent.takeWhile (Demux.deliverable c)).filterMap (Demux.payloadOf (c.start + i)) := by
      unfold Demux.expected
      rw [List.filterMap_append]
      have h3 : ((c.sent.dropWhile (Demux.deliverable c)).head?.map fun w => (Except.error (Demux.faultErr w) : Except Err α)).toList.filterMap
          Except.toOption = [] := by
        cases (c.sent.dropWhile (Demux.deliverable c)).head? <;> simp [Except.toOption]
      rw [h3, List.append_nil]
      generalize (c.sent.takeWhile (Demux.deliverable c)).filterMap (Demux.payloadOf (c.start + i)) = xs
      induction xs with
      | nil => rfl
      | cons x xs ih => simp [Except.toOption, ih]
    show (Demux.expected c i c.sent).filterMap Except.toOption <+: _
    rw [hexp]
    refine ((List.takeWhile_prefix _).filterMap _).trans ?_
    rcases hrecv with ⟨_, hsent⟩ | ⟨e, k, hsent⟩
    · rw [hsent, hmap]; exact List.prefix_rfl
    · rw [hsent, List.filterMap_append, hmap]
      have : List.filterMap (Demux.payloadOf (c.start + i)) [(Demux.Wire.err e : Demux.Wire α)] = [] := rfl
      rw [this, List.append_nil]
      exact ((List.take_prefix k srv.out).filterMap _).filterMap _

/-- A panic of a forwarding task closes its queue without an error: the merged stream ends normally without the rest of
that partition. So completeness needs the "no panic" hypothesis. -/
theorem C32_server_panic_truncates_silently :
    ∃ steps, let s := run 1 2 (fun _ => [.ok 1, .ok 2]) steps
      s.eos = true ∧ itemsOf 0 s.out = [.ok 1] :=
  ⟨[.forward 0, .crash 0, .take 0, .finish], rfl, rfl⟩

/-- Non-vacuity: two partitions, one of them ending with an error, fully merged. -/
example : let s := run 2 1 (fun i => if i = 0 then [.ok 1, .ok 2] else [.ok 5, .error (.user 3)]) [.forward 1, .forward 0, .forward 1, .take 1, .take 0, .forward 0, .forward 1, .take 1, .take 0, .forward 0, .forward 1, .finish]
    s.eos = true ∧ s.out = [(1, .ok 5), (0, .ok 1), (1, .error (.user 3)), (0, .ok 2)] := ⟨rfl, rfl⟩

end DD.SelectAll
