import Verif.Model.Buffers
/-
C91: the memory a worker holds for a response is accounted for, bounded, and given back.
-/
namespace DD.Buffers

open DD.Demux (upd)

variable {α : Type}

/-- The bytes of messages. -/
def bytes (size : α → Nat) (xs : List (Except Err α)) : Nat := (xs.map (sizeOf' size)).sum

/-- The messages a task or its queue holds: produced, and not yet part of the response. -/
def Src.held (t : Src α) : List (Except Err α) := t.queue ++ t.hand.toList

/-- The messages all of `n` tasks hold. -/
def allHeld (n : Nat) (s : State α) : List (Except Err α) := (List.range n).flatMap fun i => (s.srcs i).held

/-- What the response has yielded for partition `i`. -/
def yielded (s : State α) (i : Nat) : List (Except Err α) := (s.out.filter fun o => o.1 == i).map (·.2)

theorem bytes_append (size : α → Nat) (xs ys : List (Except Err α)) : bytes size (xs ++ ys) = bytes size xs + bytes size ys := by
  simp [bytes]

theorem held_range (size : α → Nat) (f : Nat → List (Except Err α)) (n : Nat) :
    bytes size ((List.range n).flatMap f) = ((List.range n).map fun i => bytes size (f i)).sum := by
  induction n with
  | zero => rfl
  | succ n ih => simp only [List.range_succ, List.flatMap_append, bytes_append, ih, List.map_append, List.sum_append]; simp

theorem sum_upd (f : Nat → Nat) (i v : Nat) : ∀ n, i < n →
    ((List.range n).map (upd f i v)).sum + f i = ((List.range n).map f).sum + v
  | 0, h => by omega
  | n + 1, h => by
    simp only [List.range_succ, List.map_append, List.sum_append, List.map_cons, List.map_nil, List.sum_cons, List.sum_nil]
    by_cases e : i = n
    · subst e
      have : (List.range i).map (upd f i v) = (List.range i).map f := by
        apply List.map_congr_left
        intro j hj
        have := List.mem_range.mp hj
        simp [upd, show j ≠ i by omega]
      rw [this]; simp [upd]; omega
    · have := sum_upd f i v n (by omega)
      have hn : upd f i v n = f n := by simp [upd, show n ≠ i by omega]
      rw [hn]; omega

theorem allHeld_upd (size : α → Nat) (n : Nat) (s : State α) (i : Nat) (t : Src α) (hi : i < n) (s' : State α)
    (hs : s'.srcs = upd s.srcs i t) :
    bytes size (allHeld n s') + bytes size (s.srcs i).held = bytes size (allHeld n s) + bytes size t.held := by
  simp only [allHeld, held_range, hs]
  have := sum_upd (fun j => bytes size (s.srcs j).held) i (bytes size t.held) n hi
  rw [← this]
  congr 2
  apply List.map_congr_left
  intro j _
  simp only [upd]; split <;> rfl

/-- What holds after every schedule. -/
structure Inv (size : α → Nat) (n cap : Nat) (sources : Nat → List (Except Err α)) (s : State α) : Prop where
  panicked : s.panicked = false
  reserved : s.dropped = false → s.reserved = bytes size (allHeld n s)
  full : ∀ i, (s.srcs i).queue.length ≤ cap
  done : ∀ i, (s.srcs i).finished = true → (s.srcs i).hand = none
  outside : ∀ i, n ≤ i → (s.srcs i).held = []
  order : ∀ i, s.dropped = false → (s.srcs i).finished = false → yielded s i ++ (s.srcs i).held ++ (s.srcs i).todo = sources i
  pre : ∀ i, ∃ held rest, (s.dropped = false → held = (s.srcs i).held) ∧ yielded s i ++ held ++ rest = sources i

theorem inv_init (size : α → Nat) (n cap : Nat) (sources : Nat → List (Except Err α)) :
    Inv size n cap sources { srcs := fun i => { todo := sources i } } := by
  constructor <;> try simp [Src.held, yielded]
  have : allHeld n ({ srcs := fun i => { todo := sources i } } : State α) = [] := by
    simp [allHeld, Src.held]
  rw [this]; rfl

theorem inv_step (size : α → Nat) (n cap : Nat) (sources : Nat → List (Except Err α)) (s : State α)
    (h : Inv size n cap sources s) (st : Step) : Inv size n cap sources (step size n cap s st) := by
  -- an update of one task that keeps what was yielded and whether the response is there
  have one : ∀ (i : Nat) (t : Src α) (r : Nat), i < n →
      (s.dropped = false → r + bytes size (s.srcs i).held = s.reserved + bytes size t.held) → t.queue.length ≤ cap →
      (t.finished = true → t.hand = none) →
      (s.dropped = false → t.finished = false → yielded s i ++ t.held ++ t.todo = sources i) →
      (∃ held rest, (s.dropped = false → held = t.held) ∧ yielded s i ++ held ++ rest = sources i) →
      Inv size n cap sources { s with srcs := upd s.srcs i t, reserved := r } := by
    intro i t r hi hr hq hd ho hp
    constructor
    · exact h.panicked
    · intro hnd
      have h1 := allHeld_upd size n s i t hi { s with srcs := upd s.srcs i t, reserved := r } rfl
      have h2 := h.reserved hnd
      have h3 := hr hnd
      show r = _
      omega
    · intro j; simp only [upd]; split
      · exact hq
      · exact h.full j
    · intro j; simp only [upd]; split
      · exact hd
      · exact h.done j
    · intro j hj; simp only [upd]; rw [if_neg (by omega)]; exact h.outside j hj
    · intro j; simp only [upd]; split
      · rename_i e; subst e; exact ho
      · exact h.order j
    · intro j; simp only [upd]; split
      · rename_i e; subst e; exact hp
      · exact h.pre j
  cases st with
  | fetch i =>
    simp only [step]
    by_cases hc : i < n ∧ (s.srcs i).finished = false ∧ (s.srcs i).hand.isNone
    · rw [if_pos hc]
      obtain ⟨hi, hf, hn⟩ := hc
      have hn' : (s.srcs i).hand = none := by simpa using hn
      have stop : Inv size n cap sources { s with srcs := upd s.srcs i { s.srcs i with finished := true } } :=
        one i { s.srcs i with finished := true } s.reserved hi (fun _ => rfl) (h.full i) (fun _ => hn') (fun _ h => by cases h) (h.pre i)
      by_cases hdr : s.dropped = true
      · rw [if_pos hdr]; exact stop
      · rw [if_neg hdr]
        have hdr' : s.dropped = false := by simpa using hdr
        have ho := h.order i hdr' hf
        cases ht : (s.srcs i).todo with
        | nil =>
          exact one i { s.srcs i with todo := [], finished := true } s.reserved hi (fun _ => rfl) (h.full i) (fun _ => hn')
            (fun _ h => by cases h) (h.pre i)
        | cons x rest =>
          have hheld : (s.srcs i).held = (s.srcs i).queue := by simp [Src.held, hn']
          have ho' : yielded s i ++ ({ s.srcs i with todo := rest, hand := some x } : Src α).held ++ rest = sources i := by
            rw [← ho, hheld, ht]; simp [Src.held]
          refine one i { s.srcs i with todo := rest, hand := some x } (s.reserved + sizeOf' size x) hi (fun _ => ?_) (h.full i)
            (fun hf' => ?_) (fun _ _ => ho') ⟨_, rest, fun _ => rfl, ho'⟩
          · rw [hheld]; simp [Src.held, bytes]; omega
          · simp only at hf'; rw [hf] at hf'; cases hf'
    · rw [if_neg hc]; exact h
  | push i =>
    simp only [step]
    by_cases hc : i < n ∧ (s.srcs i).finished = false
    · rw [if_pos hc]
      obtain ⟨hi, hf⟩ := hc
      cases hh : (s.srcs i).hand with
      | none => exact h
      | some x =>
        have hheld : (s.srcs i).held = (s.srcs i).queue ++ [x] := by simp [Src.held, hh]
        simp only
        by_cases hdr : s.dropped = true
        · rw [if_pos hdr]
          refine one i { s.srcs i with hand := none, finished := true } s.reserved hi (fun h0 => by rw [hdr] at h0; cases h0) (h.full i)
            (fun _ => rfl) (fun h0 => by rw [hdr] at h0; cases h0) ?_
          obtain ⟨held, rest, _, hr⟩ := h.pre i
          exact ⟨held, rest, (fun h0 => by rw [hdr] at h0; cases h0), hr⟩
        · rw [if_neg hdr]
          by_cases hl : (s.srcs i).queue.length < cap
          · rw [if_pos hl]
            have he : ({ s.srcs i with hand := none, queue := (s.srcs i).queue ++ [x] } : Src α).held = (s.srcs i).held := by
              rw [hheld]; simp [Src.held]
            refine one i { s.srcs i with hand := none, queue := (s.srcs i).queue ++ [x] } s.reserved hi (fun _ => by rw [he]) ?_
              (fun _ => rfl) (fun h1 h2 => by rw [he]; exact h.order i h1 h2) (by rw [he]; exact h.pre i)
            simp; omega
          · rw [if_neg hl]; exact h
    · rw [if_neg hc]; exact h
  | take i =>
    simp only [step]
    by_cases hc : i < n ∧ s.dropped = false
    · rw [if_pos hc]
      obtain ⟨hi, hdr⟩ := hc
      cases hq : (s.srcs i).queue with
      | nil => exact h
      | cons x q =>
        simp only
        have hheld : (s.srcs i).held = x :: (⟨(s.srcs i).todo, (s.srcs i).hand, q, (s.srcs i).finished⟩ : Src α).held := by simp [Src.held, hq]
        have h1 := allHeld_upd size n s i ⟨(s.srcs i).todo, (s.srcs i).hand, q, (s.srcs i).finished⟩ hi
          { s with srcs := upd s.srcs i ⟨(s.srcs i).todo, (s.srcs i).hand, q, (s.srcs i).finished⟩, out := s.out ++ [(i, x)]
                   reserved := s.reserved - sizeOf' size x
                   panicked := s.panicked || decide (s.reserved < sizeOf' size x) } rfl
        have h2 := h.reserved hdr
        have hb : bytes size (s.srcs i).held = sizeOf' size x + bytes size (⟨(s.srcs i).todo, (s.srcs i).hand, q, (s.srcs i).finished⟩ : Src α).held := by
          rw [hheld]; simp [bytes]
        have hle : sizeOf' size x ≤ s.reserved := by omega
        have hy : ∀ j, yielded ({ s with
              srcs := upd s.srcs i ⟨(s.srcs i).todo, (s.srcs i).hand, q, (s.srcs i).finished⟩, out := s.out ++ [(i, x)], reserved := s.reserved - sizeOf' size x
              panicked := s.panicked || decide (s.reserved < sizeOf' size x) } : State α) j =
            if j = i then yielded s i ++ [x] else yielded s j := by
          intro j
          simp only [yielded, List.filter_append, List.map_append]
          by_cases e : j = i
          · subst e; simp
          · rw [if_neg e]; simp [show (i == j) = false by simp; omega]
        constructor
        · show (s.panicked || decide (s.reserved < sizeOf' size x)) = false
          rw [h.panicked]; simpa using hle
        · intro _; show s.reserved - sizeOf' size x = _; omega
        · intro j; simp only [upd]; split
          · have := h.full i; rw [hq] at this; simp at this; show q.length ≤ cap; omega
          · exact h.full j
        · intro j; simp only [upd]; split
          · exact h.done i
          · exact h.done j
        · intro j hj; simp only [upd]; rw [if_neg (by omega)]; exact h.outside j hj
        · intro j _ hf
          rw [hy j]
          simp only [upd] at hf ⊢
          by_cases e : j = i
          · subst e
            simp only [if_true] at hf ⊢
            rw [← h.order j hdr hf, hheld]; simp
          · simp only [if_neg e] at hf ⊢; exact h.order j hdr hf
        · intro j
          rw [hy j]
          simp only [upd]
          by_cases e : j = i
          · subst e
            obtain ⟨held, rest, hh, hr⟩ := h.pre j
            refine ⟨_, rest, fun _ => rfl, ?_⟩
            simp only [if_true]
            rw [← hr, hh hdr, hheld]; simp
          · simp only [if_neg e]; exact h.pre j
    · rw [if_neg hc]; exact h
  | crash i =>
    simp only [step]
    by_cases hc : i < n ∧ (s.srcs i).finished = false ∧ (s.srcs i).hand.isNone
    · rw [if_pos hc]
      obtain ⟨hi, hf, hn⟩ := hc
      exact one i { s.srcs i with todo := [], finished := true } s.reserved hi (fun _ => rfl) (h.full i)
        (fun _ => by simpa using hn) (fun _ h => by cases h) (h.pre i)
    · rw [if_neg hc]; exact h
  | drop =>
    constructor
    · exact h.panicked
    · intro h0; cases h0
    · intro i; simp [step]
    · intro i hf; exact h.done i hf
    · intro i hi
      have := h.outside i hi
      simp [Src.held] at this
      simp [step, Src.held, this.2]
    · intro i h0; cases h0
    · intro i
      obtain ⟨held, rest, _, hr⟩ := h.pre i
      exact ⟨held, rest, (fun h0 => by cases h0), hr⟩
  | abort i =>
    simp only [step]
    by_cases hc : s.dropped ∧ i < n
    · rw [if_pos hc]
      obtain ⟨hdr, hi⟩ := hc
      have no : s.dropped = false → False := fun h0 => by rw [hdr] at h0; cases h0
      obtain ⟨held, rest, _, hr⟩ := h.pre i
      exact one i { s.srcs i with hand := none, finished := true } s.reserved hi (fun h0 => (no h0).elim) (h.full i)
        (fun _ => rfl) (fun h0 => (no h0).elim) ⟨held, rest, fun h0 => (no h0).elim, hr⟩
    · rw [if_neg hc]; exact h

theorem inv_run (size : α → Nat) (n cap : Nat) (sources : Nat → List (Except Err α)) (steps : List Step) :
    Inv size n cap sources (run size n cap sources steps) := by
  unfold run
  have : ∀ s, Inv size n cap sources s → Inv size n cap sources (steps.foldl (step size n cap) s) := by
    induction steps with
    | nil => exact fun s h => h
    | cons st sts ih => exact fun s h => ih _ (inv_step size n cap sources s h st)
  exact this _ (inv_init size n cap sources)

/-- **C91** As long as somebody reads the response, the memory pool of the worker shows exactly the bytes that have been produced and not
yet handed to the network, under every schedule, and accounting never fails. -/
theorem C91_accounted (size : α → Nat) (n cap : Nat) (sources : Nat → List (Except Err α)) (steps : List Step)
    (h : (run size n cap sources steps).dropped = false) :
    usage n (run size n cap sources steps) = bytes size (allHeld n (run size n cap sources steps)) ∧
      (run size n cap sources steps).panicked = false := by
  have hi := inv_run size n cap sources steps
  refine ⟨?_, hi.panicked⟩
  rw [usage, h]
  exact hi.reserved h

theorem bytes_le (size : α → Nat) (B : Nat) (xs : List (Except Err α)) (h : ∀ x ∈ xs, sizeOf' size x ≤ B) :
    bytes size xs ≤ xs.length * B := by
  induction xs with
  | nil => simp [bytes]
  | cons x xs ih =>
    have h1 := h x (by simp)
    have h2 := ih fun y hy => h y (List.mem_cons_of_mem _ hy)
    simp only [bytes, List.map_cons, List.sum_cons, List.length_cons, Nat.succ_mul] at h2 ⊢
    omega

theorem sum_le (f : Nat → Nat) (K : Nat) (h : ∀ i, f i ≤ K) : ∀ n, ((List.range n).map f).sum ≤ n * K
  | 0 => by simp
  | n + 1 => by
    have h1 := sum_le f K h n
    have h2 := h n
    simp only [List.range_succ, List.map_append, List.sum_append, List.map_cons, List.map_nil, List.sum_cons, List.sum_nil, Nat.succ_mul]
    omega

/-- **C91** That is at most the messages that fit into the queue of each partition and one more, which its task waits to send. -/
theorem C91_bounded (size : α → Nat) (n cap B : Nat) (sources : Nat → List (Except Err α)) (steps : List Step)
    (hB : ∀ i, ∀ x ∈ sources i, sizeOf' size x ≤ B) (h : (run size n cap sources steps).dropped = false) :
    usage n (run size n cap sources steps) ≤ n * ((cap + 1) * B) := by
  have hi := inv_run size n cap sources steps
  rw [(C91_accounted size n cap sources steps h).1, allHeld, held_range]
  have each : ∀ i, bytes size ((run size n cap sources steps).srcs i).held ≤ (cap + 1) * B := by
    intro i
    obtain ⟨held, rest, hh, hr⟩ := hi.pre i
    have hl : ((run size n cap sources steps).srcs i).held.length ≤ cap + 1 := by
      have := hi.full i
      simp only [Src.held, List.length_append]
      cases ((run size n cap sources steps).srcs i).hand <;> simp <;> omega
    refine Nat.le_trans (bytes_le size B _ fun x hx => hB i x ?_) (Nat.mul_le_mul_right B hl)
    rw [← hr, hh h]; simp [hx]
  exact sum_le _ _ each n

/-- **C91** When the response has ended, because all tasks have and their queues are empty, nothing is accounted for. -/
theorem C91_ended (size : α → Nat) (n cap : Nat) (sources : Nat → List (Except Err α)) (steps : List Step)
    (h : (run size n cap sources steps).dropped = false)
    (he : ∀ i < n, ((run size n cap sources steps).srcs i).finished = true ∧ ((run size n cap sources steps).srcs i).queue = []) :
    usage n (run size n cap sources steps) = 0 := by
  have hi := inv_run size n cap sources steps
  rw [(C91_accounted size n cap sources steps h).1]
  have : allHeld n (run size n cap sources steps) = [] := by
    rw [allHeld, List.flatMap_eq_nil_iff]
    intro i hin
    obtain ⟨h1, h2⟩ := he i (List.mem_range.mp hin)
    simp [Src.held, h2, hi.done i h1]
  rw [this]; rfl

/-- **C91** When the client goes away at any time, the memory is given back as soon as the aborted tasks are gone: there is no schedule
in which anything remains. -/
theorem C91_abandoned (size : α → Nat) (n cap : Nat) (sources : Nat → List (Except Err α)) (steps more : List Step)
    (h : (run size n cap sources steps).dropped = true) :
    (run size n cap sources (steps ++ more)).dropped = true ∧
    (run size n cap sources (steps ++ more)).reserved = (run size n cap sources steps).reserved ∧
    (run size n cap sources (steps ++ more)).out = (run size n cap sources steps).out ∧
    ((∀ i < n, Step.abort i ∈ more) → usage n (run size n cap sources (steps ++ more)) = 0) := by
  unfold run at h ⊢
  rw [List.foldl_append]
  generalize steps.foldl (step size n cap) { srcs := fun i => { todo := sources i } } = s at h ⊢
  have hstep : ∀ (s : State α) (st : Step), s.dropped = true → (step size n cap s st).dropped = true ∧
      (step size n cap s st).reserved = s.reserved ∧ (step size n cap s st).out = s.out ∧
      (∀ i, (s.srcs i).finished = true → ((step size n cap s st).srcs i).finished = true) ∧
      (∀ i, i < n → st = .abort i → ((step size n cap s st).srcs i).finished = true) := by
    intro s st hd
    cases st with
    | fetch i =>
      simp only [step, hd, if_true]
      split
      · refine ⟨by first | rfl | exact hd, by rfl, by rfl, fun j hj => ?_, fun j _ h => by cases h⟩
        simp only [upd]; split <;> simp_all
      · exact ⟨by first | rfl | exact hd, by rfl, by rfl, fun j hj => hj, fun j _ h => by cases h⟩
    | push i =>
      simp only [step, hd, if_true]
      split
      · cases (s.srcs i).hand with
        | none => exact ⟨by first | rfl | exact hd, by rfl, by rfl, fun j hj => hj, fun j _ h => by cases h⟩
        | some x =>
          refine ⟨by first | rfl | exact hd, by rfl, by rfl, fun j hj => ?_, fun j _ h => by cases h⟩
          simp only [upd]; split <;> simp_all
      · exact ⟨by first | rfl | exact hd, by rfl, by rfl, fun j hj => hj, fun j _ h => by cases h⟩
    | take i =>
      simp only [step, hd]
      simp only [Bool.true_eq_false, and_false, if_false]
      exact ⟨by first | rfl | exact hd | simp [hd], by first | rfl | trivial, by first | rfl | trivial, fun j hj => hj, fun j _ h => by cases h⟩
    | crash i =>
      simp only [step]
      split
      · refine ⟨by first | rfl | exact hd, by rfl, by rfl, fun j hj => ?_, fun j _ h => by cases h⟩
        simp only [upd]; split <;> simp_all
      · exact ⟨by first | rfl | exact hd, by rfl, by rfl, fun j hj => hj, fun j _ h => by cases h⟩
    | drop => exact ⟨rfl, rfl, rfl, fun j hj => hj, fun j _ h => by cases h⟩
    | abort i =>
      simp only [step, hd]
      by_cases hi : i < n
      · simp only [hi, and_self, if_true]
        refine ⟨by first | rfl | exact hd | simp [hd], by first | rfl | trivial, by first | rfl | trivial, fun j hj => ?_, fun j _ h => ?_⟩
        · simp only [upd]; split <;> simp_all
        · cases h; simp [upd]
      · simp only [hi, and_false, if_false]
        exact ⟨by first | rfl | exact hd | simp [hd], by first | rfl | trivial, by first | rfl | trivial, fun j hj => hj, fun j hj h => by cases h; exact absurd hj hi⟩
  have keep : ∀ (more : List Step) (s : State α) (i : Nat), s.dropped = true → (s.srcs i).finished = true →
      ((more.foldl (step size n cap) s).srcs i).finished = true := by
    intro more
    induction more with
    | nil => exact fun s i _ hf => hf
    | cons st sts ih => exact fun s i hd hf => ih _ i (hstep s st hd).1 ((hstep s st hd).2.2.2.1 i hf)
  have fin : ∀ (more : List Step) (s : State α) (i : Nat), s.dropped = true → i < n → Step.abort i ∈ more →
      ((more.foldl (step size n cap) s).srcs i).finished = true := by
    intro more
    induction more with
    | nil => exact fun s i _ _ h => by cases h
    | cons st sts ih =>
      intro s i hd hi hm
      rcases List.mem_cons.mp hm with e | hm
      · exact keep sts _ i (hstep s st hd).1 ((hstep s st hd).2.2.2.2 i hi e.symm)
      · exact ih _ i (hstep s st hd).1 hi hm
  have same : ∀ (more : List Step) (s : State α), s.dropped = true → (more.foldl (step size n cap) s).dropped = true ∧
      (more.foldl (step size n cap) s).reserved = s.reserved ∧ (more.foldl (step size n cap) s).out = s.out := by
    intro more
    induction more with
    | nil => exact fun s hd => ⟨hd, rfl, rfl⟩
    | cons st sts ih =>
      intro s hd
      obtain ⟨h1, h2, h3, _⟩ := hstep s st hd
      obtain ⟨h4, h5, h6⟩ := ih _ h1
      exact ⟨h4, by rw [List.foldl_cons, h5, h2], by rw [List.foldl_cons, h6, h3]⟩
  obtain ⟨h1, h2, h3⟩ := same more s h
  refine ⟨h1, h2, h3, fun ha => ?_⟩
  have : ((more.foldl (step size n cap) s).dropped && (List.range n).all fun i => ((more.foldl (step size n cap) s).srcs i).finished) = true := by
    rw [h1]; simp only [Bool.true_and, List.all_eq_true, List.mem_range]
    exact fun i hi => fin more s i h hi (ha i hi)
  rw [usage, this]; rfl

theorem conserve (size : α → Nat) (n cap i : Nat) (s : State α) (st : Step) (hst : st ≠ .crash i)
    (hd : (step size n cap s st).dropped = false) :
    s.dropped = false ∧ yielded (step size n cap s st) i ++ ((step size n cap s st).srcs i).held ++ ((step size n cap s st).srcs i).todo =
      yielded s i ++ (s.srcs i).held ++ (s.srcs i).todo := by
  cases st with
  | fetch j =>
    simp only [step] at hd ⊢
    by_cases hc : j < n ∧ (s.srcs j).finished = false ∧ (s.srcs j).hand.isNone
    · rw [if_pos hc] at hd ⊢
      have hn : (s.srcs j).hand = none := by simpa using hc.2.2
      by_cases hdr : s.dropped = true
      · rw [if_pos hdr] at hd; simp only at hd; rw [hdr] at hd; cases hd
      · rw [if_neg hdr] at hd ⊢
        refine ⟨by simpa using hdr, ?_⟩
        cases ht : (s.srcs j).todo with
        | nil =>
          simp only [upd, yielded, Src.held]
          by_cases e : i = j
          · subst e; simp [ht]
          · simp [if_neg e]
        | cons x rest =>
          simp only [upd, yielded, Src.held]
          by_cases e : i = j
          · subst e; simp [ht, hn]
          · simp [if_neg e]
    · rw [if_neg hc] at hd ⊢; exact ⟨hd, rfl⟩
  | push j =>
    simp only [step] at hd ⊢
    by_cases hc : j < n ∧ (s.srcs j).finished = false
    · rw [if_pos hc] at hd ⊢
      cases hh : (s.srcs j).hand with
      | none => rw [hh] at hd; exact ⟨hd, rfl⟩
      | some x =>
        rw [hh] at hd
        simp only at hd ⊢
        by_cases hdr : s.dropped = true
        · rw [if_pos hdr] at hd; simp only at hd; rw [hdr] at hd; cases hd
        · rw [if_neg hdr] at hd ⊢
          refine ⟨by simpa using hdr, ?_⟩
          by_cases hl : (s.srcs j).queue.length < cap
          · rw [if_pos hl]
            simp only [upd, yielded, Src.held]
            by_cases e : i = j
            · subst e; simp [hh]
            · simp [if_neg e]
          · rw [if_neg hl]
    · rw [if_neg hc] at hd ⊢; exact ⟨hd, rfl⟩
  | take j =>
    simp only [step] at hd ⊢
    by_cases hc : j < n ∧ s.dropped = false
    · rw [if_pos hc]
      refine ⟨hc.2, ?_⟩
      cases hq : (s.srcs j).queue with
      | nil => rfl
      | cons x q =>
        simp only [upd, yielded, Src.held, List.filter_append, List.map_append]
        by_cases e : i = j
        · subst e; simp [hq]
        · simp [if_neg e, show (j == i) = false by simp; omega]
    · rw [if_neg hc] at hd ⊢; exact ⟨hd, rfl⟩
  | crash j =>
    have e : i ≠ j := fun e => hst (by rw [e])
    simp only [step] at hd ⊢
    split at hd
    · rename_i hc; rw [if_pos hc]; exact ⟨hd, by simp [upd, if_neg e, yielded]⟩
    · rename_i hc; rw [if_neg hc]; exact ⟨hd, rfl⟩
  | drop => cases hd
  | abort j =>
    simp only [step] at hd ⊢
    split at hd
    · rename_i hc; simp only at hd; rw [hc.1] at hd; cases hd
    · rename_i hc; rw [if_neg hc]; exact ⟨hd, rfl⟩

theorem ended_todo (size : α → Nat) (n cap i : Nat) (s : State α) (st : Step)
    (h : s.dropped = false → (s.srcs i).finished = true → (s.srcs i).todo = [])
    (hd : (step size n cap s st).dropped = false) (hf : ((step size n cap s st).srcs i).finished = true) :
    ((step size n cap s st).srcs i).todo = [] := by
  cases st with
  | fetch j =>
    simp only [step] at hd hf ⊢
    by_cases hc : j < n ∧ (s.srcs j).finished = false ∧ (s.srcs j).hand.isNone
    · rw [if_pos hc] at hd hf ⊢
      by_cases hdr : s.dropped = true
      · rw [if_pos hdr] at hd; simp only at hd; rw [hdr] at hd; cases hd
      · rw [if_neg hdr] at hf ⊢
        have h' := h (by simpa using hdr)
        cases ht : (s.srcs j).todo with
        | nil =>
          rw [ht] at hf
          simp only [upd] at hf ⊢
          by_cases e : i = j
          · simp [if_pos e]
          · simp only [if_neg e] at hf ⊢; exact h' hf
        | cons x rest =>
          rw [ht] at hf
          simp only [upd] at hf ⊢
          by_cases e : i = j
          · simp only [if_pos e] at hf; rw [hc.2.1] at hf; cases hf
          · simp only [if_neg e] at hf ⊢; exact h' hf
    · rw [if_neg hc] at hd hf ⊢; exact h hd hf
  | push j =>
    simp only [step] at hd hf ⊢
    by_cases hc : j < n ∧ (s.srcs j).finished = false
    · rw [if_pos hc] at hd hf ⊢
      cases hh : (s.srcs j).hand with
      | none => rw [hh] at hd hf; exact h hd hf
      | some x =>
        rw [hh] at hd hf
        simp only at hd hf ⊢
        by_cases hdr : s.dropped = true
        · rw [if_pos hdr] at hd; simp only at hd; rw [hdr] at hd; cases hd
        · rw [if_neg hdr] at hf ⊢
          have h' := h (by simpa using hdr)
          by_cases hl : (s.srcs j).queue.length < cap
          · rw [if_pos hl] at hf ⊢
            simp only [upd] at hf ⊢
            by_cases e : i = j
            · simp only [if_pos e] at hf ⊢; rw [hc.2] at hf; cases hf
            · simp only [if_neg e] at hf ⊢; exact h' hf
          · rw [if_neg hl] at hf ⊢; exact h' hf
    · rw [if_neg hc] at hd hf ⊢; exact h hd hf
  | take j =>
    simp only [step] at hd hf ⊢
    by_cases hc : j < n ∧ s.dropped = false
    · rw [if_pos hc] at hf ⊢
      cases hq : (s.srcs j).queue with
      | nil => rw [hq] at hf; exact h hc.2 hf
      | cons x q =>
        rw [hq] at hf
        simp only [upd] at hf ⊢
        by_cases e : i = j
        · subst e; simp only [if_true] at hf ⊢; exact h hc.2 hf
        · simp only [if_neg e] at hf ⊢; exact h hc.2 hf
    · rw [if_neg hc] at hd hf ⊢; exact h hd hf
  | crash j =>
    simp only [step] at hd hf ⊢
    by_cases hc : j < n ∧ (s.srcs j).finished = false ∧ (s.srcs j).hand.isNone
    · rw [if_pos hc] at hd hf ⊢
      simp only [upd] at hf ⊢
      by_cases e : i = j
      · simp [if_pos e]
      · simp only [if_neg e] at hf ⊢; exact h hd hf
    · rw [if_neg hc] at hd hf ⊢; exact h hd hf
  | drop => cases hd
  | abort j =>
    simp only [step] at hd hf ⊢
    by_cases hc : s.dropped ∧ j < n
    · rw [if_pos hc] at hd; simp only at hd; rw [hc.1] at hd; cases hd
    · rw [if_neg hc] at hd hf ⊢; exact h hd hf

/-- **C91** Whatever the schedule, what the response has yielded of a partition is a beginning of what the partition produced, in its
order; and all of it once its task has ended without a panic and its queue is empty. -/
theorem C91_in_order (size : α → Nat) (n cap : Nat) (sources : Nat → List (Except Err α)) (steps : List Step) (i : Nat) :
    yielded (run size n cap sources steps) i <+: sources i ∧
    (Step.crash i ∉ steps → (run size n cap sources steps).dropped = false →
      ((run size n cap sources steps).srcs i).finished = true → ((run size n cap sources steps).srcs i).queue = [] →
      yielded (run size n cap sources steps) i = sources i) := by
  have hi := inv_run size n cap sources steps
  refine ⟨?_, fun hc hd hf hq => ?_⟩
  · obtain ⟨held, rest, _, hr⟩ := hi.pre i
    exact ⟨held ++ rest, by rw [← List.append_assoc]; exact hr⟩
  · have hh : ((run size n cap sources steps).srcs i).held = [] := by simp [Src.held, hq, hi.done i hf]
    have all : ∀ (steps : List Step) (s : State α), (s.dropped = false → (s.srcs i).finished = true → (s.srcs i).todo = []) →
        Step.crash i ∉ steps → (steps.foldl (step size n cap) s).dropped = false →
        s.dropped = false ∧
        yielded (steps.foldl (step size n cap) s) i ++ ((steps.foldl (step size n cap) s).srcs i).held ++
          ((steps.foldl (step size n cap) s).srcs i).todo = yielded s i ++ (s.srcs i).held ++ (s.srcs i).todo ∧
        (((steps.foldl (step size n cap) s).srcs i).finished = true → ((steps.foldl (step size n cap) s).srcs i).todo = []) := by
      intro steps
      induction steps with
      | nil => exact fun s h0 _ hd => ⟨hd, rfl, h0 hd⟩
      | cons st sts ih =>
        intro s h0 hc hd
        obtain ⟨h1, h2, h3⟩ := ih (step size n cap s st) (ended_todo size n cap i s st h0)
          (fun h => hc (List.mem_cons_of_mem _ h)) hd
        obtain ⟨h4, h5⟩ := conserve size n cap i s st (fun e => hc (by rw [e]; simp)) h1
        exact ⟨h4, by rw [List.foldl_cons, h2, h5], h3⟩
    obtain ⟨_, h2, h3⟩ := all steps { srcs := fun i => { todo := sources i } } (fun _ h => by cases h) hc hd
    have h4 := h3 hf
    change yielded (run size n cap sources steps) i ++ ((run size n cap sources steps).srcs i).held ++
      ((run size n cap sources steps).srcs i).todo = _ at h2
    change ((run size n cap sources steps).srcs i).todo = [] at h4
    rw [hh, h4] at h2
    simpa [yielded, Src.held] using h2

/-- **C91** The limit of the memory pool is not enforced: memory is reserved with `grow`, which cannot fail, so that for every limit there
is a response that exceeds it with its first message. -/
theorem C91_limit_not_enforced (limit : Nat) : ∃ (sources : Nat → List (Except Err Nat)) (steps : List Step),
    limit < usage 1 (run id 1 2 sources steps) :=
  ⟨fun _ => [.ok (limit + 1)], [.fetch 0], by simp [run, step, usage, sizeOf', upd]⟩

/-! A case: two partitions, a queue of one message each; the client goes away while a task waits. -/

namespace Demo

def sources (i : Nat) : List (Except Err Nat) := if i = 0 then [.ok 5, .ok 7, .ok 9] else [.ok 100, .error (.exec "failed")]
def steps : List Step := [.fetch 0, .push 0, .fetch 1, .fetch 0, .push 1, .take 0, .push 0, .fetch 0, .fetch 1]

end Demo

example : usage 2 (run id 2 1 Demo.sources Demo.steps) = 7 + 9 + 100 := by decide +kernel
example : (run id 2 1 Demo.sources Demo.steps).dropped = false := by decide +kernel
example : usage 2 (run id 2 1 Demo.sources (Demo.steps ++ [.drop, .abort 0])) = 116 := by decide +kernel
example : usage 2 (run id 2 1 Demo.sources (Demo.steps ++ [.drop] ++ [.abort 0, .abort 1])) = 0 := by decide +kernel

end DD.Buffers
