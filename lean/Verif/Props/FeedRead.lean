import Verif.Model.FeedRead
/-
C90: what leaves read from remote feeds, and the metrics of it, whatever the clocks of the machines show.
-/
namespace DD.FeedRead

variable {A U : Type}

/-- What a queue item means to the leaf: an error that was sent, or the unit, if it can be read. -/
def meaning (f : Feed A U) : Except Err (Unit' A) → Except Err U
  | .error e => .error e
  | .ok u => match u.body with
    | .encoded bs => match f.decode bs with
      | .ok v => .ok v
      | .error e => .error (.internal e)
    | .decoded a => match f.downcast a with
      | some v => .ok v
      | none => .error (.exec "Expected WorkUnit of type")

/-- The item is a unit the leaf can read. -/
def readable (f : Feed A U) (x : Except Err (Unit' A) × Nat) : Bool := (meaning f x.1).isOk

/-- No clock showed less than when the unit was made. -/
def InOrder (x : Except Err (Unit' A) × Nat) : Prop :=
  ∀ u, x.1 = .ok u → u.created ≤ u.sent ∧ u.created ≤ u.received ∧ u.created ≤ x.2

instance (x : Except Err (Unit' A) × Nat) : Decidable (InOrder x) :=
  match x with
  | (.error _, _) => isTrue fun _ h => by cases h
  | (.ok u, p) => decidable_of_iff (u.created ≤ u.sent ∧ u.created ≤ u.received ∧ u.created ≤ p)
      ⟨fun h v e => by cases e; exact h, fun h => h u rfl⟩

/-- The bytes of an item. -/
def bytesOf : Except Err (Unit' A) × Nat → Nat
  | (.ok ⟨.encoded bs, _, _, _⟩, _) => bs.length
  | _ => 0

/-- The item is a value that was handed over within a process. -/
def inProcess : Except Err (Unit' A) × Nat → Bool
  | (.ok ⟨.decoded _, _, _, _⟩, _) => true
  | _ => false

theorem latencies_false (m : Metrics) (u : Unit' A) (p : Nat) : (latencies false m u p).2 = true := by
  have h : ∀ a b, ∃ l, minus false a b = some l := fun a b => by
    unfold minus; by_cases hb : b ≤ a <;> simp [hb]
  obtain ⟨l1, h1⟩ := h u.sent u.created
  obtain ⟨l2, h2⟩ := h u.received u.created
  obtain ⟨l3, h3⟩ := h p u.created
  simp only [latencies, h1, h2, h3]

theorem item_meaning (f : Feed A U) (c : Bool) (m : Metrics) (x : Except Err (Unit' A) × Nat) :
    (item f c m x).2 = some (meaning f x.1) ∨
      ((item f c m x).2 = none ∧ c = true ∧ readable f x = true ∧ ¬ InOrder x) := by
  obtain ⟨x, p⟩ := x
  cases x with
  | error e => exact .inl rfl
  | ok u =>
    obtain ⟨b, cr, se, re⟩ := u
    have key : ∀ (m : Metrics) (v : U), (match latencies c m ⟨b, cr, se, re⟩ p with
          | (m, true) => (m, some (Except.ok v : Except Err U))
          | (m, false) => (m, none)).2 = some (.ok v) ∨
        ((match latencies c m ⟨b, cr, se, re⟩ p with
          | (m, true) => (m, some (Except.ok v : Except Err U))
          | (m, false) => (m, none)).2 = none ∧ c = true ∧ ¬ (cr ≤ se ∧ cr ≤ re ∧ cr ≤ p)) := by
      intro m v
      rcases h : latencies c m ⟨b, cr, se, re⟩ p with ⟨m', ok⟩
      cases ok with
      | true => exact .inl rfl
      | false =>
        refine .inr ⟨rfl, ?_, ?_⟩
        · cases c with
          | true => rfl
          | false => have := latencies_false m (⟨b, cr, se, re⟩ : Unit' A) p; rw [h] at this; cases this
        · rintro ⟨h1, h2, h3⟩
          simp [latencies, minus, h1, h2, h3] at h
    have hord : ¬ (cr ≤ se ∧ cr ≤ re ∧ cr ≤ p) → ¬ InOrder ((.ok ⟨b, cr, se, re⟩ : Except Err (Unit' A)), p) :=
      fun h hi => h (hi _ rfl)
    cases b with
    | encoded bs =>
      cases hd : f.decode bs with
      | error e => left; simp [item, meaning, hd]
      | ok v =>
        rcases key { m with bytes := m.bytes + bs.length } v with h | ⟨h, h1, h2⟩
        · left; simp only [item, meaning, hd]; exact h
        · right; refine ⟨?_, h1, ?_, hord h2⟩
          · simp only [item, hd]; exact h
          · simp [readable, meaning, hd, Except.isOk, Except.toBool]
    | decoded a =>
      cases hd : f.downcast a with
      | none => left; simp [item, meaning, hd]
      | some v =>
        rcases key { m with inMemory := m.inMemory + 1 } v with h | ⟨h, h1, h2⟩
        · left; simp only [item, meaning, hd]; exact h
        · right; refine ⟨?_, h1, ?_, hord h2⟩
          · simp only [item, hd]; exact h
          · simp [readable, meaning, hd, Except.isOk, Except.toBool]

/-- **C90, partial.** In builds that do not check for overflow a leaf reads every item of its queue, in order, whatever the clocks show, and
errors do not end the stream. In the others it does if no clock was behind. Missing, and false: without that condition
(`C90_clock_behind_false`). -/
theorem C90_every_unit_partial (f : Feed A U) (checked : Bool) (m : Metrics) (xs : List (Except Err (Unit' A) × Nat))
    (h : checked = true → ∀ x ∈ xs, readable f x = true → InOrder x) :
    (read f checked m xs).2 = (xs.map fun x => meaning f x.1, true) := by
  induction xs generalizing m with
  | nil => rfl
  | cons x xs ih =>
    rcases item_meaning f checked m x with hm | ⟨_, hc, hr, ho⟩
    · rcases hi : item f checked m x with ⟨m', r⟩
      rw [hi] at hm
      cases hm
      have := ih m' fun hc y hy => h hc y (List.mem_cons_of_mem _ hy)
      rw [read, hi]
      simp only [this, List.map_cons]
    · exact absurd (h hc x (by simp) hr) ho

/-- What the leaf of one item adds to the metrics if the clocks agree. -/
structure Adds (f : Feed A U) (m m' : Metrics) (xs : List (Except Err (Unit' A) × Nat)) : Prop where
  bytes : m'.bytes = m.bytes + (xs.map bytesOf).sum
  inMemory : m'.inMemory = m.inMemory + (xs.filter fun x => readable f x && inProcess x).length
  count : m'.count = m.count + (xs.filter (readable f)).length

theorem latencies_counts (c : Bool) (m : Metrics) (u : Unit' A) (p : Nat) :
    (latencies c m u p).1.bytes = m.bytes ∧ (latencies c m u p).1.inMemory = m.inMemory ∧
      (latencies c m u p).1.count = m.count + 1 := by
  unfold latencies
  cases minus c u.sent u.created with
  | none => exact ⟨rfl, rfl, rfl⟩
  | some l =>
    cases minus c u.received u.created with
    | none => exact ⟨rfl, rfl, rfl⟩
    | some l =>
      cases minus c p u.created with
      | none => exact ⟨rfl, rfl, rfl⟩
      | some l => exact ⟨rfl, rfl, rfl⟩

theorem item_adds (f : Feed A U) (c : Bool) (m : Metrics) (x : Except Err (Unit' A) × Nat) :
    Adds f m (item f c m x).1 [x] := by
  obtain ⟨x, p⟩ := x
  have step : ∀ (m : Metrics) (u : Unit' A) (v : U), ∃ r, (match latencies c m u p with
          | (m, true) => (m, some (Except.ok v : Except Err U))
          | (m, false) => (m, none)) = ((latencies c m u p).1, r) := by
    intro m u v
    rcases latencies c m u p with ⟨m', ok⟩
    cases ok <;> exact ⟨_, rfl⟩
  cases x with
  | error e => constructor <;> simp [item, bytesOf, readable, meaning, inProcess, Except.isOk, Except.toBool]
  | ok u =>
    obtain ⟨b, cr, se, re⟩ := u
    cases b with
    | encoded bs =>
      cases hd : f.decode bs with
      | error e => constructor <;> simp [item, bytesOf, readable, meaning, inProcess, Except.isOk, Except.toBool, hd]
      | ok v =>
        have hr : (item f c m (.ok ⟨.encoded bs, cr, se, re⟩, p)).1 =
            (latencies c { m with bytes := m.bytes + bs.length } (⟨.encoded bs, cr, se, re⟩ : Unit' A) p).1 := by
          obtain ⟨r, hr⟩ := step { m with bytes := m.bytes + bs.length } ⟨.encoded bs, cr, se, re⟩ v
          simp only [item, hd]
          exact congrArg Prod.fst hr
        obtain ⟨h1, h2, h3⟩ := latencies_counts c { m with bytes := m.bytes + bs.length } (⟨.encoded bs, cr, se, re⟩ : Unit' A) p
        constructor <;> rw [hr] <;>
          simp [hd, h1, h2, h3, bytesOf, readable, meaning, inProcess, Except.isOk, Except.toBool]
    | decoded a =>
      cases hd : f.downcast a with
      | none => constructor <;> simp [item, bytesOf, readable, meaning, inProcess, Except.isOk, Except.toBool, hd]
      | some v =>
        have hr : (item f c m (.ok ⟨.decoded a, cr, se, re⟩, p)).1 =
            (latencies c { m with inMemory := m.inMemory + 1 } (⟨.decoded a, cr, se, re⟩ : Unit' A) p).1 := by
          obtain ⟨r, hr⟩ := step { m with inMemory := m.inMemory + 1 } ⟨.decoded a, cr, se, re⟩ v
          simp only [item, hd]
          exact congrArg Prod.fst hr
        obtain ⟨h1, h2, h3⟩ := latencies_counts c { m with inMemory := m.inMemory + 1 } (⟨.decoded a, cr, se, re⟩ : Unit' A) p
        constructor <;> rw [hr] <;>
          simp [hd, h1, h2, h3, bytesOf, readable, meaning, inProcess, Except.isOk, Except.toBool]

theorem read_adds (f : Feed A U) (c : Bool) : ∀ (xs : List (Except Err (Unit' A) × Nat)) (m : Metrics),
    (read f c m xs).2.2 = true → Adds f m (read f c m xs).1 xs
  | [], m, _ => by constructor <;> simp [read]
  | x :: xs, m, h => by
    have h1 := item_adds f c m x
    rcases hi : item f c m x with ⟨m', r⟩
    rw [hi] at h1
    cases r with
    | none => rw [read, hi] at h; cases h
    | some r =>
      rw [read, hi] at h ⊢
      have h2 := read_adds f c xs m' h
      constructor
      · simp only [List.map_cons, List.sum_cons]
        rw [h2.bytes, h1.bytes]; simp; omega
      · rw [h2.inMemory, h1.inMemory, show x :: xs = [x] ++ xs from rfl, List.filter_append, List.length_append]; omega
      · rw [h2.count, h1.count, show x :: xs = [x] ++ xs from rfl, List.filter_append, List.length_append]; omega

/-- **C90** If the stream ended without a panic, `work_unit_count` is the number of units the leaf was given, `work_unit_bytes` the bytes
of everything that came over the network, and `work_unit_in_memory_count` the units that were handed over within the process. -/
theorem C90_counts (f : Feed A U) (checked : Bool) (xs : List (Except Err (Unit' A) × Nat))
    (h : (read f checked {} xs).2.2 = true) :
    (read f checked {} xs).1.count = ((read f checked {} xs).2.1.filter Except.isOk).length ∧
    (read f checked {} xs).1.bytes = (xs.map bytesOf).sum ∧
    (read f checked {} xs).1.inMemory = (xs.filter fun x => readable f x && inProcess x).length := by
  have ha := read_adds f checked xs {} h
  have hm : (read f checked {} xs).2.1 = xs.map fun x => meaning f x.1 := by
    clear ha
    generalize ({} : Metrics) = m at h ⊢
    induction xs generalizing m with
    | nil => rfl
    | cons x xs ih =>
      rcases item_meaning f checked m x with hm | ⟨hn, _⟩
      · rcases hi : item f checked m x with ⟨m', r⟩
        rw [hi] at hm
        cases hm
        rw [read, hi] at h ⊢
        simp only [List.map_cons, ih m' h]
      · rcases hi : item f checked m x with ⟨m', r⟩
        rw [hi] at hn
        cases hn
        rw [read, hi] at h; cases h
  refine ⟨?_, by rw [ha.bytes]; simp, by rw [ha.inMemory]; simp⟩
  rw [ha.count, hm, List.filter_map, List.length_map]
  simp only [Nat.zero_add]
  rfl

/-- The greatest of the latencies, of which each counts as at least one nanosecond; 0 if there is none. -/
def greatest (ls : List Nat) : Nat := ls.foldr (fun l g => max (max l 1) g) 0

/-- The units the leaf was given, with the time at which it was. -/
def given (f : Feed A U) : List (Except Err (Unit' A) × Nat) → List (Unit' A × Nat)
  | [] => []
  | x :: xs => match x with
    | (.ok u, p) => if readable f x then (u, p) :: given f xs else given f xs
    | (.error _, _) => given f xs

theorem greatest_foldl (ls : List Nat) (m : Nat) : ls.foldl addMax m = max m (greatest ls) := by
  induction ls generalizing m with
  | nil => simp [greatest]
  | cons l ls ih =>
    rw [List.foldl_cons, ih]
    simp only [greatest, List.foldr_cons, addMax]
    omega

/-- The metrics with the latencies of these units added. -/
structure Latencies (m m' : Metrics) (us : List (Unit' A × Nat)) : Prop where
  sendAll : m'.sendAll = m.sendAll ++ us.map fun u => u.1.sent - u.1.created
  sendMax : m'.sendMax = (us.map fun u => u.1.sent - u.1.created).foldl addMax m.sendMax
  receivedAll : m'.receivedAll = m.receivedAll ++ us.map fun u => u.1.received - u.1.created
  receivedMax : m'.receivedMax = (us.map fun u => u.1.received - u.1.created).foldl addMax m.receivedMax
  processedAll : m'.processedAll = m.processedAll ++ us.map fun u => u.2 - u.1.created
  processedMax : m'.processedMax = (us.map fun u => u.2 - u.1.created).foldl addMax m.processedMax

theorem latencies_adds (c : Bool) (m : Metrics) (u : Unit' A) (p : Nat) (h1 : u.created ≤ u.sent) (h2 : u.created ≤ u.received)
    (h3 : u.created ≤ p) : Latencies m (latencies c m u p).1 [(u, p)] ∧ (latencies c m u p).2 = true := by
  simp only [latencies, minus, h1, h2, h3, if_true]
  exact ⟨⟨rfl, rfl, rfl, rfl, rfl, rfl⟩, True.intro⟩

theorem item_latencies (f : Feed A U) (c : Bool) (m : Metrics) (x : Except Err (Unit' A) × Nat)
    (h : readable f x = true → InOrder x) : Latencies m (item f c m x).1 (given f [x]) := by
  obtain ⟨x, p⟩ := x
  have none : ∀ m' : Metrics, m'.sendAll = m.sendAll → m'.sendMax = m.sendMax → m'.receivedAll = m.receivedAll →
      m'.receivedMax = m.receivedMax → m'.processedAll = m.processedAll → m'.processedMax = m.processedMax →
      Latencies (A := A) m m' [] := fun m' a b c d e f =>
    ⟨by simpa using a, by simpa using b, by simpa using c, by simpa using d, by simpa using e, by simpa using f⟩
  cases x with
  | error e => exact none m rfl rfl rfl rfl rfl rfl
  | ok u =>
    have some : ∀ (m1 : Metrics) (v : U), m1.sendAll = m.sendAll → m1.sendMax = m.sendMax → m1.receivedAll = m.receivedAll →
        m1.receivedMax = m.receivedMax → m1.processedAll = m.processedAll → m1.processedMax = m.processedMax →
        InOrder ((.ok u : Except Err (Unit' A)), p) →
        Latencies m (match latencies c m1 u p with
          | (m, true) => (m, some (Except.ok v : Except Err U))
          | (m, false) => (m, Option.none)).1 [(u, p)] := by
      intro m1 v e1 e2 e3 e4 e5 e6 ho
      obtain ⟨h1, h2, h3⟩ := ho u rfl
      obtain ⟨hl, ht⟩ := latencies_adds c m1 u p h1 h2 h3
      rcases hx : latencies c m1 u p with ⟨m2, ok⟩
      rw [hx] at hl ht
      cases ht
      exact ⟨by rw [← e1]; exact hl.sendAll, by rw [← e2]; exact hl.sendMax, by rw [← e3]; exact hl.receivedAll,
        by rw [← e4]; exact hl.receivedMax, by rw [← e5]; exact hl.processedAll, by rw [← e6]; exact hl.processedMax⟩
    obtain ⟨b, cr, se, re⟩ := u
    cases b with
    | encoded bs =>
      cases hd : f.decode bs with
      | error e =>
        have : given f [(.ok ⟨.encoded bs, cr, se, re⟩, p)] = [] := by
          simp [given, readable, meaning, hd, Except.isOk, Except.toBool]
        rw [this]
        simp only [item, hd]
        exact none _ rfl rfl rfl rfl rfl rfl
      | ok v =>
        have hr : readable f (.ok ⟨.encoded bs, cr, se, re⟩, p) = true := by
          simp [readable, meaning, hd, Except.isOk, Except.toBool]
        have : given f [(.ok ⟨.encoded bs, cr, se, re⟩, p)] = [(⟨.encoded bs, cr, se, re⟩, p)] := by simp [given, hr]
        rw [this]
        simp only [item, hd]
        exact some _ v rfl rfl rfl rfl rfl rfl (h hr)
    | decoded a =>
      cases hd : f.downcast a with
      | none =>
        have : given f [(.ok ⟨.decoded a, cr, se, re⟩, p)] = [] := by
          simp [given, readable, meaning, hd, Except.isOk, Except.toBool]
        rw [this]
        simp only [item, hd]
        exact none _ rfl rfl rfl rfl rfl rfl
      | some v =>
        have hr : readable f (.ok ⟨.decoded a, cr, se, re⟩, p) = true := by
          simp [readable, meaning, hd, Except.isOk, Except.toBool]
        have : given f [(.ok ⟨.decoded a, cr, se, re⟩, p)] = [(⟨.decoded a, cr, se, re⟩, p)] := by simp [given, hr]
        rw [this]
        simp only [item, hd]
        exact some _ v rfl rfl rfl rfl rfl rfl (h hr)

theorem given_cons (f : Feed A U) (x : Except Err (Unit' A) × Nat) (xs : List (Except Err (Unit' A) × Nat)) :
    given f (x :: xs) = given f [x] ++ given f xs := by
  obtain ⟨x, p⟩ := x
  cases x with
  | error e => rfl
  | ok u => simp only [given]; split <;> simp

theorem Latencies.trans {m m1 m2 : Metrics} {us vs : List (Unit' A × Nat)} (h : Latencies m m1 us) (h' : Latencies m1 m2 vs) :
    Latencies m m2 (us ++ vs) := by
  constructor
  · rw [h'.sendAll, h.sendAll]; simp
  · rw [h'.sendMax, h.sendMax]; simp
  · rw [h'.receivedAll, h.receivedAll]; simp
  · rw [h'.receivedMax, h.receivedMax]; simp
  · rw [h'.processedAll, h.processedAll]; simp
  · rw [h'.processedMax, h.processedMax]; simp

theorem read_latencies (f : Feed A U) (c : Bool) : ∀ (xs : List (Except Err (Unit' A) × Nat)) (m : Metrics),
    (∀ x ∈ xs, readable f x = true → InOrder x) → Latencies m (read f c m xs).1 (given f xs)
  | [], m, _ => ⟨by simp [read, given], by simp [read, given], by simp [read, given], by simp [read, given], by simp [read, given],
      by simp [read, given]⟩
  | x :: xs, m, h => by
    have h1 := item_latencies f c m x (h x (by simp))
    rcases item_meaning f c m x with hm | ⟨_, _, hr, ho⟩
    · rcases hi : item f c m x with ⟨m', r⟩
      rw [hi] at h1 hm
      cases hm
      rw [read, hi, given_cons]
      exact h1.trans (read_latencies f c xs m' fun y hy => h y (List.mem_cons_of_mem _ hy))
    · exact absurd (h x (by simp) hr) ho

/-- **C90, partial.** If no clock was behind, the latencies that are shown are those of the units the leaf was given: the greatest from
making a unit to sending, receiving and processing it, and the percentiles are of all of them. -/
theorem C90_latencies_partial (f : Feed A U) (checked : Bool) (xs : List (Except Err (Unit' A) × Nat))
    (h : ∀ x ∈ xs, readable f x = true → InOrder x) :
    (read f checked {} xs).1.sendAll = (given f xs).map (fun u => u.1.sent - u.1.created) ∧
    (read f checked {} xs).1.sendMax = greatest ((given f xs).map fun u => u.1.sent - u.1.created) ∧
    (read f checked {} xs).1.receivedAll = (given f xs).map (fun u => u.1.received - u.1.created) ∧
    (read f checked {} xs).1.receivedMax = greatest ((given f xs).map fun u => u.1.received - u.1.created) ∧
    (read f checked {} xs).1.processedAll = (given f xs).map (fun u => u.2 - u.1.created) ∧
    (read f checked {} xs).1.processedMax = greatest ((given f xs).map fun u => u.2 - u.1.created) := by
  have hl := read_latencies f checked xs {} h
  refine ⟨by simpa using hl.sendAll, ?_, by simpa using hl.receivedAll, ?_, by simpa using hl.processedAll, ?_⟩
  · rw [hl.sendMax, greatest_foldl]; simp
  · rw [hl.receivedMax, greatest_foldl]; simp
  · rw [hl.processedMax, greatest_foldl]; simp

/-- Causes come before effects. -/
def Life.Ordered (l : Life) : Prop := l.created ≤ l.sent ∧ l.sent ≤ l.received ∧ l.received ≤ l.processed

/-- **C90** One clock that never goes back, as for workers in the process of the coordinator: every leaf reads every unit, in every
build. -/
theorem C90_one_clock (f : Feed A U) (checked : Bool) (clock : Nat → Nat) (mono : ∀ s t, s ≤ t → clock s ≤ clock t)
    (us : List (Body A × Life)) (ho : ∀ u ∈ us, u.2.Ordered) :
    (read f checked {} (us.map fun u => stamped clock clock u.1 u.2)).2 =
      (us.map fun u => meaning f (stamped clock clock u.1 u.2).1, true) := by
  rw [C90_every_unit_partial f checked {} _ fun _ x hx _ => ?_]
  · simp
  · obtain ⟨u, hu, rfl⟩ := List.mem_map.mp hx
    intro v e
    cases e
    obtain ⟨h1, h2, h3⟩ := ho u hu
    exact ⟨mono _ _ h1, mono _ _ (by omega), mono _ _ (by omega)⟩

/-- **C90 is false if the clock of a worker is behind that of the coordinator**: if it is behind by more than the time a unit takes to the
worker, the leaf panics in builds that check for overflow, and gets nothing of its feed, whatever comes after the first unit. -/
theorem C90_clock_behind_false (f : Feed A U) (m : Metrics) (b : Body A) (v : U) (l : Life) (behind : Nat) (ho : l.Ordered)
    (hb : l.received - l.created < behind) (hl : behind ≤ l.created) (hv : meaning f (stamped (A := A) id id b l).1 = .ok v)
    (rest : List (Except Err (Unit' A) × Nat)) :
    (read f true m (stamped id (· - behind) b l :: rest)).2 = ([], false) := by
  obtain ⟨h1, h2, h3⟩ := ho
  have hs : l.created ≤ l.sent := h1
  have hr : ¬ l.created ≤ l.received - behind := by omega
  have hlat : ∀ m : Metrics, (latencies true m (⟨b, l.created, l.sent, l.received - behind⟩ : Unit' A) (l.processed - behind)).2 = false := by
    intro m; simp [latencies, minus, hs, hr]
  have : (item f true m (stamped id (· - behind) b l)).2 = none := by
    have step : ∀ m : Metrics, (match latencies true m (⟨b, l.created, l.sent, l.received - behind⟩ : Unit' A) (l.processed - behind) with
          | (m, true) => (m, some (Except.ok v : Except Err U))
          | (m, false) => (m, none)).2 = none := by
      intro m
      have := hlat m
      rcases h : latencies true m (⟨b, l.created, l.sent, l.received - behind⟩ : Unit' A) (l.processed - behind) with ⟨m', ok⟩
      rw [h] at this
      cases this
      rfl
    cases b with
    | encoded bs =>
      cases hd : f.decode bs with
      | error e => simp [meaning, stamped, hd] at hv
      | ok w =>
        have : w = v := by simpa [meaning, stamped, hd] using hv
        subst this
        simp only [stamped, item, hd, id]
        exact step _
    | decoded a =>
      cases hd : f.downcast a with
      | none => simp [meaning, stamped, hd] at hv
      | some w =>
        have : w = v := by simpa [meaning, stamped, hd] using hv
        subst this
        simp only [stamped, item, hd, id]
        exact step _
  rcases hi : item f true m (stamped id (· - behind) b l) with ⟨m', r⟩
  rw [hi] at this
  cases this
  rw [read, hi]

theorem wraps (received created behind word : Nat) (hl : behind ≤ created) (ho : created ≤ received)
    (h : received - created < behind) :
    ¬ created ≤ received - behind ∧ received - behind + word - created = word - (behind - (received - created)) := by omega

/-- **C90 is false if the clock of a worker is behind that of the coordinator**: in builds that do not check, the latency that is shown is
close to the greatest number there is (584 years), by as much as the clock is too far behind. -/
theorem C90_latency_wraps_false (f : Feed A U) (bs : List Nat) (v : U) (l : Life) (behind : Nat) (ho : l.Ordered)
    (hb : l.received - l.created < behind) (hl : behind ≤ l.created) (hv : f.decode bs = .ok v) :
    (read f false {} [stamped id (· - behind) (.encoded bs : Body A) l]).1.receivedAll =
      [word - (behind - (l.received - l.created))] := by
  obtain ⟨h1, h2, h3⟩ := ho
  obtain ⟨hr, he⟩ := wraps l.received l.created behind word hl (by omega) hb
  have hm : minus false (l.received - behind) l.created = some (word - (behind - (l.received - l.created))) := by
    unfold minus; rw [if_neg hr, he]; rfl
  obtain ⟨l1, e1⟩ : ∃ l1, minus false l.sent l.created = some l1 := ⟨_, by unfold minus; rw [if_pos h1]⟩
  obtain ⟨l3, e3⟩ : ∃ l3, minus false (l.processed - behind) l.created = some l3 := by
    unfold minus; by_cases h : l.created ≤ l.processed - behind <;> simp [h]
  simp [read, item, stamped, hv, latencies, e1, hm, e3]

/-! A case: a unit takes 3 ms to the worker. With one clock it is read; if the clock of the worker is 5 ms behind it is not. -/

namespace Demo

def feed : Feed Nat Nat := ⟨fun bs => if bs = [] then .error "empty" else .ok bs.sum, fun a => if a < 10 then some a else none⟩
def life : Life := ⟨1000000000, 1000001000, 1003000000, 1003500000⟩

end Demo

example : (read Demo.feed true {} [stamped id id (.encoded [1, 2]) Demo.life, (.error (.exec "lost"), 7), stamped id id (.encoded []) Demo.life,
    stamped id id (.decoded 4) Demo.life, stamped id id (.decoded 11) Demo.life]) =
    ({ bytes := 2, inMemory := 1, count := 2, sendMax := 1000, sendAll := [1000, 1000], receivedMax := 3000000,
       receivedAll := [3000000, 3000000], processedMax := 3500000, processedAll := [3500000, 3500000] },
     [.ok 3, .error (.exec "lost"), .error (.internal "empty"), .ok 4, .error (.exec "Expected WorkUnit of type")], true) := by
  rfl

example : (read Demo.feed true {} [stamped id (· - 5000000) (.encoded [1, 2]) Demo.life]).2 = ([], false) :=
  C90_clock_behind_false Demo.feed {} _ 3 Demo.life 5000000 ⟨by decide, by decide, by decide⟩ (by decide) (by decide) rfl []

example : (read Demo.feed false {} [stamped id (· - 5000000) (.encoded [1, 2]) Demo.life]).1.receivedAll = [word - 2000000] :=
  C90_latency_wraps_false Demo.feed [1, 2] 3 Demo.life 5000000 ⟨by decide, by decide, by decide⟩ (by decide) (by decide) rfl

end DD.FeedRead
