import Verif.Model.Requests
import Mathlib.Data.List.Forall2
/-
Whatever a worker is asked, it answers with data of the task named or with an error (C87).
-/
namespace DD.Requests
open DD.Codec

variable {Base P B S : Type} (m : Machine) (dec : B → Except Err P) (insert : Head P → Base → Except Err (Plan S))

theorem executeAll_spec (p : Plan S) : ∀ (is done : List Nat),
    (∃ k ≤ is.length, (executeAll p done is).1 = done ++ is.take k) ∧
    (∀ ss, (executeAll p done is).2 = .ok ss → ss.map (·.1) = is ∧ (∀ i ∈ is, i < p.parts) ∧
      (executeAll p done is).1 = done ++ is ∧
      ∀ (j : Nat) i s, ss[j]? = some (i, s) → p.exec (done ++ is.take j) i = .ok s) := by
  intro is
  induction is with
  | nil =>
    intro done
    refine ⟨⟨0, by simp, by simp [executeAll]⟩, ?_⟩
    intro ss h; cases h; simp [executeAll]
  | cons i is ih =>
    intro done
    by_cases hp : p.parts ≤ i
    · refine ⟨⟨0, by simp, by simp [executeAll, hp]⟩, ?_⟩
      intro ss h; simp [executeAll, hp] at h
    · cases he : p.exec done i with
      | error e =>
        refine ⟨⟨1, by simp, by simp [executeAll, hp, he]⟩, ?_⟩
        intro ss h; simp [executeAll, hp, he] at h
      | ok s =>
        obtain ⟨⟨k, hk, h1⟩, h2⟩ := ih (done ++ [i])
        refine ⟨⟨k + 1, by simpa using hk, by simp [executeAll, hp, he, h1]⟩, ?_⟩
        intro ss h
        simp only [executeAll, if_neg hp, he] at h
        cases hr : (executeAll p (done ++ [i]) is).2 with
        | error e => rw [hr] at h; cases h
        | ok rest =>
          rw [hr] at h; cases h
          obtain ⟨h3, h4, h5, h6⟩ := h2 rest hr
          refine ⟨by simp [h3], ?_, by simp [executeAll, hp, he, h5], ?_⟩
          · intro x hx
            rcases List.mem_cons.mp hx with rfl | hx
            · omega
            · exact h4 x hx
          · intro j x s' hj
            cases j with
            | zero => simp at hj; obtain ⟨rfl, rfl⟩ := hj; simpa using he
            | succ j =>
              have := h6 j x s' (by simpa using hj)
              simpa using this

theorem mem_range {lo hi i : Nat} : i ∈ range lo hi ↔ lo ≤ i ∧ i < hi := by
  unfold range
  rw [List.mem_map]
  constructor
  · rintro ⟨j, hj, rfl⟩; rw [List.mem_range] at hj; omega
  · rintro ⟨h1, h2⟩; exact ⟨i - lo, by rw [List.mem_range]; omega, by omega⟩

theorem says_of_ok {r : ExecuteProto B} {x : Execute P} (h : decodeExecute dec r = .ok x) :
    x.lo = r.lo ∧ x.hi = r.hi := by
  unfold decodeExecute at h
  cases hk : r.key with
  | none => rw [hk] at h; cases h
  | some k =>
    rw [hk] at h
    simp only [bind, Except.bind] at h
    cases hd : decodeTaskKey k with
    | error e => rw [hd] at h; cases h
    | ok key =>
      rw [hd] at h
      cases hh : r.head with
      | none => rw [hh] at h; cases h
      | some hd' =>
        rw [hh] at h
        simp only at h
        cases hx : decodeHead dec hd' with
        | error e => rw [hx] at h; cases h
        | ok y => rw [hx] at h; cases h; exact ⟨rfl, rfl⟩

/-- **C87** The requests that are understood: with a task, whose query has sixteen bytes, and with a producer head that decodes. -/
theorem C87_understood (r : ExecuteProto B) :
    (∃ x, decodeExecute dec r = .ok x) ↔
      ∃ k h h', r.key = some k ∧ k.query.length = 16 ∧ r.head = some h ∧ decodeHead dec h = .ok h' := by
  constructor
  · rintro ⟨x, h⟩
    unfold decodeExecute at h
    cases hk : r.key with
    | none => rw [hk] at h; cases h
    | some k =>
      rw [hk] at h
      by_cases h16 : k.query.length = 16
      · cases hh : r.head with
        | none => rw [hh] at h; simp [decodeTaskKey, deserializeUuid, h16, bind, Except.bind] at h
        | some hd =>
          cases hx : decodeHead dec hd with
          | error e => rw [hh] at h; simp [decodeTaskKey, deserializeUuid, h16, bind, Except.bind, hx] at h
          | ok y => exact ⟨k, hd, y, rfl, h16, rfl, hx⟩
      · simp [decodeTaskKey, deserializeUuid, h16, bind, Except.bind] at h
  · rintro ⟨k, h, h', hk, h16, hh, hx⟩
    refine ⟨⟨⟨⟨k.query, h16⟩, k.stage, k.task⟩, r.lo, r.hi, h'⟩, ?_⟩
    unfold decodeExecute
    rw [hk, hh]
    simp [decodeTaskKey, deserializeUuid, h16, bind, Except.bind, hx]

/-- **C87** Every other request is answered with an error and changes nothing. -/
theorem C87_not_understood (st : State Base S) (r : ExecuteProto B)
    (h : ¬ ∃ k h h', r.key = some k ∧ k.query.length = 16 ∧ r.head = some h ∧ decodeHead dec h = .ok h') :
    ∃ e, execute m dec insert st r = (st, .failed e) := by
  rw [← C87_understood dec r] at h
  unfold execute
  cases hd : decodeExecute dec r with
  | error e => exact ⟨e, rfl⟩
  | ok x => exact absurd ⟨x, hd⟩ h

/-- **C87** Whatever is asked, and whatever becomes of it: no other task is touched, and the plan that was sent for the task stays. -/
theorem C87_others_untouched (st : State Base S) (r : ExecuteProto B) :
    (∀ k, (∀ x, decodeExecute dec r = .ok x → k ≠ x.key) → (execute m dec insert st r).1.tasks k = st.tasks k) ∧
    ∀ k t', (execute m dec insert st r).1.tasks k = some (.ok t') → ∃ t, st.tasks k = some (.ok t) ∧ t'.base = t.base
      ∧ t.executed <+: t'.executed ∧ (∀ f, t.final = some f → t'.final = some f) := by
  have hsame : ∀ (t : Task Base S) (x : Execute P), (t.execute m insert x).1.base = t.base
      ∧ t.executed <+: (t.execute m insert x).1.executed ∧ (∀ f, t.final = some f → (t.execute m insert x).1.final = some f) := by
    intro t x
    have hplan : (t.plan insert x.head).1.base = t.base ∧ (t.plan insert x.head).1.executed = t.executed
        ∧ (∀ f, t.final = some f → (t.plan insert x.head).1.final = some f) := by
      unfold Task.plan
      cases hf : t.final with
      | some f => exact ⟨rfl, rfl, fun g hg => by rw [hf]; exact hg⟩
      | none => exact ⟨rfl, rfl, fun g hg => by cases hg⟩
    unfold Task.execute
    cases hp : t.plan insert x.head with
    | mk t1 res =>
      rw [hp] at hplan
      obtain ⟨h1, h2, h3⟩ := hplan
      simp only at h1 h2 h3
      cases res with
      | error e => exact ⟨h1, by simp [h2], h3⟩
      | ok p =>
        simp only
        cases m.minus x.hi x.lo with
        | none => exact ⟨h1, by simp [h2], h3⟩
        | some n =>
          simp only
          cases m.reserve (S := S) n with
          | some bad => exact ⟨h1, by simp [h2], h3⟩
          | none =>
            obtain ⟨⟨k, _, hk⟩, _⟩ := executeAll_spec p (range x.lo x.hi) t1.executed
            refine ⟨h1, ?_, h3⟩
            simp only [hk]
            rw [← h2]; exact List.prefix_append _ _
  unfold execute
  cases hd : decodeExecute dec r with
  | error e => exact ⟨fun k _ => rfl, fun k t' h => ⟨t', h, rfl, List.prefix_refl _, fun f hf => hf⟩⟩
  | ok x =>
    simp only
    cases ht : st.tasks x.key with
    | none => exact ⟨fun k _ => rfl, fun k t' h => ⟨t', h, rfl, List.prefix_refl _, fun f hf => hf⟩⟩
    | some res =>
      cases res with
      | error e => exact ⟨fun k _ => rfl, fun k t' h => ⟨t', h, rfl, List.prefix_refl _, fun f hf => hf⟩⟩
      | ok t =>
        refine ⟨fun k hk => by simp [hk x rfl], ?_⟩
        intro k t' h
        simp only at h
        by_cases hk : k = x.key
        · subst hk
          rw [if_pos rfl] at h
          cases h
          exact ⟨t, ht, hsame t x⟩
        · rw [if_neg hk] at h
          exact ⟨t', h, rfl, List.prefix_refl _, fun f hf => hf⟩

/-- **C87** Data comes only from the task that is named: if a request is answered with streams, its task had been registered, there is
one stream per partition asked for, in order, all of these exist, and each is what the plan of this task makes of that partition. -/
theorem C87_data_of_the_task (st : State Base S) (r : ExecuteProto B) (ss : List (Nat × S))
    (h : (execute m dec insert st r).2 = .streams ss) :
    ∃ x t p, decodeExecute dec r = .ok x ∧ st.tasks x.key = some (.ok t) ∧ (t.plan insert x.head).2 = .ok p ∧
      ss.map (·.1) = range r.lo r.hi ∧ (∀ i ∈ range r.lo r.hi, i < p.parts) ∧
      ∀ i s, (i, s) ∈ ss → ∃ before, p.exec before i = .ok s := by
  unfold execute at h
  cases hd : decodeExecute dec r with
  | error e => rw [hd] at h; cases h
  | ok x =>
    rw [hd] at h
    simp only at h
    cases ht : st.tasks x.key with
    | none => rw [ht] at h; cases h
    | some res =>
      rw [ht] at h
      cases res with
      | error e => cases h
      | ok t =>
        simp only at h
        obtain ⟨hlo, hhi⟩ := says_of_ok dec hd
        unfold Task.execute at h
        cases hp : t.plan insert x.head with
        | mk t1 res =>
          rw [hp] at h
          cases res with
          | error e => cases h
          | ok p =>
            simp only at h
            cases hm : m.minus x.hi x.lo with
            | none => rw [hm] at h; cases h
            | some n =>
              rw [hm] at h
              simp only at h
              cases hr : m.reserve (S := S) n with
              | some bad =>
                rw [hr] at h
                simp only at h
                subst h
                unfold Machine.reserve at hr
                split at hr
                · cases hr
                · split at hr <;> cases hr
              | none =>
                rw [hr] at h
                simp only at h
                cases hx : (executeAll p t1.executed (range x.lo x.hi)).2 with
                | error e => rw [hx] at h; cases h
                | ok ss' =>
                  rw [hx] at h
                  cases h
                  obtain ⟨h3, h4, _, h6⟩ := (executeAll_spec p (range x.lo x.hi) t1.executed).2 ss hx
                  rw [hlo, hhi] at h3 h4
                  refine ⟨x, t, p, rfl, ht, by rw [hp], h3, h4, ?_⟩
                  intro i s hs
                  obtain ⟨j, hj⟩ := List.mem_iff_getElem?.mp hs
                  exact ⟨_, h6 j i s hj⟩

/-- **C87** A task nobody has set, and a task whose plan failed, are answered with an error, whatever else is in the request. -/
theorem C87_unknown_task (st : State Base S) (r : ExecuteProto B) (x : Execute P) (hd : decodeExecute dec r = .ok x)
    (h : ∀ t, st.tasks x.key ≠ some (.ok t)) : ∃ e, execute m dec insert st r = (st, .failed e) := by
  unfold execute
  rw [hd]
  simp only
  cases ht : st.tasks x.key with
  | none => exact ⟨_, rfl⟩
  | some res =>
    cases res with
    | error e => exact ⟨e, rfl⟩
    | ok t => exact absurd ht (h t)

/-- **C87, partial.** A request for partitions that there is memory for, in ascending order, is answered, with streams or an error;
with an error if one of the partitions does not exist. Missing, and false: all other requests (`C87_reversed_range_false`,
`C87_huge_range_false`). -/
theorem C87_answered_partial (st : State Base S) (r : ExecuteProto B) (hr : r.lo ≤ r.hi) (hs : (r.hi - r.lo) * streamSize < tooMany)
    (hmem : (r.hi - r.lo) * streamSize ≤ m.memory) :
    ((∃ ss, (execute m dec insert st r).2 = .streams ss) ∨ ∃ e, (execute m dec insert st r).2 = .failed e) ∧
    ∀ x t p, decodeExecute dec r = .ok x → st.tasks x.key = some (.ok t) → (t.plan insert x.head).2 = .ok p →
      (r.lo < r.hi → p.parts < r.hi → ∃ e, (execute m dec insert st r).2 = .failed e) ∧
      (r.hi ≤ p.parts → (∀ i ∈ range r.lo r.hi, ∀ before, ∃ s, p.exec before i = .ok s) →
        ∃ ss, (execute m dec insert st r).2 = .streams ss) := by
  have hgood : ∀ x : Execute P, x.lo = r.lo → x.hi = r.hi →
      m.minus x.hi x.lo = some (r.hi - r.lo) ∧ m.reserve (S := S) (r.hi - r.lo) = none := by
    intro x h1 h2
    refine ⟨by unfold Machine.minus; rw [h1, h2, if_pos hr], ?_⟩
    unfold Machine.reserve
    rw [if_neg (by omega), if_neg (by omega)]
  have hall : ∀ (p : Plan S) (is done : List Nat), (∀ i ∈ is, i < p.parts) → (∀ i ∈ is, ∀ b, ∃ s, p.exec b i = .ok s) →
      ∃ ss, (executeAll p done is).2 = .ok ss := by
    intro p is
    induction is with
    | nil => intro done _ _; exact ⟨[], rfl⟩
    | cons i is ih =>
      intro done h1 h2
      obtain ⟨s, hs⟩ := h2 i (by simp) done
      obtain ⟨ss, hss⟩ := ih (done ++ [i]) (fun j hj => h1 j (List.mem_cons_of_mem _ hj)) (fun j hj => h2 j (List.mem_cons_of_mem _ hj))
      refine ⟨(i, s) :: ss, ?_⟩
      simp only [executeAll, if_neg (by have := h1 i (by simp); omega : ¬ p.parts ≤ i), hs, hss]
      rfl
  refine ⟨?_, ?_⟩
  · unfold execute
    cases hd : decodeExecute dec r with
    | error e => exact .inr ⟨e, rfl⟩
    | ok x =>
      simp only
      cases ht : st.tasks x.key with
      | none => exact .inr ⟨_, rfl⟩
      | some res =>
        cases res with
        | error e => exact .inr ⟨e, rfl⟩
        | ok t =>
          simp only [Task.execute]
          cases hp : t.plan insert x.head with
          | mk t1 res =>
            cases res with
            | error e => exact .inr ⟨e, rfl⟩
            | ok p =>
              obtain ⟨hlo, hhi⟩ := says_of_ok dec hd
              simp only [(hgood x hlo hhi).1, (hgood x hlo hhi).2]
              cases (executeAll p t1.executed (range x.lo x.hi)).2 with
              | ok ss => exact .inl ⟨ss, rfl⟩
              | error e => exact .inr ⟨e, rfl⟩
  · intro x t p hd ht hp
    obtain ⟨hlo, hhi⟩ := says_of_ok dec hd
    have hred : (execute m dec insert st r).2 = match (executeAll p (t.plan insert x.head).1.executed (range x.lo x.hi)).2 with
        | .ok ss => .streams ss
        | .error e => .failed e := by
      unfold execute
      rw [hd]
      simp only [ht, Task.execute]
      cases hpl : t.plan insert x.head with
      | mk t1 res =>
        rw [hpl] at hp
        simp only at hp
        subst hp
        simp only [(hgood x hlo hhi).1, (hgood x hlo hhi).2]
        cases (executeAll p t1.executed (range x.lo x.hi)).2 <;> rfl
    refine ⟨fun hlt hex => ?_, fun hex hok => ?_⟩
    · rw [hred]
      cases hx : (executeAll p (t.plan insert x.head).1.executed (range x.lo x.hi)).2 with
      | error e => exact ⟨e, rfl⟩
      | ok ss =>
        obtain ⟨_, h4, _⟩ := (executeAll_spec p (range x.lo x.hi) (t.plan insert x.head).1.executed).2 ss hx
        have := h4 (r.hi - 1) (by rw [mem_range, hlo, hhi]; omega)
        omega
    · obtain ⟨ss, hss⟩ := hall p (range x.lo x.hi) (t.plan insert x.head).1.executed
        (fun i hi => by rw [mem_range, hlo, hhi] at hi; omega) (fun i hi => by rw [hlo, hhi] at hi; exact hok i hi)
      rw [hred, hss]
      exact ⟨ss, rfl⟩

/-! ### Requests that are not answered -/

theorem arith_reversed (lo hi w t c : Nat) (hw : w = 18446744073709551616) (ht : t = 9223372036854775808) (hc : c = 16)
    (h : lo ≤ hi + (w - t / 16)) : t ≤ (hi + w - lo) * c := by
  subst hc; omega

theorem arith_huge (mem t c : Nat) (hc : c = 16) (h : mem < t - 16) :
    ¬ t ≤ (mem / 16 + 1 - 0) * c ∧ mem < (mem / 16 + 1 - 0) * c := by
  subst hc; omega

theorem minus_reversed (m : Machine) {lo hi : Nat} (hr : hi < lo) (hb : m.checked = true ∨ lo ≤ hi + (word - tooMany / 16)) :
    m.minus hi lo = none ∨ ∃ n, m.minus hi lo = some n ∧ m.reserve (S := S) n = some .panicked := by
  unfold Machine.minus Machine.reserve
  rw [if_neg (Nat.not_le.mpr hr)]
  by_cases hc : m.checked = true
  · exact .inl (if_pos hc)
  · refine .inr ⟨hi + word - lo, if_neg hc, ?_⟩
    rcases hb with hb | hb
    · exact absurd hb hc
    · exact if_pos (arith_reversed lo hi word tooMany streamSize rfl rfl rfl hb)

/-- **C87 is false for ranges that end before they begin**: for every task that is registered, every range of this kind and every plan,
a debug build panics, and so does a release build unless the range begins at the very end of the numbers. -/
theorem C87_reversed_range_false (st : State Base S) (r : ExecuteProto B) (x : Execute P) (hd : decodeExecute dec r = .ok x)
    (t : Task Base S) (ht : st.tasks x.key = some (.ok t)) (p : Plan S) (hp : (t.plan insert x.head).2 = .ok p)
    (hr : r.hi < r.lo) (hb : m.checked = true ∨ r.lo ≤ r.hi + (word - tooMany / 16)) :
    (execute m dec insert st r).2 = .panicked := by
  obtain ⟨hlo, hhi⟩ := says_of_ok dec hd
  unfold execute
  rw [hd]
  simp only [ht, Task.execute]
  cases hpl : t.plan insert x.head with
  | mk t1 res =>
    rw [hpl] at hp
    simp only at hp
    subst hp
    simp only [hlo, hhi]
    rcases minus_reversed (S := S) m hr hb with h | ⟨n, h, h'⟩
    · simp only [h]
    · simp only [h, h']

/-- **C87 is false for large ranges**: on every machine with less than eight exbibytes there is a request for partitions, most of which do
not exist, that ends the process of a worker, for every task it has registered. The length of the range is reserved before its
partitions are looked at. -/
theorem C87_huge_range_false (hm : m.memory < tooMany - 16) (st : State Base S) (key : TaskKeyProto) (h : Head B) (x : Execute P)
    (hd : decodeExecute dec ⟨some key, 0, m.memory / 16 + 1, some h⟩ = .ok x) (t : Task Base S)
    (ht : st.tasks x.key = some (.ok t)) (p : Plan S) (hp : (t.plan insert x.head).2 = .ok p) :
    (execute m dec insert st ⟨some key, 0, m.memory / 16 + 1, some h⟩).2 = .aborted := by
  obtain ⟨hlo, hhi⟩ := says_of_ok dec hd
  unfold execute
  rw [hd]
  simp only [ht, Task.execute]
  cases hpl : t.plan insert x.head with
  | mk t1 res =>
    rw [hpl] at hp
    simp only at hp
    subst hp
    simp only at hlo hhi
    obtain ⟨h1, h2⟩ := arith_huge m.memory tooMany streamSize rfl hm
    simp only [Machine.minus, hlo, hhi, if_pos (Nat.zero_le _), Machine.reserve, if_neg h1, if_pos h2]

namespace Demo

/-- A task whose plan has as many partitions as its head says, each of which can be executed once. -/
def put : Head Unit → Unit → Except Err (Plan Nat)
  | .broadcast n, _ => .ok ⟨n, fun before i => if i ∈ before then .error (.exec "already consumed") else .ok i⟩
  | _, _ => .ok ⟨1, fun before i => if i ∈ before then .error (.exec "already consumed") else .ok i⟩

def uuid : Uuid := ⟨List.replicate 16 0, rfl⟩
def key : TaskKey := ⟨uuid, 1, 0⟩
def st : State Unit Nat := ⟨fun k => if k = key then some (.ok { base := () }) else none⟩
def machine : Machine := ⟨false, 17179869184⟩
def ask (lo hi n : Nat) : ExecuteProto Unit := ⟨some ⟨uuid.bytes, 1, 0⟩, lo, hi, some (.broadcast n)⟩

end Demo

/-- **C87 is false for what a refused request leaves behind.** A request for one partition too many is refused, but the partitions
before have been executed: the same request for the partitions that exist is refused as well, although it is answered if it comes
first. -/
theorem C87_refused_takes_partitions_false :
    ∃ ss, (execute Demo.machine (fun _ : Unit => .ok ()) Demo.put Demo.st (Demo.ask 0 2 2)).2 = .streams ss ∧
      ∃ e e', (execute Demo.machine (fun _ : Unit => .ok ()) Demo.put Demo.st (Demo.ask 0 3 2)).2 = .failed e ∧
        (execute Demo.machine (fun _ : Unit => .ok ()) Demo.put
          (execute Demo.machine (fun _ : Unit => .ok ()) Demo.put Demo.st (Demo.ask 0 3 2)).1 (Demo.ask 0 2 2)).2 = .failed e' :=
  ⟨[(0, 0), (1, 1)], by rfl, .exec "partition not available", .exec "already consumed", by rfl, by rfl⟩

/-- **C87 is false for the head a refused request asks for.** The first request decides how the output of the task is divided, even if
it is refused: afterwards a request for four partitions, which would have been answered, is refused. -/
theorem C87_refused_decides_head_false :
    ∃ ss, (execute Demo.machine (fun _ : Unit => .ok ()) Demo.put Demo.st (Demo.ask 0 4 4)).2 = .streams ss ∧
      ∃ e e', (execute Demo.machine (fun _ : Unit => .ok ()) Demo.put Demo.st (Demo.ask 2 3 2)).2 = .failed e ∧
        (execute Demo.machine (fun _ : Unit => .ok ()) Demo.put
          (execute Demo.machine (fun _ : Unit => .ok ()) Demo.put Demo.st (Demo.ask 2 3 2)).1 (Demo.ask 0 4 4)).2 = .failed e' :=
  ⟨[(0, 0), (1, 1), (2, 2), (3, 3)], by rfl, .exec "partition not available", .exec "partition not available", by rfl, by rfl⟩

/-! ### The coordinator channel -/

/-- **C87** A channel is opened only by a plan: the first message has to be a well-formed one, whatever follows. -/
theorem C87_channel_opens (L : Lib) (ms : List (Option ToWorkerProto)) (r : SetPlan L.Url) :
    openChannel L ms = .ok r ↔ ∃ p rest, ms = some (.setPlan p) :: rest ∧ decodeSetPlan L p = .ok r := by
  constructor
  · intro h
    match ms, h with
    | [], h => cases h
    | none :: _, h => cases h
    | some (.setPlan p) :: rest, h => exact ⟨p, rest, rfl, h⟩
    | some (.batch _) :: _, h => cases h
    | some .eos :: _, h => cases h
  · rintro ⟨p, rest, rfl, h⟩; exact h

/-- **C87** Every message before the first malformed one is acted on, in order, and nothing after it. -/
theorem C87_messages_until_malformed (good : List (Option ToWorkerProto)) (xs : List ToWorker)
    (hg : List.Forall₂ (fun m x => decodeToWorker m = .ok x) good xs) (rest : List (Option ToWorkerProto))
    (hr : ∀ m ms, rest = m :: ms → ∃ e, decodeToWorker m = .error e) : messagesRead (good ++ rest) = xs := by
  induction hg with
  | nil =>
    cases rest with
    | nil => rfl
    | cons m ms =>
      obtain ⟨e, he⟩ := hr m ms rfl
      simp [messagesRead, he]
  | cons h _ ih => simp [messagesRead, h, ih]

/-- **C87 is false for malformed messages of a channel**: a second plan, or work units with a broken identifier, are not refused: the
worker acts as if the coordinator had ended the channel, and what comes after is dropped. -/
theorem C87_second_plan_false (p : SetPlanProto) (rest : List (Option ToWorkerProto)) :
    messagesRead (some (.setPlan p) :: rest) = messagesRead [] := rfl

/-! Cases. -/

example : (execute Demo.machine (fun _ : Unit => .ok ()) Demo.put Demo.st (Demo.ask 1 3 4)).2 = .streams [(1, 1), (2, 2)] := by rfl

example : decodeExecute (fun _ : Unit => .ok ()) (Demo.ask 3 1 4) = .ok (⟨Demo.key, 3, 1, .broadcast 4⟩ : Execute Unit) := by rfl

example : (execute Demo.machine (fun _ : Unit => .ok ()) Demo.put Demo.st (Demo.ask 3 1 4)).2 = .panicked := by
  refine C87_reversed_range_false Demo.machine _ Demo.put Demo.st (Demo.ask 3 1 4) ⟨Demo.key, 3, 1, .broadcast 4⟩ rfl
    { base := () } rfl ⟨4, fun before i => if i ∈ before then .error (.exec "already consumed") else .ok i⟩ rfl (by decide) (.inr ?_)
  simp [Demo.ask, word, tooMany]

theorem Demo.ask_decoded (lo hi n : Nat) : decodeExecute (fun _ : Unit => .ok ()) ⟨some ⟨Demo.uuid.bytes, 1, 0⟩, lo, hi, some (.broadcast n)⟩
    = .ok (⟨Demo.key, lo, hi, .broadcast n⟩ : Execute Unit) := rfl

example : (execute Demo.machine (fun _ : Unit => .ok ()) Demo.put Demo.st
      ⟨some ⟨Demo.uuid.bytes, 1, 0⟩, 0, Demo.machine.memory / 16 + 1, some (.broadcast 4)⟩).2 = .aborted :=
  C87_huge_range_false Demo.machine (fun _ : Unit => .ok ()) Demo.put (by decide) Demo.st ⟨Demo.uuid.bytes, 1, 0⟩
    (.broadcast 4) _ (Demo.ask_decoded _ _ _) { base := () } rfl
    ⟨4, fun before i => if i ∈ before then .error (.exec "already consumed") else .ok i⟩ rfl

example : messagesRead [some .eos, none, some .eos] = [.eos] := by rfl

end DD.Requests
