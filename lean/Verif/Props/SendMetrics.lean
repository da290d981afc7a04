/-
**C86**: what a query shows about sending its plans is what happened.
-/
import Verif.Model.SendMetrics
import Mathlib.Data.List.Basic
import Mathlib.Data.List.Nodup
import Mathlib.Tactic.ByContra

namespace DD.SendMetrics

/-! ### Specification: what happened, read off the history -/

/-- How long the workers took to answer, in microseconds. -/
def latencies (l : List Step) : List Nat := l.filterMap fun | .sent _ m _ => some m | _ => none
/-- The sizes of the encoded plans that were sent. -/
def planBytes (l : List Step) : List Nat := l.filterMap fun | .sent _ _ b => b | _ => none
/-- How many channels were meant to be opened. -/
def spawns (l : List Step) : Nat := l.countP fun | .spawn => true | _ => false
/-- How many of the tasks for them have ended. -/
def endings (l : List Step) : Nat := l.countP fun | .ends _ => true | _ => false
/-- How many channels led to the coordinator's own process, or to others. -/
def starts (inProcess : Bool) (l : List Step) : Nat := l.countP fun | .start _ b => b == inProcess | _ => false
/-- The query is over: nothing runs on its behalf any more. -/
def Over (l : List Step) : Prop := (Step.drained ∈ l ∨ Step.abandoned ∈ l) ∧ endings l = spawns l

/-- The greatest number of a list. -/
def greatest (l : List Nat) : Nat := l.foldr max 0

/-- The channels that were opened, in the order in which their tasks began, and those whose worker answered. -/
def started (l : List Step) : List Nat := l.filterMap fun | .start i _ => some i | _ => none
@[inherit_doc started]
def answered (l : List Step) : List Nat := l.filterMap fun | .sent i _ _ => some i | _ => none

/-- No task of a channel failed: each that ended had got the answer of its worker. -/
def Undisturbed (l : List Step) : Prop := ∀ i, Step.ends i ∈ l → i ∈ answered l

/-! ### Lemmas -/

theorem greatest_append (a : List Nat) (x : Nat) : greatest (a ++ [x]) = max (greatest a) x := by
  induction a with
  | nil => simp [greatest]
  | cons y a ih => simp only [greatest, List.cons_append, List.foldr_cons] at ih ⊢; rw [ih]; omega

/-- What holds after every history. -/
structure Inv (s : State) (l : List Step) : Prop where
  loc : s.local_ = starts true l % word
  rem : s.remote = starts false l % word
  bytes : s.bytes = (planBytes l).sum % word
  mx : s.maxMicros = greatest ((latencies l).map (· % word))
  sm : s.sumMicros = (latencies l).sum % word
  cnt : s.countMicros = (latencies l).length % word
  len : s.tasks.length = spawns l
  ended : s.tasks.countP (· == .ended) = endings l
  gone : s.coordinator = false ↔ (Step.drained ∈ l ∨ Step.abandoned ∈ l)
  dr : Step.drained ∈ l → s.held = false
  shown : s.shownMax = (if s.held then 0 else addMicros 0 s.maxMicros) ∧
    s.shownAvg = (if s.held then 0 else addMicros 0 (s.sumMicros / max s.countMicros 1))
  startedNodup : (started l).Nodup
  answeredNodup : (answered l).Nodup
  startedIn : ∀ i ∈ started l, ∃ t, s.tasks[i]? = some t ∧ t ≠ .spawned
  answeredIn : ∀ i ∈ answered l, s.tasks[i]? = some .sent ∨ s.tasks[i]? = some .ended
  sub : ∀ i ∈ answered l, i ∈ started l
  isStarted : ∀ i, s.tasks[i]? = some .started → i ∈ started l
  endedIn : ∀ i, s.tasks[i]? = some .ended → Step.ends i ∈ l

theorem Inv.init : Inv {} [] := by
  constructor <;> simp [starts, planBytes, latencies, spawns, endings, started, answered, greatest, State.held]

theorem held_of {s : State} {i : Nat} {t : Task} (h : s.tasks[i]? = some t) (ht : t ≠ .ended) : s.held = true := by
  unfold State.held
  have : s.tasks.any (· != .ended) = true :=
    List.any_eq_true.2 ⟨t, List.mem_of_getElem? h, by simpa using ht⟩
  simp [this]

theorem held_of_step {s s' : State} {a : Step} (h : step s a = some s') : s.held = true := by
  cases a with
  | spawn => simp only [step] at h; split at h <;> simp_all [State.held]
  | start i b =>
    simp only [step] at h
    split at h
    · rename_i hi; exact held_of hi (by decide)
    · cases h
  | sent i m b =>
    simp only [step] at h
    split at h
    · rename_i hi; exact held_of hi (by decide)
    · cases h
  | ends i =>
    simp only [step] at h
    split at h
    · cases h
    · cases h
    · rename_i t hne hi
      exact held_of hi (fun h' => by subst h'; exact hne rfl)
  | drained => simp only [step] at h; split at h <;> simp_all [State.held]
  | abandoned => simp only [step] at h; split at h <;> simp_all [State.held]

theorem release_tasks (s : State) : s.release.tasks = s.tasks := by unfold State.release; split <;> rfl
theorem release_coordinator (s : State) : s.release.coordinator = s.coordinator := by unfold State.release; split <;> rfl
theorem release_held (s : State) : s.release.held = s.held := by
  unfold State.held; rw [release_tasks, release_coordinator]
theorem release_local (s : State) : s.release.local_ = s.local_ := by unfold State.release; split <;> rfl
theorem release_remote (s : State) : s.release.remote = s.remote := by unfold State.release; split <;> rfl
theorem release_bytes (s : State) : s.release.bytes = s.bytes := by unfold State.release; split <;> rfl
theorem release_max (s : State) : s.release.maxMicros = s.maxMicros := by unfold State.release; split <;> rfl
theorem release_sum (s : State) : s.release.sumMicros = s.sumMicros := by unfold State.release; split <;> rfl
theorem release_count (s : State) : s.release.countMicros = s.countMicros := by unfold State.release; split <;> rfl

theorem release_shown (s : State) (h1 : s.shownMax = 0) (h2 : s.shownAvg = 0) :
    s.release.shownMax = (if s.release.held then 0 else addMicros 0 s.maxMicros) ∧
    s.release.shownAvg = (if s.release.held then 0 else addMicros 0 (s.sumMicros / max s.countMicros 1)) := by
  rw [release_held]
  unfold State.release
  cases hh : s.held <;> simp [h1, h2]

theorem Inv.step {s s' : State} {l : List Step} {a : Step} (hi : Inv s l) (h : step s a = some s') : Inv s' (l ++ [a]) := by
  have hheld := held_of_step h
  have hnd : Step.drained ∉ l := fun hd => by rw [hi.dr hd] at hheld; cases hheld
  have h1 : s.shownMax = 0 := by rw [hi.shown.1, hheld]; rfl
  have h2 : s.shownAvg = 0 := by rw [hi.shown.2, hheld]; rfl
  obtain ⟨loc, rem, bytes, mx, sm, cnt, len, ended, gone, dr, shown, sn, an, sI, aI, sub, isS, eI⟩ := hi
  cases a with
  | spawn =>
    simp only [SendMetrics.step] at h
    split at h
    · rename_i hc
      cases h
      have hh : State.held { s with tasks := s.tasks ++ [.spawned] } = true := by simp [State.held, hc]
      refine ⟨by simpa [starts] using loc, by simpa [starts] using rem, by simpa [planBytes] using bytes,
        by simpa [latencies] using mx, by simpa [latencies] using sm, by simpa [latencies] using cnt,
        by simpa [spawns] using len, by simpa [endings] using ended, by simpa using gone, by simp [hnd], by rw [hh]; exact ⟨h1, h2⟩,
        by simpa [started] using sn, by simpa [answered] using an, ?_, ?_, by simpa [answered, started] using sub, ?_, ?_⟩
      · intro i hi'
        obtain ⟨t, ht, hne⟩ := sI i (by simpa [started] using hi')
        refine ⟨t, ?_, hne⟩
        rw [List.getElem?_append_left (List.getElem?_eq_some_iff.1 ht).1]; exact ht
      · intro i hi'
        rcases aI i (by simpa [answered] using hi') with ht | ht
        · left; rw [List.getElem?_append_left (List.getElem?_eq_some_iff.1 ht).1]; exact ht
        · right; rw [List.getElem?_append_left (List.getElem?_eq_some_iff.1 ht).1]; exact ht
      · intro i ht
        have : s.tasks[i]? = some .started := by
          rw [List.getElem?_append] at ht
          split at ht
          · exact ht
          · rcases List.mem_of_getElem? ht with _ | ⟨_, h⟩
            cases h
        simpa [started] using isS i this
      · intro i ht
        have : s.tasks[i]? = some .ended := by
          rw [List.getElem?_append] at ht
          split at ht
          · exact ht
          · rcases List.mem_of_getElem? ht with _ | ⟨_, h⟩
            cases h
        simpa using eI i this
    · cases h
  | start i b =>
    simp only [SendMetrics.step] at h
    split at h
    · rename_i hs
      have hlt := (List.getElem?_eq_some_iff.1 hs).1
      have hget := (List.getElem?_eq_some_iff.1 hs).2
      have hset : ∀ j, (s.tasks.set i .started)[j]? = if i = j then some .started else s.tasks[j]? := by
        intro j; rw [List.getElem?_set]; by_cases hj : i = j <;> simp [hj]; subst hj; simp [hlt]
      have hcount : (s.tasks.set i .started).countP (· == .ended) = s.tasks.countP (· == .ended) := by
        rw [List.countP_set hlt, hget]; simp
      have hni : i ∉ started l := fun hm => by
        obtain ⟨t, ht, hne⟩ := sI i hm
        rw [hs] at ht; cases ht; exact hne rfl
      have key : ∀ s' : State, s'.tasks = s.tasks.set i .started → s'.coordinator = s.coordinator → s'.bytes = s.bytes →
          s'.maxMicros = s.maxMicros → s'.sumMicros = s.sumMicros → s'.countMicros = s.countMicros →
          s'.shownMax = s.shownMax → s'.shownAvg = s.shownAvg → s'.local_ = starts true (l ++ [.start i b]) % word →
          s'.remote = starts false (l ++ [.start i b]) % word → Inv s' (l ++ [.start i b]) := by
        intro s' e1 e2 e3 e4 e5 e6 e7 e8 e9 e10
        have hh : s'.held = true := held_of (i := i) (t := .started) (by rw [e1, hset]; simp) (by decide)
        refine ⟨e9, e10, by rw [e3]; simpa [planBytes] using bytes, by rw [e4]; simpa [latencies] using mx,
          by rw [e5]; simpa [latencies] using sm, by rw [e6]; simpa [latencies] using cnt, by rw [e1]; simpa [spawns] using len,
          by rw [e1, hcount]; simpa [endings] using ended, by rw [e2]; simpa using gone, by simp [hnd], by simp [hh, e7, e8, h1, h2],
          ?_, by simpa [answered] using an, ?_, ?_, ?_, ?_, ?_⟩
        · have : started (l ++ [.start i b]) = started l ++ [i] := by simp [started]
          rw [this, List.nodup_append]
          exact ⟨sn, by simp, by intro x hx y hy; simp at hy; subst hy; rintro rfl; exact hni hx⟩
        · intro j hj
          rw [e1, hset]
          by_cases hij : i = j
          · exact ⟨.started, by simp [hij], by decide⟩
          · rw [if_neg hij]
            refine sI j ?_
            have : started (l ++ [.start i b]) = started l ++ [i] := by simp [started]
            rw [this] at hj
            rcases List.mem_append.1 hj with h | h
            · exact h
            · exact absurd (List.mem_singleton.1 h).symm hij
        · intro j hj
          have hj := aI j (by simpa [answered] using hj)
          rw [e1, hset]
          by_cases hij : i = j
          · subst hij; rw [hs] at hj; simp at hj
          · rw [if_neg hij]; exact hj
        · intro j hj
          have := sub j (by simpa [answered] using hj)
          simp only [started, List.filterMap_append, List.mem_append] at this ⊢
          exact Or.inl this
        · intro j hj
          rw [e1, hset] at hj
          have : started (l ++ [.start i b]) = started l ++ [i] := by simp [started]
          rw [this]
          by_cases hij : i = j
          · simp [hij]
          · rw [if_neg hij] at hj; exact List.mem_append_left _ (isS j hj)
        · intro j hj
          rw [e1, hset] at hj
          by_cases hij : i = j
          · rw [if_pos hij] at hj; cases hj
          · rw [if_neg hij] at hj; exact List.mem_append_left _ (eI j hj)
      cases b
      · simp at h; subst h
        exact key _ rfl rfl rfl rfl rfl rfl rfl rfl (by simpa [starts] using loc) (by simp [starts] at rem ⊢; rw [rem]; simp)
      · simp at h; subst h
        exact key _ rfl rfl rfl rfl rfl rfl rfl rfl (by simp [starts] at loc ⊢; rw [loc]; simp) (by simpa [starts] using rem)
    · cases h
  | sent i m b =>
    simp only [SendMetrics.step] at h
    split at h
    · rename_i hs
      have hlt := (List.getElem?_eq_some_iff.1 hs).1
      have hget := (List.getElem?_eq_some_iff.1 hs).2
      have hset : ∀ j, (s.tasks.set i .sent)[j]? = if i = j then some .sent else s.tasks[j]? := by
        intro j; rw [List.getElem?_set]; by_cases hj : i = j <;> simp [hj]; subst hj; simp [hlt]
      have hcount : (s.tasks.set i .sent).countP (· == .ended) = s.tasks.countP (· == .ended) := by
        rw [List.countP_set hlt, hget]; simp
      have hni : i ∉ answered l := fun hm => by
        have := aI i hm
        rw [hs] at this; simp at this
      have hl : latencies (l ++ [.sent i m b]) = latencies l ++ [m] := by simp [latencies]
      have ha : answered (l ++ [.sent i m b]) = answered l ++ [i] := by simp [answered]
      have hst : started (l ++ [.sent i m b]) = started l := by simp [started]
      simp only [Option.some.injEq] at h
      subst h
      have hh : State.held (State.record { s with tasks := s.tasks.set i .sent, bytes := (s.bytes + b.getD 0) % word } m) = true :=
        held_of (i := i) (t := .sent) (by simp only [State.record]; rw [hset]; simp) (by decide)
      refine ⟨by simpa [starts, State.record] using loc, by simpa [starts, State.record] using rem, ?_, ?_, ?_, ?_,
        by simpa [spawns, State.record] using len, by simp only [State.record]; rw [hcount]; simpa [endings] using ended,
        by simpa [State.record] using gone, by simp [hnd], ?_, by rw [hst]; exact sn, ?_, ?_, ?_, ?_, ?_, ?_⟩
      · simp only [State.record]
        rw [bytes]
        cases b <;> simp [planBytes]
      · simp only [State.record]
        rw [hl, List.map_append, List.map_singleton, greatest_append, mx]
      · simp only [State.record]; rw [hl, sm]; simp
      · simp only [State.record]; rw [hl, cnt]; simp
      · rw [hh]; simp [State.record, h1, h2]
      · rw [ha, List.nodup_append]
        exact ⟨an, by simp, by intro x hx y hy; simp at hy; subst hy; rintro rfl; exact hni hx⟩
      · intro j hj
        rw [hst] at hj
        simp only [State.record]; rw [hset]
        by_cases hij : i = j
        · exact ⟨.sent, by simp [hij], by decide⟩
        · rw [if_neg hij]; exact sI j hj
      · intro j hj
        rw [ha] at hj
        simp only [State.record]; rw [hset]
        by_cases hij : i = j
        · simp [hij]
        · rw [if_neg hij]
          rcases List.mem_append.1 hj with h | h
          · exact aI j h
          · exact absurd (List.mem_singleton.1 h).symm hij
      · intro j hj
        rw [ha] at hj; rw [hst]
        rcases List.mem_append.1 hj with h | h
        · exact sub j h
        · rw [List.mem_singleton.1 h]; exact isS i hs
      · intro j hj
        simp only [State.record] at hj; rw [hset] at hj
        rw [hst]
        by_cases hij : i = j
        · rw [if_pos hij] at hj; cases hj
        · rw [if_neg hij] at hj; exact isS j hj
      · intro j hj
        simp only [State.record] at hj; rw [hset] at hj
        by_cases hij : i = j
        · rw [if_pos hij] at hj; cases hj
        · rw [if_neg hij] at hj; exact List.mem_append_left _ (eI j hj)
    · cases h
  | ends i =>
    obtain ⟨t, hs, hne, h⟩ : ∃ t, s.tasks[i]? = some t ∧ t ≠ .ended ∧ s' = State.release { s with tasks := s.tasks.set i .ended } := by
      simp only [SendMetrics.step] at h
      split at h
      · cases h
      · cases h
      · rename_i t hne hs
        exact ⟨t, hs, fun h' => by subst h'; exact hne rfl, (Option.some.inj h).symm⟩
    subst h
    have hlt := (List.getElem?_eq_some_iff.1 hs).1
    have hget := (List.getElem?_eq_some_iff.1 hs).2
    have hset : ∀ j, (s.tasks.set i .ended)[j]? = if i = j then some .ended else s.tasks[j]? := by
      intro j; rw [List.getElem?_set]; by_cases hj : i = j <;> simp [hj]; subst hj; simp [hlt]
    have hcount : (s.tasks.set i .ended).countP (· == .ended) = s.tasks.countP (· == .ended) + 1 := by
      rw [List.countP_set hlt, hget]; simp [hne]
    have hst : started (l ++ [.ends i]) = started l := by simp [started]
    have ha : answered (l ++ [.ends i]) = answered l := by simp [answered]
    have hsh := release_shown { s with tasks := s.tasks.set i .ended } h1 h2
    refine ⟨by rw [release_local]; simpa [starts] using loc, by rw [release_remote]; simpa [starts] using rem,
      by rw [release_bytes]; simpa [planBytes] using bytes, by rw [release_max]; simpa [latencies] using mx,
      by rw [release_sum]; simpa [latencies] using sm, by rw [release_count]; simpa [latencies] using cnt,
      by rw [release_tasks]; simpa [spawns] using len,
      by rw [release_tasks]; dsimp only; rw [hcount]; simpa [endings] using ended,
      by rw [release_coordinator]; simpa using gone, by simp [hnd],
      by rw [release_max, release_sum, release_count]; exact hsh, by rw [hst]; exact sn, by rw [ha]; exact an, ?_, ?_,
      by rw [hst, ha]; exact sub, ?_, ?_⟩
    · intro j hj
      rw [hst] at hj
      rw [release_tasks]; dsimp only; rw [hset]
      by_cases hij : i = j
      · exact ⟨.ended, by simp [hij], by decide⟩
      · rw [if_neg hij]; exact sI j hj
    · intro j hj
      rw [ha] at hj
      rw [release_tasks]; dsimp only; rw [hset]
      by_cases hij : i = j
      · simp [hij]
      · rw [if_neg hij]; exact aI j hj
    · intro j hj
      rw [release_tasks] at hj; dsimp only at hj; rw [hset] at hj
      rw [hst]
      by_cases hij : i = j
      · rw [if_pos hij] at hj; cases hj
      · rw [if_neg hij] at hj; exact isS j hj
    · intro j hj
      rw [release_tasks] at hj; dsimp only at hj; rw [hset] at hj
      by_cases hij : i = j
      · simp [hij]
      · rw [if_neg hij] at hj; exact List.mem_append_left _ (eI j hj)
  | drained =>
    simp only [SendMetrics.step] at h
    split at h
    · rename_i hc
      simp only [Option.some.injEq] at h
      subst h
      have hsh := release_shown { s with coordinator := false } h1 h2
      have hall : s.tasks.any (· != .ended) = false := by
        simp only [Bool.and_eq_true] at hc
        rw [List.any_eq_false]
        intro t ht
        have := List.all_eq_true.1 hc.2 t ht
        simpa using this
      have hnh : State.held { s with coordinator := false } = false := by simp only [State.held, hall]; rfl
      refine ⟨by rw [release_local]; simpa [starts] using loc, by rw [release_remote]; simpa [starts] using rem,
        by rw [release_bytes]; simpa [planBytes] using bytes, by rw [release_max]; simpa [latencies] using mx,
        by rw [release_sum]; simpa [latencies] using sm, by rw [release_count]; simpa [latencies] using cnt,
        by rw [release_tasks]; simpa [spawns] using len, by rw [release_tasks]; simpa [endings] using ended,
        by rw [release_coordinator]; simp, fun _ => by rw [release_held]; exact hnh,
        by rw [release_max, release_sum, release_count]; exact hsh, by simpa [started] using sn, by simpa [answered] using an,
        by rw [release_tasks]; simpa [started] using sI, by rw [release_tasks]; simpa [answered] using aI,
        by simpa [started, answered] using sub, by rw [release_tasks]; simpa [started] using isS,
        by rw [release_tasks]; intro j hj; exact List.mem_append_left _ (eI j hj)⟩
    · cases h
  | abandoned =>
    simp only [SendMetrics.step] at h
    split at h
    · rename_i hc
      simp only [Option.some.injEq] at h
      subst h
      have hsh := release_shown { s with coordinator := false } h1 h2
      refine ⟨by rw [release_local]; simpa [starts] using loc, by rw [release_remote]; simpa [starts] using rem,
        by rw [release_bytes]; simpa [planBytes] using bytes, by rw [release_max]; simpa [latencies] using mx,
        by rw [release_sum]; simpa [latencies] using sm, by rw [release_count]; simpa [latencies] using cnt,
        by rw [release_tasks]; simpa [spawns] using len, by rw [release_tasks]; simpa [endings] using ended,
        by rw [release_coordinator]; simp, by simp [hnd],
        by rw [release_max, release_sum, release_count]; exact hsh, by simpa [started] using sn, by simpa [answered] using an,
        by rw [release_tasks]; simpa [started] using sI, by rw [release_tasks]; simpa [answered] using aI,
        by simpa [started, answered] using sub, by rw [release_tasks]; simpa [started] using isS,
        by rw [release_tasks]; intro j hj; exact List.mem_append_left _ (eI j hj)⟩
    · cases h

theorem Inv.run {s s' : State} {pre l : List Step} (hi : Inv s pre) (h : run s l = some s') : Inv s' (pre ++ l) := by
  induction l generalizing s pre with
  | nil => cases h; simpa using hi
  | cons a l ih =>
    simp only [SendMetrics.run] at h
    cases ha : SendMetrics.step s a with
    | none => rw [ha] at h; cases h
    | some s1 =>
      rw [ha] at h
      have := ih (hi.step ha) h
      simpa using this

theorem Inv.of_run {s : State} {l : List Step} (h : SendMetrics.run {} l = some s) : Inv s l := by
  simpa using Inv.run Inv.init h

/-- The metrics are released exactly when the query is over. -/
theorem Inv.over {s : State} {l : List Step} (hi : Inv s l) : Over l ↔ s.held = false := by
  have hall : s.tasks.any (· != .ended) = false ↔ endings l = spawns l := by
    rw [← hi.ended, ← hi.len, List.countP_eq_length, List.any_eq_false]
    simp
  unfold Over State.held
  rw [← hi.gone, ← hall, Bool.or_eq_false_iff]

theorem greatest_map_mod (l : List Nat) (h : ∀ x ∈ l, x < word) : greatest (l.map (· % word)) = greatest l := by
  congr 1
  conv => rhs; rw [← List.map_id l]
  exact List.map_congr_left fun x hx => Nat.mod_eq_of_lt (h x hx)

theorem le_sum_of_mem {l : List Nat} {x : Nat} (h : x ∈ l) : x ≤ l.sum := by
  induction l with
  | nil => cases h
  | cons y l ih =>
    rcases List.mem_cons.1 h with rfl | h
    · simp
    · simp; have := ih h; omega

theorem greatest_le_sum (l : List Nat) : greatest l ≤ l.sum := by
  induction l with
  | nil => simp [greatest]
  | cons y l ih => simp only [greatest, List.foldr_cons, List.sum_cons] at ih ⊢; omega

/-! ### The property -/

/-- **C86.** However the tasks that send the plans of a query interleave, fail or are aborted: the numbers of channels it shows are the
numbers of channels that were opened within the coordinator's process and to other processes, no channel twice, and the bytes are those of
the plans that workers acknowledged. (Counters have 64 bits.) -/
theorem C86_channels_and_bytes {l : List Step} {s : State} (h : run {} l = some s) :
    s.local_ = starts true l % 2 ^ 64 ∧ s.remote = starts false l % 2 ^ 64 ∧ s.bytes = (planBytes l).sum % 2 ^ 64 ∧
    (started l).Nodup ∧ (answered l).Nodup ∧ (∀ i ∈ answered l, i ∈ started l) := by
  have hi := Inv.of_run h
  exact ⟨hi.loc, hi.rem, hi.bytes, hi.startedNodup, hi.answeredNodup, hi.sub⟩

/-- **C86.** The latencies that are shown are the greatest and the mean of the times the workers took to answer, of all of them, as soon
as nothing runs on behalf of the query any more, whether it ended, failed or was dropped. Before that, nothing is shown.
The mean is cut to microseconds, and at least one nanosecond is shown. -/
theorem C86_latencies {l : List Step} {s : State} (h : run {} l = some s) (hn : (latencies l).length < 2 ^ 64)
    (hb : (latencies l).sum * 1000 < 2 ^ 64) :
    (Over l → s.shownMax = max (1000 * greatest (latencies l)) 1 ∧
      s.shownAvg = max (1000 * ((latencies l).sum / max (latencies l).length 1)) 1) ∧
    (¬ Over l → s.shownMax = 0 ∧ s.shownAvg = 0) := by
  have hi := Inv.of_run h
  rw [hi.over]
  have hw : word = 2 ^ 64 := rfl
  have hlt : ∀ x ∈ latencies l, x < word := fun x hx => by have := le_sum_of_mem hx; omega
  have hmx : s.maxMicros = greatest (latencies l) := by rw [hi.mx, greatest_map_mod _ hlt]
  have hsm : s.sumMicros = (latencies l).sum := by rw [hi.sm, Nat.mod_eq_of_lt (by omega)]
  have hcn : s.countMicros = (latencies l).length := by rw [hi.cnt, Nat.mod_eq_of_lt (by omega)]
  have hadd : ∀ x, x * 1000 < 2 ^ 64 → addMicros 0 x = max (1000 * x) 1 := by
    intro x hx
    have hx' : x * 1000 < word := hw ▸ hx
    have h1 : 1 < word := by decide
    unfold addMicros
    rw [Nat.mod_eq_of_lt hx', Nat.zero_add, Nat.mod_eq_of_lt (Nat.max_lt.2 ⟨hx', h1⟩), Nat.mul_comm]
  constructor
  · intro hh
    have hg := greatest_le_sum (latencies l)
    have hd : (latencies l).sum / max (latencies l).length 1 ≤ (latencies l).sum := Nat.div_le_self _ _
    rw [hi.shown.1, hi.shown.2, hh, hmx, hsm, hcn]
    exact ⟨hadd _ (Nat.lt_of_le_of_lt (Nat.mul_le_mul_right _ hg) hb), hadd _ (Nat.lt_of_le_of_lt (Nat.mul_le_mul_right _ hd) hb)⟩
  · intro hh
    have hh : s.held = true := by simpa using hh
    rw [hi.shown.1, hi.shown.2, hh]
    exact ⟨rfl, rfl⟩

/-- **C86.** The metrics of a query whose result has ended (which waits for the tasks, `drain_pending_tasks`) are final: the query is
over, and nothing can happen any more. -/
theorem C86_final_at_the_end {l : List Step} {s : State} (h : run {} l = some s) (hd : Step.drained ∈ l) :
    Over l ∧ ∀ a, step s a = none := by
  have hi := Inv.of_run h
  refine ⟨hi.over.2 (hi.dr hd), fun a => ?_⟩
  cases ha : step s a with
  | none => rfl
  | some s' => have := held_of_step ha; rw [hi.dr hd] at this; cases this

/-- **C86.** When the query is over and no task failed, every channel was counted once, and every channel's latency was. -/
theorem C86_every_channel {l : List Step} {s : State} (h : run {} l = some s) (ho : Over l) (hu : Undisturbed l) :
    starts true l + starts false l = spawns l ∧ (latencies l).length = spawns l := by
  have hi := Inv.of_run h
  have hst : starts true l + starts false l = (started l).length := by
    clear h ho hu hi
    induction l with
    | nil => rfl
    | cons a l ih =>
      simp only [starts, started] at ih ⊢
      cases a with
      | start i b =>
        cases b
        · rw [List.countP_cons_of_neg (by simp), List.countP_cons_of_pos (by simp), List.filterMap_cons, List.length_cons, ← ih]
          omega
        · rw [List.countP_cons_of_pos (by simp), List.countP_cons_of_neg (by simp), List.filterMap_cons, List.length_cons, ← ih]
          omega
      | _ => simpa using ih
  have hla : (latencies l).length = (answered l).length := by
    clear h ho hu hi hst
    induction l with
    | nil => rfl
    | cons a l ih =>
      simp only [latencies, answered] at ih ⊢
      cases a <;> simpa using ih
  have hend : ∀ i, i < spawns l → s.tasks[i]? = some .ended := by
    intro i hlt
    have hc : s.tasks.countP (· == .ended) = s.tasks.length := by rw [hi.ended, hi.len]; exact ho.2
    rw [List.countP_eq_length] at hc
    rw [← hi.len] at hlt
    rw [List.getElem?_eq_getElem hlt]
    have := hc _ (List.getElem_mem hlt)
    simpa using this
  have hans : (answered l).Perm (List.range (spawns l)) := by
    rw [List.perm_ext_iff_of_nodup hi.answeredNodup List.nodup_range]
    intro i
    rw [List.mem_range]
    constructor
    · intro hm
      rw [← hi.len]
      rcases hi.answeredIn i hm with h | h
      · exact (List.getElem?_eq_some_iff.1 h).1
      · exact (List.getElem?_eq_some_iff.1 h).1
    · intro hlt
      exact hu i (hi.endedIn i (hend i hlt))
  have hsta : (started l).Perm (List.range (spawns l)) := by
    rw [List.perm_ext_iff_of_nodup hi.startedNodup List.nodup_range]
    intro i
    rw [List.mem_range]
    constructor
    · intro hm
      rw [← hi.len]
      obtain ⟨t, ht, _⟩ := hi.startedIn i hm
      exact (List.getElem?_eq_some_iff.1 ht).1
    · intro hlt
      exact hi.sub i (hu i (hi.endedIn i (hend i hlt)))
  refine ⟨?_, ?_⟩
  · rw [hst, hsta.length_eq, List.length_range]
  · rw [hla, hans.length_eq, List.length_range]

/-! ### The hypotheses are met -/

/-- Two channels, one of them within the coordinator's process. -/
def Demo.two : List Step :=
  [.spawn, .start 0 true, .spawn, .start 1 false, .sent 1 30 (some 700), .sent 0 4 none, .ends 0, .ends 1, .drained]

/-- A query that is dropped while its second channel waits for an answer. -/
def Demo.dropped : List Step :=
  [.spawn, .spawn, .start 0 false, .start 1 false, .sent 0 12 (some 50), .abandoned, .ends 0, .ends 1]

example : ∃ s, run {} Demo.two = some s ∧ Over Demo.two ∧ Undisturbed Demo.two ∧ Step.drained ∈ Demo.two ∧
    s.local_ = 1 ∧ s.remote = 1 ∧ s.bytes = 700 ∧ s.shownMax = 30000 ∧ s.shownAvg = 17000 := by
  refine ⟨_, rfl, by constructor <;> decide, ?_, by decide, by decide, by decide, by decide, by decide, by decide⟩
  intro i hi
  simp [Demo.two] at hi
  rcases hi with rfl | rfl <;> decide

example : ∃ s, run {} Demo.dropped = some s ∧ Over Demo.dropped ∧ ¬ Over (Demo.dropped.take 7) ∧
    s.remote = 2 ∧ s.shownMax = 12000 ∧ s.shownAvg = 12000 := by
  refine ⟨_, rfl, by constructor <;> decide, ?_, by decide, by decide, by decide⟩
  intro h
  have := h.2
  revert this
  decide

end DD.SendMetrics
