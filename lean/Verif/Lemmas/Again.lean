/-
Lemmas on tasks that are executed again.
-/
import Verif.Model.Again
import Verif.Spec.Again
import Verif.Lemmas.Boundary

namespace DD.Again

open DD.Requests

variable {Row : Type}

/-- `f k i` is what a plan answers for partition `i < n` when it was executed `k` times before. -/
def Counts (n : Nat) (p : Plan (Stream Row)) (f : Nat → Nat → Except Err (Stream Row)) : Prop :=
  p.parts = n ∧ ∀ done i, i < n → (∀ j ∈ done, j < n) → p.exec done i = f (done.count i) i

theorem counts_repartition (again : Taken) (n : Nat) (rows : Nat → List Row) :
    Counts n (repartition again n rows) (fun k i => .ok (if k = 0 then ⟨rows i, none⟩ else match again with
      | .panics => ⟨[], none⟩
      | .fails e => ⟨[], some e⟩)) := by
  refine ⟨rfl, fun done i _ _ => ?_⟩
  unfold repartition
  by_cases h : i ∈ done
  · have : done.count i ≠ 0 := by rw [← Nat.pos_iff_ne_zero, List.count_pos_iff]; exact h
    simp only [if_pos h, if_neg this]
    cases again <;> rfl
  · have : done.count i = 0 := List.count_eq_zero.mpr h
    simp only [if_neg h, if_pos this]

theorem counts_gathered (n : Nat) (exec : Nat → Nat → Stream Row) :
    Counts n (gathered n exec) (fun k i => .ok (exec k i)) := ⟨rfl, fun _ _ _ _ => rfl⟩

theorem broadcast_run_append (b : BroadcastExec) (st : BroadcastSt) (l : List Nat) (p : Nat) :
    (b.run st (l ++ [p])).2 = (b.run st l).2 ++ [(b.execute (b.run st l).1 p).2] := by
  induction l generalizing st with
  | nil => simp [BroadcastExec.run]
  | cons q qs ih => simp [BroadcastExec.run, ih]

theorem broadcast_run_length (b : BroadcastExec) (st : BroadcastSt) (l : List Nat) : (b.run st l).2.length = l.length := by
  induction l generalizing st with
  | nil => rfl
  | cons q qs ih => simp [BroadcastExec.run, ih]

theorem counts_broadcast (n : Nat) (rows : Nat → List Row) :
    Counts n (broadcast ⟨n, 1⟩ rows) (fun k i => if k = 0 then .ok ⟨rows i, none⟩ else .error (.internal "Too many consumers")) := by
  refine ⟨by simp [broadcast, BroadcastExec.outPartitions], fun done i hi hd => ?_⟩
  have hg := broadcast_run_get ⟨n, 1⟩ (by show 0 < n; omega) (done ++ [i]) BroadcastSt.init done.length i (by simp)
  rw [broadcast_run_append, List.getElem?_append_right (by rw [broadcast_run_length]), broadcast_run_length] at hg
  simp only [Nat.sub_self, List.getElem?_cons_zero, Option.some.injEq] at hg
  unfold broadcast
  simp only [hg]
  have hc : ((List.take done.length (done ++ [i])).filter (fun q => decide (q % n = i % n))).length = done.count i := by
    rw [List.take_left, List.count_eq_length_filter]
    congr 1
    apply List.filter_congr
    intro j hj
    rw [Nat.mod_eq_of_lt (hd j hj), Nat.mod_eq_of_lt hi]
    by_cases h : j = i <;> simp [h]
  rw [hc]
  simp only [BroadcastSt.init, Option.getD_none, Nat.lt_one_iff]
  by_cases h : done.count i = 0
  · simp [h, Nat.mod_eq_of_lt hi]
  · simp [h]

theorem executeAll_counts {n : Nat} {p : Plan (Stream Row)} {f : Nat → Nat → Except Err (Stream Row)} (hp : Counts n p f)
    (g : Nat → Stream Row) (l done : List Nat) (hn : l.Nodup) (hl : ∀ i ∈ l, i < n) (hd : ∀ j ∈ done, j < n)
    (hf : ∀ i ∈ l, f (done.count i) i = .ok (g i)) :
    executeAll p done l = (done ++ l, .ok (l.map fun i => (i, g i))) := by
  induction l generalizing done with
  | nil => simp [executeAll]
  | cons i is ih =>
    have hi := hl i (by simp)
    rw [List.nodup_cons] at hn
    unfold executeAll
    rw [if_neg (by rw [hp.1]; omega), hp.2 done i hi hd, hf i (by simp)]
    simp only
    rw [ih (done ++ [i]) hn.2 (fun j hj => hl j (by simp [hj]))
      (fun j hj => by rcases List.mem_append.mp hj with h | h
                      · exact hd j h
                      · rw [List.mem_singleton.mp h]; exact hi)
      (fun j hj => by
        have hne : i ≠ j := fun h => hn.1 (h ▸ hj)
        rw [List.count_append, List.count_singleton]
        simpa [hne] using hf j (by simp [hj]))]
    simp [Except.map]

theorem executeAll_error {n : Nat} {p : Plan (Stream Row)} {f : Nat → Nat → Except Err (Stream Row)} (hp : Counts n p f)
    (i : Nat) (l done : List Nat) (hi : i < n) (hd : ∀ j ∈ done, j < n) (e : Err)
    (hf : f (done.count i) i = .error e) : (executeAll p done (i :: l)).2 = .error e := by
  unfold executeAll
  rw [if_neg (by rw [hp.1]; omega), hp.2 done i hi hd, hf]

theorem range_zero (n : Nat) : range 0 n = List.range n := by simp [range]

theorem collect_ok (l : List Nat) (rows : Nat → List Row) :
    collect (l.map fun i => (⟨rows i, none⟩ : Stream Row)) = .ok (l.flatMap rows) := by
  induction l with
  | nil => rfl
  | cons i is ih => simp [collect, ih, Except.map]

/-- A task all of whose partitions were executed `k` times. -/
def At (n k : Nat) (done : List Nat) : Prop := (∀ j ∈ done, j < n) ∧ ∀ i, i < n → done.count i = k

theorem at_nil (n : Nat) : At n 0 [] := ⟨by simp, by simp⟩

theorem at_next {n k : Nat} {done : List Nat} (h : At n k done) : At n (k + 1) (done ++ List.range n) := by
  refine ⟨fun j hj => ?_, fun i hi => ?_⟩
  · rcases List.mem_append.mp hj with h' | h'
    · exact h.1 j h'
    · exact List.mem_range.mp h'
  · rw [List.count_append, h.2 i hi, List.count_eq_one_of_mem List.nodup_range (List.mem_range.mpr hi)]

theorem ask_ok {n : Nat} {p : Plan (Stream Row)} {f : Nat → Nat → Except Err (Stream Row)} (hp : Counts n p f) {k : Nat}
    {done : List Nat} (hd : At n k done) (rows : Nat → List Row) (hf : ∀ i, i < n → f k i = .ok ⟨rows i, none⟩) :
    ask n p done = (done ++ List.range n, .ok ((List.range n).flatMap rows)) := by
  unfold ask
  rw [range_zero, executeAll_counts hp (fun i => ⟨rows i, none⟩) _ done List.nodup_range (fun i hi => List.mem_range.mp hi) hd.1
    (fun i hi => by rw [hd.2 i (List.mem_range.mp hi)]; exact hf i (List.mem_range.mp hi))]
  simp only [List.map_map, Prod.mk.injEq, true_and]
  exact collect_ok _ rows

/-- The requests fail: either at once, or while the streams are read. -/
theorem ask_error {n : Nat} {p : Plan (Stream Row)} {f : Nat → Nat → Except Err (Stream Row)} (hp : Counts n p f) {k : Nat}
    {done : List Nat} (hd : At n k done) (hn : 0 < n) (e : Err)
    (hf : (∀ i, i < n → f k i = .error e) ∨ ∀ i, i < n → f k i = .ok ⟨[], some e⟩) : (ask n p done).2 = .error e := by
  obtain ⟨m, rfl⟩ : ∃ m, n = m + 1 := ⟨n - 1, by omega⟩
  unfold ask
  rw [range_zero]
  rcases hf with hf | hf
  · rw [List.range_succ_eq_map]
    have := executeAll_error hp 0 ((List.range m).map Nat.succ) done hn hd.1 e (by rw [hd.2 0 hn]; exact hf 0 hn)
    simp only [this]
  · rw [executeAll_counts hp (fun _ => ⟨[], some e⟩) _ done List.nodup_range (fun i hi => List.mem_range.mp hi) hd.1
      (fun i hi => by rw [hd.2 i (List.mem_range.mp hi)]; exact hf i (List.mem_range.mp hi))]
    rw [List.range_succ_eq_map]
    simp [collect]

/-- The tasks of an exchange after `k` readings. -/
def Tasks (n k : Nat) (mk : (Nat → List Row) → Plan (Stream Row)) (tasks : List (Nat → List Row))
    (ts : List (Plan (Stream Row) × List Nat)) : Prop :=
  ts.map (·.1) = tasks.map mk ∧ ∀ t ∈ ts, At n k t.2

theorem tasks_start (n : Nat) (mk : (Nat → List Row) → Plan (Stream Row)) (tasks : List (Nat → List Row)) :
    Tasks n 0 mk tasks ((tasks.map mk).map fun p => (p, [])) := by
  refine ⟨by simp [Function.comp_def], fun t ht => ?_⟩
  simp only [List.map_map, List.mem_map] at ht
  obtain ⟨_, _, rfl⟩ := ht
  exact at_nil n

theorem read_ok {n k : Nat} {mk : (Nat → List Row) → Plan (Stream Row)} {f : (Nat → List Row) → Nat → Nat → Except Err (Stream Row)}
    (hp : ∀ r, Counts n (mk r) (f r)) (out : (Nat → List Row) → Nat → List Row)
    (tasks : List (Nat → List Row)) (hf : ∀ r ∈ tasks, ∀ i, i < n → f r k i = .ok ⟨out r i, none⟩)
    (ts : List (Plan (Stream Row) × List Nat)) (h : Tasks n k mk tasks ts) :
    ∃ ts', read n ts = (ts', .ok (stageRows n (tasks.map out))) ∧ Tasks n (k + 1) mk tasks ts' := by
  induction tasks generalizing ts with
  | nil =>
    have : ts = [] := by simpa using h.1
    subst this
    exact ⟨[], rfl, rfl, by simp⟩
  | cons r rs ih =>
    cases ts with
    | nil => exact absurd h.1 (by simp)
    | cons t ts =>
      obtain ⟨p, done⟩ := t
      have h1 := h.1
      simp only [List.map_cons, List.cons.injEq] at h1
      obtain ⟨rfl, h1⟩ := h1
      have hd : At n k done := h.2 (mk r, done) (by simp)
      obtain ⟨ts', hr, ht⟩ := ih (fun r' h' => hf r' (by simp [h'])) ts ⟨h1, fun t ht => h.2 t (by simp [ht])⟩
      refine ⟨(mk r, done ++ List.range n) :: ts', ?_, by simp [ht.1], fun t h' => ?_⟩
      · simp only [read, ask_ok (hp r) hd (out r) (hf r (by simp)), hr]
        simp [stageRows]
      · rcases List.mem_cons.mp h' with rfl | h'
        · exact at_next hd
        · exact ht.2 t h'

theorem read_error {n k : Nat} {mk : (Nat → List Row) → Plan (Stream Row)} {f : (Nat → List Row) → Nat → Nat → Except Err (Stream Row)}
    (hp : ∀ r, Counts n (mk r) (f r)) (hn : 0 < n) (e : Err)
    (tasks : List (Nat → List Row)) (ht : tasks ≠ [])
    (hf : ∀ r, (∀ i, i < n → f r k i = .error e) ∨ ∀ i, i < n → f r k i = .ok ⟨[], some e⟩)
    (ts : List (Plan (Stream Row) × List Nat)) (h : Tasks n k mk tasks ts) : (read n ts).2 = .error e := by
  cases tasks with
  | nil => exact absurd rfl ht
  | cons r rs =>
    cases ts with
    | nil => exact absurd h.1 (by simp)
    | cons t ts =>
      obtain ⟨p, done⟩ := t
      have h1 := h.1
      simp only [List.map_cons, List.cons.injEq] at h1
      obtain ⟨rfl, h1⟩ := h1
      have hd : At n k done := h.2 (mk r, done) (by simp)
      simp only [read, ask_error (hp r) hd hn e (hf r)]

/-- Steps that all read the same. -/
theorem steps_same {n : Nat} {mk : (Nat → List Row) → Plan (Stream Row)} {f : (Nat → List Row) → Nat → Nat → Except Err (Stream Row)}
    (hp : ∀ r, Counts n (mk r) (f r)) (out : (Nat → List Row) → Nat → List Row) (tasks : List (Nat → List Row))
    (term : List Row → List Row → List Row) (j : Nat)
    (hf : ∀ k, j ≤ k → ∀ r ∈ tasks, ∀ i, i < n → f r k i = .ok ⟨out r i, none⟩) (fuel : Nat) (k : Nat) (hk : j ≤ k)
    (ts : List (Plan (Stream Row) × List Nat)) (h : Tasks n k mk tasks ts) (work : List Row) :
    steps term n fuel ts work = .ok (answer term (stageRows n (tasks.map out)) fuel work) := by
  induction fuel generalizing k ts work with
  | zero => rfl
  | succ m ih =>
    unfold steps answer
    split
    · rfl
    · obtain ⟨ts', hr, ht⟩ := read_ok hp out tasks (hf k hk) ts h
      rw [hr]
      simp only
      rw [ih (k + 1) (by omega) ts' ht]
      rfl

/-- The first step of a query. -/
theorem steps_first {n : Nat} {mk : (Nat → List Row) → Plan (Stream Row)} {f : (Nat → List Row) → Nat → Nat → Except Err (Stream Row)}
    (hp : ∀ r, Counts n (mk r) (f r)) (tasks : List (Nat → List Row)) (term : List Row → List Row → List Row)
    (hf : ∀ r ∈ tasks, ∀ i, i < n → f r 0 i = .ok ⟨r i, none⟩) (fuel : Nat) (first : List Row) (h0 : first ≠ []) :
    ∃ ts, Tasks n 1 mk tasks ts ∧ recursive term n (fuel + 1) (tasks.map mk) first
      = (steps term n fuel ts (term first (stageRows n tasks))).map (Option.map (first ++ ·)) := by
  obtain ⟨ts', hr, ht⟩ := read_ok hp (fun r => r) tasks hf _ (tasks_start n mk tasks)
  refine ⟨ts', ht, ?_⟩
  unfold recursive
  rw [steps]
  have he : first.isEmpty = false := by cases first <;> simp_all
  rw [he, hr]
  simp

/-- A step that cannot read its exchange. -/
theorem steps_error {n k : Nat} {ts : List (Plan (Stream Row) × List Nat)} {e : Err} (term : List Row → List Row → List Row)
    (work : List Row) (hw : work ≠ []) (h : (read n ts).2 = .error e) : steps term n (k + 1) ts work = .error e := by
  unfold steps
  have he : work.isEmpty = false := by cases work <;> simp_all
  rw [he]
  generalize read n ts = r at h
  obtain ⟨a, b⟩ := r
  simp only at h
  subst h
  simp

theorem executeAll_rightOrFails {n : Nat} {rows : Nat → List Row} {p : Plan (Stream Row)} (hp : RightOrFails n rows p)
    (l done : List Nat) (hl : ∀ i ∈ l, i < n) :
    (∃ e, (executeAll p done l).2 = .error e) ∨ ∃ ss, (executeAll p done l).2 = .ok ss
      ∧ (collect (ss.map (·.2)) = .ok (l.flatMap rows) ∨ ∃ e, collect (ss.map (·.2)) = .error e) := by
  induction l generalizing done with
  | nil => exact .inr ⟨[], rfl, .inl rfl⟩
  | cons i is ih =>
    unfold executeAll
    split
    · exact .inl ⟨_, rfl⟩
    · cases hx : p.exec done i with
      | error e => exact .inl ⟨e, rfl⟩
      | ok s =>
        simp only
        rcases ih (done ++ [i]) (fun j hj => hl j (by simp [hj])) with ⟨e, he⟩ | ⟨ss, hs, hc⟩
        · exact .inl ⟨e, by rw [he]; rfl⟩
        · refine .inr ⟨(i, s) :: ss, by rw [hs]; rfl, ?_⟩
          rcases hp done i s (hl i (by simp)) hx with rfl | ⟨e, he⟩
          · rcases hc with hc | ⟨e, hc⟩
            · exact .inl (by simp only [List.map_cons, collect, hc]; simp [Except.map])
            · exact .inr ⟨e, by simp only [List.map_cons, collect, hc]; simp [Except.map]⟩
          · exact .inr ⟨e, by simp only [List.map_cons, collect, he]⟩

theorem read_rightOrFails {n : Nat} (tasks : List ((Nat → List Row) × Plan (Stream Row)))
    (hp : ∀ t ∈ tasks, RightOrFails n t.1 t.2) (ts : List (Plan (Stream Row) × List Nat))
    (h : ts.map (·.1) = tasks.map (·.2)) :
    ((read n ts).2 = .ok (stageRows n (tasks.map (·.1))) ∨ ∃ e, (read n ts).2 = .error e)
      ∧ (read n ts).1.map (·.1) = tasks.map (·.2) := by
  induction tasks generalizing ts with
  | nil =>
    have : ts = [] := by simpa using h
    subst this
    exact ⟨.inl rfl, rfl⟩
  | cons t rs ih =>
    cases ts with
    | nil => exact absurd h (by simp)
    | cons u us =>
      obtain ⟨p, done⟩ := u
      simp only [List.map_cons, List.cons.injEq] at h
      obtain ⟨rfl, h⟩ := h
      obtain ⟨h1, h2⟩ := ih (fun t ht => hp t (by simp [ht])) us h
      refine ⟨?_, by simp [read, h2]⟩
      have ha : (ask n t.2 done).2 = .ok ((List.range n).flatMap t.1) ∨ ∃ e, (ask n t.2 done).2 = .error e := by
        unfold ask
        rw [range_zero]
        rcases executeAll_rightOrFails (hp t (by simp)) (List.range n) done (fun i hi => List.mem_range.mp hi) with ⟨e, he⟩ | ⟨ss, hs, hc⟩
        · exact .inr ⟨e, by simp only [he]⟩
        · simp only [hs]
          exact hc
      simp only [read]
      rcases ha with ha | ⟨e, ha⟩
      · rcases h1 with h1 | ⟨e, h1⟩
        · exact .inl (by rw [ha, h1]; simp [stageRows])
        · exact .inr ⟨e, by rw [ha, h1]⟩
      · exact .inr ⟨e, by rw [ha]⟩

theorem steps_rightOrFails {n : Nat} (tasks : List ((Nat → List Row) × Plan (Stream Row)))
    (hp : ∀ t ∈ tasks, RightOrFails n t.1 t.2) (term : List Row → List Row → List Row) (fuel : Nat)
    (ts : List (Plan (Stream Row) × List Nat)) (h : ts.map (·.1) = tasks.map (·.2)) (work : List Row) :
    steps term n fuel ts work = .ok (answer term (stageRows n (tasks.map (·.1))) fuel work)
      ∨ ∃ e, steps term n fuel ts work = .error e := by
  induction fuel generalizing ts work with
  | zero => exact .inl rfl
  | succ m ih =>
    obtain ⟨h1, h2⟩ := read_rightOrFails tasks hp ts h
    rw [steps, answer]
    by_cases hw : work.isEmpty = true
    · rw [if_pos hw, if_pos hw]
      exact .inl rfl
    · rw [if_neg hw, if_neg hw]
      generalize read n ts = r at h1 h2
      obtain ⟨ts', x⟩ := r
      simp only at h1 h2
      rcases h1 with rfl | ⟨e, rfl⟩
      · simp only
        rcases ih ts' h2 (term work (stageRows n (tasks.map (·.1)))) with h3 | ⟨e, h3⟩
        · exact .inl (by rw [h3]; rfl)
        · exact .inr ⟨e, by rw [h3]; rfl⟩
      · exact .inr ⟨e, rfl⟩

/-- A table that an exchange reads: the number of its partitions, and its tasks with their rows. -/
abbrev Exchange (Row : Type) := Nat × List ((Nat → List Row) × Plan (Stream Row))

theorem readAll_rightOrFails (exs : List (Exchange Row)) (hp : ∀ x ∈ exs, ∀ t ∈ x.2, RightOrFails x.1 t.1 t.2)
    (xs : List (Nat × List (Plan (Stream Row) × List Nat)))
    (h : xs.map (fun x => (x.1, x.2.map (·.1))) = exs.map (fun x => (x.1, x.2.map (·.2)))) :
    ((readAll xs).2 = .ok (exs.map fun x => stageRows x.1 (x.2.map (·.1))) ∨ ∃ e, (readAll xs).2 = .error e)
      ∧ (readAll xs).1.map (fun x => (x.1, x.2.map (·.1))) = exs.map (fun x => (x.1, x.2.map (·.2))) := by
  induction exs generalizing xs with
  | nil =>
    have : xs = [] := by simpa using h
    subst this
    exact ⟨.inl rfl, rfl⟩
  | cons x exs ih =>
    cases xs with
    | nil => exact absurd h (by simp)
    | cons u us =>
      obtain ⟨n, ts⟩ := u
      simp only [List.map_cons, List.cons.injEq, Prod.mk.injEq] at h
      obtain ⟨⟨rfl, ht⟩, h⟩ := h
      obtain ⟨h1, h2⟩ := ih (fun y hy => hp y (by simp [hy])) us h
      obtain ⟨h3, h4⟩ := read_rightOrFails x.2 (hp x (by simp)) ts ht
      refine ⟨?_, by simp [readAll, h2, h4]⟩
      simp only [readAll]
      rcases h3 with h3 | ⟨e, h3⟩
      · rcases h1 with h1 | ⟨e, h1⟩
        · exact .inl (by rw [h3, h1]; simp)
        · exact .inr ⟨e, by rw [h3, h1]⟩
      · exact .inr ⟨e, by rw [h3]⟩

theorem stepsMany_rightOrFails (exs : List (Exchange Row)) (hp : ∀ x ∈ exs, ∀ t ∈ x.2, RightOrFails x.1 t.1 t.2)
    (keep : List Row → List Row → List Row) (term : List Row → List (List Row) → List Row) (fuel : Nat)
    (xs : List (Nat × List (Plan (Stream Row) × List Nat)))
    (h : xs.map (fun x => (x.1, x.2.map (·.1))) = exs.map (fun x => (x.1, x.2.map (·.2)))) (seen work : List Row) :
    stepsMany keep term fuel xs seen work
        = .ok (answerMany keep term (exs.map fun x => stageRows x.1 (x.2.map (·.1))) fuel seen work)
      ∨ ∃ e, stepsMany keep term fuel xs seen work = .error e := by
  induction fuel generalizing xs seen work with
  | zero => exact .inl rfl
  | succ m ih =>
    obtain ⟨h1, h2⟩ := readAll_rightOrFails exs hp xs h
    rw [stepsMany, answerMany]
    by_cases hw : work.isEmpty = true
    · rw [if_pos hw, if_pos hw]
      exact .inl rfl
    · rw [if_neg hw, if_neg hw]
      generalize readAll xs = r at h1 h2
      obtain ⟨xs', rows⟩ := r
      simp only at h1 h2
      rcases h1 with rfl | ⟨e, rfl⟩
      · exact ih xs' h2 _ _
      · exact .inr ⟨e, rfl⟩

theorem read_gathered (n : Nat) (tasks : List (Nat → List Row)) (ts : List (Plan (Stream Row) × List Nat)) (k : Nat)
    (h : Tasks n k (fun rows => gathered n fun _ i => ⟨rows i, none⟩) tasks ts) :
    ∃ ts', read n ts = (ts', .ok (stageRows n tasks)) ∧ Tasks n (k + 1) (fun rows => gathered n fun _ i => ⟨rows i, none⟩) tasks ts' := by
  have := read_ok (mk := fun rows => gathered n fun _ i => ⟨rows i, none⟩) (f := fun rows _ i => .ok ⟨rows i, none⟩)
    (fun r => counts_gathered n _) (fun r => r) tasks (fun _ _ _ _ => rfl) ts h
  rwa [List.map_id'] at this

/-- The exchanges of a term after `k` steps, all of them gathering stages that can be executed again. -/
inductive Gathers (k : Nat) : List (Nat × List (Nat → List Row)) → List (Nat × List (Plan (Stream Row) × List Nat)) → Prop where
  | nil : Gathers k [] []
  | cons {n tasks ts exs xs} : Tasks n k (fun rows => gathered n fun _ i => ⟨rows i, none⟩) tasks ts → Gathers k exs xs →
      Gathers k ((n, tasks) :: exs) ((n, ts) :: xs)

theorem readAll_gathered {k : Nat} {exs : List (Nat × List (Nat → List Row))} {xs : List (Nat × List (Plan (Stream Row) × List Nat))}
    (h : Gathers k exs xs) :
    ∃ xs', readAll xs = (xs', .ok (exs.map fun x => stageRows x.1 x.2)) ∧ Gathers (k + 1) exs xs' := by
  induction h with
  | nil => exact ⟨[], rfl, .nil⟩
  | @cons n tasks ts exs xs h1 _ ih =>
    obtain ⟨xs', hx, hg⟩ := ih
    obtain ⟨ts', ht, hg'⟩ := read_gathered n tasks ts k h1
    exact ⟨(n, ts') :: xs', by simp [readAll, ht, hx], .cons hg' hg⟩

theorem stepsMany_gathered (keep : List Row → List Row → List Row) (term : List Row → List (List Row) → List Row) (fuel : Nat)
    {k : Nat} {exs : List (Nat × List (Nat → List Row))} {xs : List (Nat × List (Plan (Stream Row) × List Nat))}
    (h : Gathers k exs xs) (seen work : List Row) :
    stepsMany keep term fuel xs seen work = .ok (answerMany keep term (exs.map fun x => stageRows x.1 x.2) fuel seen work) := by
  induction fuel generalizing k xs seen work with
  | zero => rfl
  | succ m ih =>
    obtain ⟨xs', hx, hg⟩ := readAll_gathered h
    rw [stepsMany, answerMany, hx]
    by_cases hw : work.isEmpty = true
    · rw [if_pos hw, if_pos hw]
    · rw [if_neg hw, if_neg hw]
      exact ih hg _ _

theorem gathers_start (exs : List (Nat × List (Nat → List Row))) :
    Gathers 0 exs (exs.map fun x => (x.1, (x.2.map fun rows => gathered x.1 fun _ i => (⟨rows i, none⟩ : Stream Row)).map fun p => (p, []))) := by
  induction exs with
  | nil => exact .nil
  | cons x exs ih => exact .cons (tasks_start x.1 _ x.2) ih

end DD.Again
