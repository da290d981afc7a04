import Verif.Lemmas.BroadcastQueue
/-
C28: every consumer of a broadcast sees the full input, in order, under every schedule.
-/
namespace DD.BQ
variable {α : Type}

/-- **C28** (safety) After any schedule of the producing task and of any number of consumers: what a consumer yielded is
a prefix of the produced sequence, in order; and if it ended, the producer had finished and it yielded all of it. -/
theorem C28_prefix_and_complete (items : List α) (steps : List Step) (hs : Step.crash ∉ steps) (i : Nat) :
    let s := run (init items) steps
    (s.cons i).out <+: items ∧ ((s.cons i).ended = true → finished s ∧ (s.cons i).out = items) := by
  intro s
  have h : Inv items s := run_inv items steps hs _ (init_inv items)
  clear_value s
  have hc := h.cons i
  have hp := h.prod
  refine ⟨?_, ?_⟩
  · rw [hc.out]
    have h1 := List.prefix_append s.sh.entries s.prod.todo
    rw [hp.split] at h1
    exact (List.take_prefix _ _).trans h1
  · intro he
    obtain ⟨h1, h2⟩ := hc.endedAll he
    obtain ⟨h3, h4⟩ := hc.closedAll h1
    have hf := hp.closed h3
    refine ⟨hf, ?_⟩
    have hsplit := hp.split
    rw [hf.1, List.append_nil] at hsplit
    rw [hc.out, h2, h4, List.take_length, hsplit]

/-- **C28** (panics) Even if the producing task panics or is aborted at any point: what a consumer yielded is a prefix of the produced
sequence, in order, and of two consumers one has yielded a prefix of what the other has. -/
theorem C28_prefix_always (items : List α) (steps : List Step) (i j : Nat) :
    let s := run (init items) steps
    (s.cons i).out <+: items ∧ ((s.cons i).out <+: (s.cons j).out ∨ (s.cons j).out <+: (s.cons i).out) := by
  intro s
  have key : ∀ (steps : List Step) (s : State α), (s.sh.entries ++ s.prod.todo <+: items) →
      (∀ i, (s.cons i).out = s.sh.entries.take (s.cons i).index ∧ (s.cons i).index ≤ s.sh.entries.length) →
      ∀ i, ((run s steps).cons i).out <+: items := by
    intro steps
    induction steps with
    | nil =>
      intro s h1 h2 i
      rw [show run s [] = s from rfl, (h2 i).1]
      exact (List.take_prefix _ _).trans ((List.prefix_append _ _).trans h1)
    | cons st steps ih =>
      intro s h1 h2 i
      refine ih (step s st) ?_ ?_ i
      · cases st with
        | cons k => exact h1
        | crash => simp only [step, crashStep, List.append_nil]; exact (List.prefix_append _ _).trans h1
        | prod =>
          simp only [step, prodStep]
          split
          · exact h1
          · split
            · rename_i x rest ht; rw [ht] at h1; simpa using h1
            · split <;> (rename_i ht _; rw [ht] at h1; simpa [ht] using h1)
      · intro k
        cases st with
        | crash => exact h2 k
        | prod =>
          simp only [step, prodStep]
          split
          · exact h2 k
          · split
            · refine ⟨?_, by have := (h2 k).2; simp only [List.length_append]; omega⟩
              rw [List.take_append_of_le_length (h2 k).2]; exact (h2 k).1
            · split <;> exact h2 k
        | cons m =>
          simp only [step]
          split
          · rename_i hk; subst hk
            have hk := h2 k
            simp only [consStep]
            by_cases hend : (s.cons k).ended = true
            · rw [if_pos hend]; exact hk
            · rw [if_neg hend]
              split
              · rename_i v hv
                by_cases hl : (s.cons k).index < (s.cons k).len
                · rw [if_pos hl] at hv
                  have hlt : (s.cons k).index < s.sh.entries.length := by
                    by_contra hge
                    rw [List.getElem?_eq_none (by omega)] at hv; cases hv
                  refine ⟨?_, hlt⟩
                  rw [List.take_add_one, hv, hk.1]; rfl
                · rw [if_neg hl] at hv; cases hv
              · split
                · exact hk
                · split
                  · exact hk
                  · split <;> exact hk
          · exact h2 k
  have hp : ∀ i, (s.cons i).out <+: items := key steps _ (by simp [init]) (fun i => by simp [init])
  exact ⟨hp i, List.prefix_or_prefix_of_prefix (hp i) (hp j)⟩

theorem cons_remaining_lt (items : List α) (s : State α) (h : Inv items s) (hf : finished s) (i : Nat)
    (hne : (s.cons i).ended = false) :
    remaining (step s (.cons i)) ((step s (.cons i)).cons i) < remaining s (s.cons i) := by
  have hp := h.prod
  have hci := h.cons i
  have hcl : s.sh.watchClosed = true := hp.closedSent hf.2.2
  simp only [step, if_true, remaining, hne]
  unfold consStep
  simp only [hne, Bool.false_eq_true, if_false]
  have hle : (s.cons i).len ≤ s.sh.entries.length := Nat.le_trans hci.lenLe hp.lenLe
  split
  · rename_i v hv
    split at hv
    · simp only [hne, Bool.false_eq_true, if_false]; omega
    · simp at hv
  · rename_i hv
    have hge : (s.cons i).len ≤ (s.cons i).index := by
      split at hv
      · rename_i hlt
        have : (s.cons i).index < s.sh.entries.length := Nat.lt_of_lt_of_le hlt hle
        rw [List.getElem?_eq_getElem this] at hv; simp at hv
      · omega
    split
    · rename_i hc
      simp only [if_true]; simp [hc]
    · rename_i hc
      split
      · rename_i hseen
        simp only [hne, Bool.false_eq_true, if_false, hcl, if_true]
        simp [hc, hseen]
      · rename_i hseen
        have hseen' : (s.cons i).seen = some s.sh.version := by simpa using hseen
        have := (hci.fresh hseen').2 hcl
        exact absurd this (by simpa using hc)

/-- **C28** (liveness) From any reachable state in which the producer has finished, a consumer that keeps polling ends
after finitely many of its own steps and has then yielded everything, in order. -/
theorem C28_keeps_polling_gets_everything (items : List α) (steps : List Step) (hs : Step.crash ∉ steps)
    (hf : finished (run (init items) steps)) (i : Nat) :
    ∃ k, let s := run (init items) (steps ++ List.replicate k (.cons i))
      (s.cons i).ended = true ∧ (s.cons i).out = items := by
  have key : ∀ n (s : State α), Inv items s → finished s → remaining s (s.cons i) ≤ n →
      ∃ k, ((run s (List.replicate k (.cons i))).cons i).ended = true := by
    intro n
    induction n with
    | zero =>
      intro s _ _ hr
      refine ⟨0, ?_⟩
      unfold remaining at hr
      split at hr
      · rename_i he; exact he
      · split at hr
        · omega
        · split at hr <;> omega
    | succ n ih =>
      intro s hI hfs hr
      by_cases he : (s.cons i).ended = true
      · exact ⟨0, he⟩
      · have hlt := cons_remaining_lt items s hI hfs i (by simpa using he)
        have hI' := step_inv items s (.cons i) (by simp) hI
        obtain ⟨k, hk⟩ := ih (step s (.cons i)) hI' hfs (by omega)
        exact ⟨k + 1, by simpa [List.replicate_succ, run] using hk⟩
  obtain ⟨k, hk⟩ := key _ _ (run_inv items steps hs _ (init_inv items)) hf (Nat.le_refl _)
  refine ⟨k, ?_⟩
  have hrun : run (init items) (steps ++ List.replicate k (.cons i))
      = run (run (init items) steps) (List.replicate k (.cons i)) := by simp [run, List.foldl_append]
  have hne : Step.crash ∉ steps ++ List.replicate k (.cons i) := by
    simp only [List.mem_append, not_or]
    exact ⟨hs, fun h => by have := List.eq_of_mem_replicate h; simp at this⟩
  have he : ((run (init items) (steps ++ List.replicate k (.cons i))).cons i).ended = true := by rw [hrun]; exact hk
  exact ⟨he, ((C28_prefix_and_complete items _ hne i).2 he).2⟩

/-- The producer's own steps finish it, so the hypotheses of the liveness theorem are reachable for every input. -/
theorem C28_producer_finishes (items : List α) :
    finished (run (init items) (List.replicate (2 * items.length + 1) .prod)) := by
  have key : ∀ (todo : List α) (s : State α), s.prod.todo = todo → s.prod.unannounced = false →
      s.prod.closedSent = false → finished (run s (List.replicate (2 * todo.length + 1) .prod)) := by
    intro todo
    induction todo with
    | nil =>
      intro s h1 h2 h3
      simp [run, List.replicate_succ, step, prodStep, h1, h2, h3, finished]
    | cons x rest ih =>
      intro s h1 h2 h3
      have : 2 * (x :: rest).length + 1 = (2 * rest.length + 1) + 1 + 1 := by simp; omega
      rw [this]
      simp only [List.replicate_succ (n := 2 * rest.length + 1 + 1), List.replicate_succ (n := 2 * rest.length + 1), run, List.foldl_cons]
      apply ih
      · simp [step, prodStep, h1, h2]
      · simp [step, prodStep, h1, h2]
      · simp [step, prodStep, h1, h2, h3]
  exact key items _ rfl rfl rfl

/-- If the producing task panics (or is aborted), the queue is still closed: a consumer then ends *without error* having
seen only part of the input. Completeness needs the "no crash" hypothesis. -/
theorem C28_crash_truncates_silently :
    ∃ steps : List Step, let s := run (init [10, 20, 30]) steps
      (s.cons 0).ended = true ∧ (s.cons 0).out = [10] :=
  ⟨[.prod, .prod, .crash] ++ List.replicate 6 (.cons 0), by decide⟩

/-- Non-vacuity: an interleaved schedule with two consumers. -/
example : let s := run (init [10, 20]) [.cons 0, .prod, .cons 0, .prod, .cons 1, .cons 1, .prod, .cons 0, .cons 0, .prod, .prod, .prod]
    (s.cons 0).out = [10] ∧ (s.cons 1).out = [10] ∧ (s.cons 0).ended = false ∧ s.sh.entries = [10, 20] := by decide

end DD.BQ
