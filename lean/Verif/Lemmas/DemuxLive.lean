import Verif.Lemmas.Demux
/- Progress of a worker connection: a measure that every effective step decreases. -/
namespace DD.Demux
variable {α : Type}

def chanWeight (ch : Chan α) : Nat :=
  (if ch.inner then ch.queue.length + ind (! ch.eos) + 1 else 0) + ind (! ch.dropped)

def phaseWeight (n : Nat) : Phase → Nat
  | .waiting => n + 2
  | .running => n + 1
  | .done => 0

def measure (c : Cfg α) (s : State α) : Nat :=
  2 * s.wire.length + sumN c.n (fun i => chanWeight (s.chans i)) + phaseWeight c.n s.phase + ind (! s.firstPoll)

theorem fanout_sum (c : Cfg α) (s : State α) (e : Err) :
    sumN c.n (fun i => chanWeight ((fanout s e).chans i)) ≤ sumN c.n (fun i => chanWeight (s.chans i)) + c.n := by
  have h1 : ∀ n, sumN n (fun i => chanWeight ((fanout s e).chans i)) ≤ sumN n (fun i => chanWeight (s.chans i)) + n := by
    intro n
    induction n with
    | zero => exact Nat.le_refl _
    | succ n ih =>
      rw [sumN_succ, sumN_succ]
      have : chanWeight ((fanout s e).chans n) ≤ chanWeight (s.chans n) + 1 := by
        simp only [fanout]
        split
        · rename_i hin; simp only [chanWeight, hin, if_true, List.length_append, List.length_cons, List.length_nil]; omega
        · omega
      omega
  exact h1 c.n

theorem task_measure (c : Cfg α) (s : State α) :
    taskStep c s = s ∨ measure c (taskStep c s) < measure c s := by
  have hfan : ∀ (s' : State α) (e : Err), s'.chans = s.chans → s'.wire.length ≤ s.wire.length →
      s'.firstPoll = s.firstPoll → s.phase ≠ .done → measure c (fanout s' e) < measure c s := by
    intro s' e hch hw hf hph
    have h1 := fanout_sum c s' e
    rw [hch] at h1
    have h2 : phaseWeight c.n s.phase ≥ c.n + 1 := by
      cases hp : s.phase <;> simp_all [phaseWeight]
    simp only [measure]
    have h3 : (fanout s' e).wire = s'.wire := rfl
    have h4 : (fanout s' e).phase = .done := rfl
    have h5 : (fanout s' e).firstPoll = s.firstPoll := hf
    rw [h3, h4, h5, show phaseWeight c.n .done = 0 from rfl]
    omega
  unfold taskStep
  split
  · left; rfl
  · split
    · left; rfl
    · rename_i hph
      split
      · right; simp only [measure, hph, phaseWeight]; omega
      · split
        · split
          · right; exact hfan _ _ rfl (Nat.le_refl _) rfl (by simp [hph])
          · right; simp only [measure, hph, phaseWeight]; omega
        · left; rfl
    · rename_i hph
      split
      · right; simp only [measure, hph, phaseWeight]; omega
      · split
        · left; rfl
        · right
          split
          · simp only [measure, hph, phaseWeight]; omega
          · rename_i e ws hw; exact hfan _ _ rfl (by simp [hw]) rfl (by simp [hph])
          · rename_i ws hw; exact hfan _ _ rfl (by simp [hw]) rfl (by simp [hph])
          · rename_i p size a ws hw
            split
            · exact hfan _ _ rfl (by simp [hw]) rfl (by simp [hph])
            · split
              · rename_i hr
                unfold send
                split
                · rename_i hin
                  have hsum := sumN_upd c.n chanWeight s.chans (p - c.start)
                    { s.chans (p - c.start) with queue := (s.chans (p - c.start)).queue ++ [.ok size a] } hr
                  rw [show chanWeight { s.chans (p - c.start) with
                      queue := (s.chans (p - c.start)).queue ++ [.ok size a] }
                      = chanWeight (s.chans (p - c.start)) + 1 by
                    have hin' : (s.chans (p - c.start)).inner = true := hin
                    simp only [chanWeight, hin', if_true, List.length_append, List.length_cons, List.length_nil]
                    omega] at hsum
                  have hsum' := Nat.add_right_cancel (m := chanWeight (s.chans (p - c.start)))
                    (hsum.trans (by omega : _ = (sumN c.n (fun j => chanWeight (s.chans j)) + 1)
                      + chanWeight (s.chans (p - c.start))))
                  simp only [measure]
                  rw [show sumN c.n (fun i => chanWeight (upd s.chans (p - c.start)
                    { s.chans (p - c.start) with queue := (s.chans (p - c.start)).queue ++ [.ok size a] } i)) = _
                    from hsum']
                  simp only [hw, List.length_cons]
                  omega
                · simp only [measure, hw, List.length_cons]; omega
              · exact hfan _ _ rfl (by simp [hw]) rfl (by simp [hph])

theorem measure_upd (c : Cfg α) (s s' : State α) (i : Nat) (x : Chan α) (hi : i < c.n)
    (hch : s'.chans = upd s.chans i x) (hx : chanWeight x < chanWeight (s.chans i))
    (hw : s'.wire = s.wire) (hp : s'.phase = s.phase) (hf : ind (! s'.firstPoll) ≤ ind (! s.firstPoll)) :
    measure c s' < measure c s := by
  have hsum := sumN_upd c.n chanWeight s.chans i x hi
  simp only [measure, hch, hw, hp]
  omega

theorem poll_measure (c : Cfg α) (s : State α) (i : Nat) :
    pollStep c s i = s ∨ measure c (pollStep c s i) < measure c s := by
  have hf : ind (! true) ≤ ind (! s.firstPoll) := by simp [ind]
  unfold pollStep
  split
  · rename_i hc
    obtain ⟨hi, hin, heos⟩ := hc
    simp only
    split
    · rename_i it q hq
      have hq' : (s.chans i).queue = it :: q := hq
      right
      refine measure_upd c s _ i _ hi rfl ?_ rfl rfl hf
      simp only [chanWeight, hin, if_true, hq', List.length_cons]; omega
    · rename_i hq
      split
      · right
        refine measure_upd c s _ i _ hi rfl ?_ rfl rfl hf
        simp [chanWeight, hin, heos, ind]
      · cases hfp : s.firstPoll
        · right; simp [measure, hfp, ind]
        · left; cases s; simp_all
  · left; rfl

theorem step_measure (c : Cfg α) (s : State α) (st : Step) (hst : st ≠ .crash) :
    step c s st = s ∨ measure c (step c s st) < measure c s := by
  cases st with
  | task => exact task_measure c s
  | poll i => exact poll_measure c s i
  | dropInner i =>
    simp only [step, dropInner]
    split
    · rename_i hc
      right
      refine measure_upd c s _ i _ hc.1 rfl ?_ rfl rfl (Nat.le_refl _)
      simp only [chanWeight, hc.2, if_true, Bool.false_eq_true, if_false]; omega
    · left; rfl
  | dropCallback i =>
    simp only [step, dropCallback]
    split
    · rename_i hc
      right
      refine measure_upd c s _ i _ hc.1 rfl ?_ rfl rfl (Nat.le_refl _)
      simp [chanWeight, hc.2.1, hc.2.2, ind]
    · left; rfl
  | crash => exact absurd rfl hst

/-- A step that keeps the byte accounting exact: no panic, and no stream is dropped while bytes are buffered for it. -/
def Clean (s : State α) : Step → Prop
  | .crash => False
  | .dropInner i => queueBytes (s.chans i) = 0
  | _ => True

theorem buffered_upd (c : Cfg α) (s s' : State α) (i : Nat) (x : Chan α) (hi : i < c.n)
    (hch : s'.chans = upd s.chans i x) :
    buffered c s' + queueBytes (s.chans i) = buffered c s + queueBytes x := by
  have := sumN_upd c.n queueBytes s.chans i x hi
  simp only [buffered, hch]; exact this

theorem fanout_buffered (c : Cfg α) (s : State α) (e : Err) : buffered c (fanout s e) = buffered c s := by
  apply sumN_congr; intro i _
  simp only [fanout]; split
  · simp [queueBytes, Item.bytes]
  · rfl

theorem step_exact (c : Cfg α) (s : State α) (st : Step) (hst : Clean s st)
    (hex : buffered c s = s.reserved) : buffered c (step c s st) = (step c s st).reserved := by
  cases st with
  | crash => exact hst.elim
  | dropCallback i =>
    simp only [step, dropCallback]
    split
    · rename_i hc
      have := buffered_upd c s (i := i) (x := { s.chans i with dropped := true }) (hi := hc.1)
        (s' := { s with remaining := s.remaining - 1
                        cancelled := s.cancelled || decide (s.remaining - 1 = 0)
                        chans := upd s.chans i { s.chans i with dropped := true } }) (hch := rfl)
      have h2 : queueBytes { s.chans i with dropped := true } = queueBytes (s.chans i) := rfl
      rw [h2] at this
      exact (Nat.add_right_cancel this).trans hex
    · exact hex
  | dropInner i =>
    have hst' : queueBytes (s.chans i) = 0 := hst
    simp only [step, dropInner]
    split
    · rename_i hc
      have := buffered_upd c s (i := i) (x := { s.chans i with queue := [], inner := false }) (hi := hc.1)
        (s' := { s with holders := s.holders - 1
                        aborted := s.aborted || decide (s.holders - 1 = 0)
                        chans := upd s.chans i { s.chans i with queue := [], inner := false } }) (hch := rfl)
      have h2 : queueBytes { s.chans i with queue := [], inner := false } = 0 := rfl
      rw [h2, hst'] at this
      exact this.trans hex
    · exact hex
  | poll i =>
    simp only [step, pollStep]
    split
    · rename_i hc
      split
      · rename_i it q hq
        have hq' : (s.chans i).queue = it :: q := hq
        have := buffered_upd c s (i := i) (x := { s.chans i with queue := q, out := (s.chans i).out ++ [it.result] }) (hi := hc.1)
          (s' := { s with firstPoll := true, reserved := s.reserved - it.bytes
                          chans := upd s.chans i { s.chans i with queue := q, out := (s.chans i).out ++ [it.result] } }) (hch := rfl)
        have h2 : queueBytes { s.chans i with queue := q, out := (s.chans i).out ++ [it.result] }
            = (q.map Item.bytes).sum := rfl
        have h3 : queueBytes (s.chans i) = it.bytes + (q.map Item.bytes).sum := by simp [queueBytes, hq']
        rw [h2, h3] at this
        have h4 := Nat.add_right_cancel (m := (q.map Item.bytes).sum) ((Nat.add_assoc _ _ _).trans this)
        refine Nat.eq_sub_of_add_eq ?_
        exact h4.trans hex
      · split
        · have := buffered_upd c s (i := i) (x := { s.chans i with eos := true }) (hi := hc.1)
            (s' := { s with firstPoll := true, chans := upd s.chans i { s.chans i with eos := true } }) (hch := rfl)
          have h2 : queueBytes { s.chans i with eos := true } = queueBytes (s.chans i) := rfl
          rw [h2] at this
          exact (Nat.add_right_cancel this).trans hex
        · exact hex
    · exact hex
  | task =>
    simp only [step, taskStep]
    split
    · exact hex
    · split
      · exact hex
      · split
        · exact hex
        · split
          · split
            · rw [fanout_buffered]; exact hex
            · exact hex
          · exact hex
      · split
        · exact hex
        · split
          · exact hex
          · split
            · exact hex
            · rw [fanout_buffered]; exact hex
            · rw [fanout_buffered]; exact hex
            · rename_i p size a ws hw
              split
              · rw [fanout_buffered]; exact hex
              · split
                · rename_i hr
                  unfold send
                  split
                  · have := buffered_upd c s (i := p - c.start)
                      (x := { s.chans (p - c.start) with queue := (s.chans (p - c.start)).queue ++ [.ok size a] }) (hi := hr)
                      (s' := { s with wire := ws, reserved := s.reserved + size
                                      chans := upd s.chans (p - c.start) { s.chans (p - c.start) with
                                        queue := (s.chans (p - c.start)).queue ++ [.ok size a] } }) (hch := rfl)
                    rw [show queueBytes { s.chans (p - c.start) with
                          queue := (s.chans (p - c.start)).queue ++ [.ok size a] }
                        = queueBytes (s.chans (p - c.start)) + size by simp [queueBytes, Item.bytes]] at this
                    have h4 := Nat.add_right_cancel (m := queueBytes (s.chans (p - c.start)))
                      (this.trans (by omega : _ = buffered c s + size + queueBytes (s.chans (p - c.start))))
                    refine h4.trans ?_
                    rw [hex]
                  · exact hex
                · rw [fanout_buffered]; exact hex

/-- In every state where consumer `i` has not ended there is a party whose next step has an effect. -/
theorem progress (c : Cfg α) (s : State α) (h : Inv c s) (hex : buffered c s = s.reserved) (hb : 0 < c.budget)
    (i : Nat) (hi : i < c.n) (hin : (s.chans i).inner = true) (heos : (s.chans i).eos = false) :
    measure c (step c s .task) < measure c s ∨
    ∃ j < c.n, (s.chans j).inner = true ∧ measure c (step c s (.poll j)) < measure c s := by
  obtain ⟨hna, hnc⟩ := alive_of c s h i hi hin
  have pollEff : ∀ j < c.n, (s.chans j).inner = true → (s.chans j).queue ≠ [] →
      measure c (step c s (.poll j)) < measure c s ∨ (s.chans j).eos = true := by
    intro j hj hinj hq
    by_cases he : (s.chans j).eos = true
    · right; exact he
    · left
      rcases poll_measure c s j with h1 | h1
      · exfalso
        have he' : (s.chans j).eos = false := by simpa using he
        obtain ⟨it, q, hq'⟩ := List.exists_cons_of_ne_nil hq
        have hlen : ((pollStep c s j).chans j).queue.length = q.length := by
          simp [pollStep, hj, hinj, he', hq', upd]
        rw [h1, hq'] at hlen
        simp at hlen
      · exact h1
  -- a stream that ended has nothing queued
  have eosEmpty : ∀ j < c.n, (s.chans j).inner = true → (s.chans j).eos = true → (s.chans j).queue = [] := by
    intro j hj hinj he
    have h1 := h.stream j hj hinj
    rw [h.eos j he] at h1
    have h2 := congrArg List.length h1
    simp at h2
    exact h2.1
  cases hph : s.phase with
  | done =>
    right
    refine ⟨i, hi, hin, ?_⟩
    rcases poll_measure c s i with h1 | h1
    · exfalso
      cases hq : (s.chans i).queue with
      | cons it q =>
        have hlen : ((pollStep c s i).chans i).queue.length = q.length := by
          simp [pollStep, hi, hin, heos, hq, upd]
        rw [h1, hq] at hlen; simp at hlen
      | nil =>
        have he : ((pollStep c s i).chans i).eos = true := by
          simp [pollStep, hi, hin, heos, hq, upd, hph]
        rw [h1, heos] at he; simp at he
    · exact h1
  | waiting =>
    cases hfp : s.firstPoll with
    | false =>
      right
      refine ⟨i, hi, hin, ?_⟩
      rcases poll_measure c s i with h1 | h1
      · exfalso
        have he : (pollStep c s i).firstPoll = true := by
          simp only [pollStep, hi, hin, heos, and_self, if_true]
          split
          · rfl
          · split <;> rfl
        rw [h1, hfp] at he; simp at he
      · exact h1
    | true =>
      left
      rcases task_measure c s with h1 | h1
      · exfalso
        have hc : (taskStep c s).phase ≠ .waiting := by
          simp only [taskStep, hna, hph, hnc, hfp, if_true, Bool.false_eq_true, if_false]
          split <;> simp [fanout]
        rw [h1] at hc; exact hc hph
      · exact h1
  | running =>
    by_cases hr : s.reserved ≥ c.budget
    · right
      have hpos : 0 < buffered c s := by omega
      have : ∃ j < c.n, queueBytes (s.chans j) ≠ 0 := by
        by_contra hno
        have hz : buffered c s = 0 := by
          have : ∀ n, (∀ j < n, queueBytes (s.chans j) = 0) → sumN n (fun j => queueBytes (s.chans j)) = 0 := by
            intro n
            induction n with
            | zero => intro _; rfl
            | succ n ih => intro hz; rw [sumN_succ, ih (fun j hj => hz j (by omega)), hz n (by omega)]
          exact this c.n (fun j hj => by
            by_contra hne; exact hno ⟨j, hj, hne⟩)
        omega
      obtain ⟨j, hj, hne⟩ := this
      have hq : (s.chans j).queue ≠ [] := by
        intro hq; apply hne; simp [queueBytes, hq]
      have hinj : (s.chans j).inner = true := by
        by_contra hf; exact hq (h.noQueue j (by simpa using hf))
      rcases pollEff j hj hinj hq with h1 | h1
      · exact ⟨j, hj, hinj, h1⟩
      · exact absurd (eosEmpty j hj hinj h1) hq
    · left
      rcases task_measure c s with h1 | h1
      · exfalso
        have hch : (taskStep c s).phase = .done ∨ (taskStep c s).wire.length < s.wire.length := by
          simp only [taskStep, hna, hph, hnc, hr, Bool.false_eq_true, if_false]
          split
          · left; rfl
          · left; rfl
          · left; rfl
          · rename_i p size a ws hw
            split
            · left; rfl
            · split
              · right; simp only [send]; split <;> simp [hw]
              · left; rfl
        rw [h1, hph] at hch
        rcases hch with hch | hch
        · simp at hch
        · omega
      · exact h1

end DD.Demux
