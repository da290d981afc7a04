/-
C72: a query that merges the sorted partitions of a worker makes progress.
-/
import Verif.Spec.Merging
import Verif.Props.Demux
import Verif.Props.EndToEnd
import Verif.Props.Order

namespace DD.Demux

variable {α Row : Type}

def itemOf (m : Nat × α) : Item α := .ok m.1 m.2

/-- What holds while only `got` has been pulled from the response. -/
structure Held (c : Cfg α) (got : List (Wire α)) (s : State α) : Prop where
  wire : got ++ s.wire = c.sent
  phase : s.phase ≠ .done
  waiting : s.phase = .waiting → got = []
  cancelled : s.cancelled = false
  aborted : s.aborted = false
  chan : ∀ i < c.n, (s.chans i).inner = true ∧ (s.chans i).eos = false
    ∧ (s.chans i).out = ((messagesFor c i got).take (s.chans i).out.length).map (fun m => .ok m.2)
    ∧ (s.chans i).queue = ((messagesFor c i got).drop (s.chans i).out.length).map itemOf
  other : ∀ i, c.n ≤ i → (s.chans i).queue = [] ∧ (s.chans i).out = [] ∧ (s.chans i).eos = false
  reserved : buffered c s ≤ s.reserved

theorem messagesFor_append (c : Cfg α) (i : Nat) (a b : List (Wire α)) :
    messagesFor c i (a ++ b) = messagesFor c i a ++ messagesFor c i b := by
  simp [messagesFor]

theorem held_init (c : Cfg α) : Held c [] (init c) where
  wire := rfl
  phase := by simp [init]
  waiting _ := rfl
  cancelled := rfl
  aborted := rfl
  chan i _ := ⟨rfl, rfl, rfl, rfl⟩
  other i _ := ⟨rfl, rfl, rfl⟩
  reserved := by
    have := (init_inv c).bytes
    exact this

/-- One message more. -/
theorem held_send {c : Cfg α} {got : List (Wire α)} {s : State α} (h : Held c got s) {p size : Nat} {a : α} {ws}
    (hr : s.phase = .running) (hw : s.wire = .msg p size a :: ws) (h1 : c.start ≤ p) (h2 : p - c.start < c.n) :
    Held c (got ++ [.msg p size a]) (send { s with wire := ws } (p - c.start) size a) := by
  have hin := (h.chan _ h2).1
  have hsend : send { s with wire := ws } (p - c.start) size a = { s with
      wire := ws
      reserved := s.reserved + size
      chans := upd s.chans (p - c.start) { s.chans (p - c.start) with queue := (s.chans (p - c.start)).queue ++ [.ok size a] } } := by
    simp [send, hin]
  rw [hsend]
  refine ⟨?_, h.phase, ?_, h.cancelled, h.aborted, ?_, ?_, ?_⟩
  · have := h.wire
    rw [hw] at this
    simpa using this
  · intro hp
    rw [show s.phase = .waiting from hp] at hr
    cases hr
  · intro i hi
    obtain ⟨g1, g2, g3, g4⟩ := h.chan i hi
    have hlen : (s.chans i).out.length ≤ (messagesFor c i got).length := by
      have := congrArg List.length g3
      rw [List.length_map, List.length_take] at this
      omega
    have hm : messagesFor c i (got ++ [.msg p size a]) = messagesFor c i got ++ (if p = c.start + i then [(size, a)] else []) := by
      rw [messagesFor_append]
      congr 1
      simp only [messagesFor, List.filterMap_cons, List.filterMap_nil]
      by_cases e : p = c.start + i
      · rw [if_pos e, if_pos e]
      · rw [if_neg e, if_neg e]
    rw [hm]
    by_cases hpi : p - c.start = i
    · subst hpi
      have hp : p = c.start + (p - c.start) := by omega
      rw [if_pos hp]
      simp only [upd, if_true]
      refine ⟨g1, g2, ?_, ?_⟩
      · rw [List.take_append_of_le_length hlen]; exact g3
      · rw [List.drop_append_of_le_length hlen, List.map_append, ← g4]; rfl
    · have hp : ¬ p = c.start + i := by omega
      rw [if_neg hp, List.append_nil]
      simp only [upd, if_neg (Ne.symm hpi)]
      exact ⟨g1, g2, g3, g4⟩
  · intro i hi
    have : ¬ i = p - c.start := by omega
    simp only [upd, if_neg this]
    exact h.other i hi
  · have hb := h.reserved
    unfold buffered at hb ⊢
    refine Nat.le_of_add_le_add_right (b := queueBytes (s.chans (p - c.start))) ?_
    refine (Nat.le_of_eq (sumN_upd c.n queueBytes s.chans _ _ h2)).trans ?_
    have hq : (((s.chans (p - c.start)).queue ++ [Item.ok size a]).map Item.bytes).sum = queueBytes (s.chans (p - c.start)) + size := by
      simp [queueBytes, Item.bytes]
    change _ + (((s.chans (p - c.start)).queue ++ [Item.ok size a]).map Item.bytes).sum ≤ s.reserved + size + _
    omega

/-- One poll. -/
theorem held_poll {c : Cfg α} {got : List (Wire α)} {s : State α} (h : Held c got s) (i : Nat) :
    Held c got (pollStep c s i) ∧ (∀ j, j ≠ i → ((pollStep c s i).chans j).out = (s.chans j).out)
      ∧ ((pollStep c s i).chans i).out.length ≤ (s.chans i).out.length + 1 := by
  unfold pollStep
  split
  · rename_i hc
    obtain ⟨hi, _, _⟩ := hc
    obtain ⟨g1, g2, g3, g4⟩ := h.chan i hi
    dsimp only
    cases hq : (s.chans i).queue with
    | nil =>
      dsimp only
      rw [if_neg (by simp [h.phase, h.aborted])]
      exact ⟨⟨h.wire, h.phase, h.waiting, h.cancelled, h.aborted, h.chan, h.other, h.reserved⟩, fun _ _ => rfl, Nat.le_succ _⟩
    | cons it q =>
      dsimp only
      rw [hq] at g4
      have hd : ((messagesFor c i got).drop (s.chans i).out.length) ≠ [] := by
        intro e; rw [e] at g4; cases g4
      obtain ⟨m, rest, hmr⟩ := List.exists_cons_of_ne_nil hd
      rw [hmr, List.map_cons] at g4
      obtain ⟨rfl, rfl⟩ := List.cons.inj g4
      have hlt : (s.chans i).out.length < (messagesFor c i got).length := by
        have := congrArg List.length hmr
        rw [List.length_drop, List.length_cons] at this
        omega
      have hget : (messagesFor c i got)[(s.chans i).out.length] = m := by
        have := List.drop_eq_getElem_cons hlt
        rw [hmr] at this
        exact (List.cons.inj this).1.symm
      have hrest : rest = (messagesFor c i got).drop ((s.chans i).out.length + 1) := by
        have := List.drop_eq_getElem_cons hlt
        rw [hmr] at this
        exact (List.cons.inj this).2
      refine ⟨⟨h.wire, h.phase, h.waiting, h.cancelled, h.aborted, ?_, ?_, ?_⟩, ?_, ?_⟩
      · intro j hj
        by_cases e : j = i
        · subst e
          simp only [upd, if_true]
          refine ⟨g1, g2, ?_, ?_⟩
          · rw [List.length_append, List.length_singleton, List.take_succ, List.map_append, ← g3, List.getElem?_eq_getElem hlt, hget]
            rfl
          · rw [List.length_append, List.length_singleton, hrest]
        · simp only [upd, if_neg e]
          exact h.chan j hj
      · intro j hj
        have : ¬ j = i := by omega
        simp only [upd, if_neg this]
        exact h.other j hj
      · have hq1 : queueBytes (s.chans i) = (itemOf m).bytes + ((List.map itemOf rest).map Item.bytes).sum := by
          simp [queueBytes, hq]
        have hb := h.reserved
        unfold buffered at hb ⊢
        refine Nat.le_of_add_le_add_right (b := queueBytes (s.chans i)) ?_
        refine (Nat.le_of_eq (sumN_upd c.n queueBytes s.chans _ _ hi)).trans ?_
        have hle := le_sumN c.n (fun j => queueBytes (s.chans j)) i hi
        change _ + ((List.map itemOf rest).map Item.bytes).sum ≤ s.reserved - (itemOf m).bytes + _
        omega
      · intro j hj
        simp only [upd, if_neg hj]
      · simp [upd]
  · exact ⟨h, fun _ _ => rfl, Nat.le_succ _⟩

theorem rowsIn_ok {l : List (Nat × List Row)} {x : Row} (h : x ∈ rowsIn (l.map fun m => .ok m.2)) : ∃ m ∈ l, x ∈ m.2 := by
  obtain ⟨y, hy, hx⟩ := List.mem_flatMap.mp h
  obtain ⟨m, hm, rfl⟩ := List.mem_map.mp hy
  exact ⟨m, hm, hx⟩

/-- While partition `i` is not read further, what is buffered for it closes the gate. -/
theorem held_run {lt : Row → Row → Prop} {k : Nat} {d : Demand (List Row)} (c : Cfg (List Row)) (hd : MergeDemand lt c.n k d)
    (hc : c.connectErr = none) {pre rest : List (Wire (List Row))} (hsent : c.sent = pre ++ rest) {i j : Nat} (hij : i ≠ j)
    (hi : i < c.n) (hj : j < c.n) (hval : ∀ w ∈ pre, deliverable c w = true)
    (hlt : ∀ m ∈ messagesFor c j pre, ∀ m' ∈ messagesFor c i pre, ∀ x ∈ m.2, ∀ y ∈ m'.2, lt x y)
    (hbytes : c.budget ≤ (((messagesFor c i pre).drop (k + 1)).map (·.1)).sum) :
    ∀ (steps : List Step) (s : State (List Row)) (got : List (Wire (List Row))), Held c got s → got <+: pre →
      (s.chans i).out.length ≤ k + 1 → Obeys c d s steps →
      ∃ got', Held c got' (run c s steps) ∧ got' <+: pre
  | [], s, got, h, hp, _, _ => ⟨got, h, hp⟩
  | st :: steps, s, got, h, hp, hk, ho => by
    obtain ⟨h1, h2⟩ := ho
    have hsub : ∀ q, ∀ m ∈ messagesFor c q got, m ∈ messagesFor c q pre := by
      intro q m hm
      obtain ⟨t, ht⟩ := hp
      rw [← ht, messagesFor_append]
      exact List.mem_append_left _ hm
    cases st with
    | task =>
      change ∃ got', Held c got' (run c (step c s .task) steps) ∧ _
      have hstep : (∃ got', Held c got' (step c s .task) ∧ got' <+: pre) ∧ ((step c s .task).chans i).out = (s.chans i).out := by
        change (∃ got', Held c got' (taskStep c s) ∧ _) ∧ ((taskStep c s).chans i).out = _
        unfold taskStep
        rw [if_neg (by simp [h.aborted])]
        cases hph : s.phase with
        | done => exact absurd hph h.phase
        | waiting =>
          dsimp only
          rw [if_neg (by simp [h.cancelled])]
          split
          · rw [hc]
            refine ⟨⟨got, ⟨h.wire, by simp, by rintro ⟨⟩, h.cancelled, h.aborted, h.chan, h.other, h.reserved⟩, hp⟩, rfl⟩
          · exact ⟨⟨got, h, hp⟩, rfl⟩
        | running =>
          dsimp only
          rw [if_neg (by simp [h.cancelled])]
          split
          · exact ⟨⟨got, h, hp⟩, rfl⟩
          · rename_i hgate
            obtain ⟨t, ht⟩ := hp
            match t, ht with
            | [], ht =>
              exfalso
              rw [List.append_nil] at ht
              subst ht
              apply hgate
              obtain ⟨_, _, _, hq⟩ := h.chan i hi
              have hle := le_sumN c.n (fun j => queueBytes (s.chans j)) i hi
              have hb := h.reserved
              have : (((messagesFor c i got).drop (k + 1)).map (·.1)).sum ≤ queueBytes (s.chans i) := by
                unfold queueBytes
                rw [hq, List.map_map]
                change _ ≤ (List.map (fun m : Nat × List Row => m.1) _).sum
                obtain ⟨e, he⟩ := Nat.exists_eq_add_of_le hk
                rw [he, ← List.drop_drop]
                clear he
                generalize (messagesFor c i got).drop (s.chans i).out.length = l
                induction e generalizing l with
                | zero => simp
                | succ e ih =>
                  cases l with
                  | nil => simp
                  | cons x l =>
                    rw [List.drop_succ_cons, List.map_cons, List.sum_cons]
                    have := ih l
                    omega
              unfold buffered at hb
              omega
            | w :: t, ht =>
              have hw : s.wire = w :: (t ++ rest) := by
                have := h.wire
                rw [hsent, ← ht, List.append_assoc] at this
                exact List.append_cancel_left this
              have hwd := hval w (by rw [← ht]; simp)
              cases w with
              | err e => cases hwd
              | badMeta => cases hwd
              | msg p size a =>
                have hwd : c.start ≤ p ∧ p < c.start + c.n := by
                  simpa [deliverable] using hwd
                rw [hw]
                dsimp only
                rw [if_neg (by omega), if_pos (by omega)]
                have hs := held_send h hph hw hwd.1 (by omega)
                rw [hph] at hs
                refine ⟨⟨_, hs, t, ?_⟩, ?_⟩
                · rw [← ht, List.append_assoc]; rfl
                · unfold send
                  split
                  · dsimp only [upd]
                    split
                    · rename_i e; rw [e]
                    · rfl
                  · rfl
      obtain ⟨⟨got', g1, g2⟩, g3⟩ := hstep
      exact held_run c hd hc hsent hij hi hj hval hlt hbytes steps _ got' g1 g2 (by rw [g3]; exact hk) h2
    | poll q =>
      obtain ⟨g1, g2, g3⟩ := held_poll h q
      refine held_run c hd hc hsent hij hi hj hval hlt hbytes steps _ got g1 hp ?_ h2
      by_cases hq : i = q
      · subst hq
        have := hd _ _ i hi j hj hij (h.chan j hj).2.1 (by
          intro x hx y hy
          rw [(h.chan j hj).2.2.1] at hx
          rw [(h.chan i hi).2.2.1] at hy
          obtain ⟨m, hm, hx⟩ := rowsIn_ok hx
          obtain ⟨m', hm', hy⟩ := rowsIn_ok hy
          exact hlt m (hsub j m (List.mem_of_mem_take hm)) m' (hsub i m' (List.mem_of_mem_take hm')) x hx y hy) h1
        exact g3.trans (by simpa using this)
      · change ((pollStep c s q).chans i).out.length ≤ k + 1
        rw [g2 i hq]; exact hk
    | dropInner q => exact h1.elim
    | dropCallback q => exact h1.elim
    | crash => exact h1.elim

/-- **C72** is false: a merge that waits for a partition `j` of a worker, while the bytes it has not read of another partition `i`
of the same worker fill the connection's budget, waits forever, whatever the schedule: the messages behind them (`rest`) are
never pulled, no partition ends. `pre` is what the worker has sent until then, in which all rows of `j` come before all rows of
`i`. The comment at `/repo/src/protocol/grpc/worker_client.rs:124-129` names this hang as the one the unbounded queues
avoid; the gate at `:189-203` brings it back. -/
theorem C72_merge_hangs_false {lt : Row → Row → Prop} {k : Nat} {d : Demand (List Row)} (c : Cfg (List Row)) (hd : MergeDemand lt c.n k d)
    (hc : c.connectErr = none) {pre rest : List (Wire (List Row))} (hsent : c.sent = pre ++ rest) {i j : Nat} (hij : i ≠ j)
    (hi : i < c.n) (hj : j < c.n) (hval : ∀ w ∈ pre, deliverable c w = true)
    (hlt : ∀ m ∈ messagesFor c j pre, ∀ m' ∈ messagesFor c i pre, ∀ x ∈ m.2, ∀ y ∈ m'.2, lt x y)
    (hbytes : c.budget ≤ (((messagesFor c i pre).drop (k + 1)).map (·.1)).sum)
    (steps : List Step) (ho : Obeys c d (init c) steps) (q : Nat) :
    ((run c (init c) steps).chans q).out <+: (messagesFor c q pre).map (fun m => .ok m.2)
    ∧ ((run c (init c) steps).chans q).eos = false := by
  obtain ⟨got, h, hp⟩ := held_run c hd hc hsent hij hi hj hval hlt hbytes steps _ [] (held_init c) List.nil_prefix (Nat.zero_le _) ho
  by_cases hq : q < c.n
  · obtain ⟨_, h2, h3, _⟩ := h.chan q hq
    refine ⟨?_, h2⟩
    rw [h3]
    obtain ⟨t, rfl⟩ := hp
    rw [messagesFor_append, List.map_append]
    exact (List.IsPrefix.map _ (List.take_prefix _ _)).trans (List.prefix_append _ _)
  · obtain ⟨_, h2, h3⟩ := h.other q (by omega)
    rw [h2]
    exact ⟨List.nil_prefix, h3⟩

/-! ### Every budget hangs on some sorted partitions -/

namespace Witness
open SelectAll

/-- Partition 0 has many equal rows, partition 1 has two smaller ones. -/
def sources (m : Nat) : Nat → List (Except Err (List Nat))
  | 0 => List.replicate m (.ok [2])
  | 1 => [.ok [0], .ok [1]]
  | _ => []

/-- The worker's schedule: one batch of partition 1, then all of partition 0, then the rest of partition 1. -/
def schedule (m : Nat) : List SelectAll.Step :=
  [.forward 1, .take 1] ++ (List.replicate m [.forward 0, .take 0]).flatten
    ++ [.forward 0, .forward 1, .take 1, .forward 1, .finish]

theorem zeros (cap : Nat) (hcap : 0 < cap) (x : Except Err (List Nat)) : ∀ (m : Nat) (s : SelectAll.State (List Nat)),
    s.srcs 0 = { todo := List.replicate m x } →
    let s' := ((List.replicate m [SelectAll.Step.forward 0, .take 0]).flatten).foldl (SelectAll.step 2 cap) s
    s'.srcs 0 = { todo := [] } ∧ s'.srcs 1 = s.srcs 1 ∧ s'.out = s.out ++ List.replicate m (0, x) ∧ s'.eos = s.eos
  | 0, s, h => by simpa using h
  | m + 1, s, h => by
    have e : SelectAll.step 2 cap (SelectAll.step 2 cap s (.forward 0)) (.take 0)
        = { srcs := upd (upd s.srcs 0 { todo := List.replicate m x, queue := [x] }) 0 { todo := List.replicate m x }
            out := s.out ++ [(0, x)], eos := s.eos } := by
      simp [SelectAll.step, forwardStep, h, List.replicate_succ, hcap, upd]
    have := zeros cap hcap x m (SelectAll.step 2 cap (SelectAll.step 2 cap s (.forward 0)) (.take 0)) (by rw [e]; rfl)
    simp only [List.replicate_succ, List.flatten_cons, List.foldl_append, List.foldl_cons, List.foldl_nil] at this ⊢
    obtain ⟨h1, h2, h3, h4⟩ := this
    refine ⟨h1, ?_, ?_, ?_⟩
    · rw [h2, e]; rfl
    · rw [h3, e]; simp
    · rw [h4, e]

theorem served (cap : Nat) (hcap : 0 < cap) (m : Nat) :
    (SelectAll.run 2 cap (sources m) (schedule m)).eos = true
    ∧ (SelectAll.run 2 cap (sources m) (schedule m)).out = (1, .ok [0]) :: List.replicate m (0, .ok [2]) ++ [(1, .ok [1])] := by
  have h0 := zeros cap hcap (.ok [2]) m
    ([SelectAll.Step.forward 1, .take 1].foldl (SelectAll.step 2 cap) { srcs := fun i => { todo := sources m i } })
    (by simp [SelectAll.step, forwardStep, sources, upd, hcap])
  simp only [SelectAll.run, schedule, List.foldl_append]
  revert h0
  generalize hs : [SelectAll.Step.forward 1, .take 1].foldl (SelectAll.step 2 cap) { srcs := fun i => { todo := sources m i } } = s
  have hs1 : s.srcs 1 = { todo := [.ok [1]] } ∧ s.out = [(1, .ok [0])] ∧ s.eos = false := by
    rw [← hs]
    simp [SelectAll.step, forwardStep, sources, upd, hcap]
  generalize ((List.replicate m [SelectAll.Step.forward 0, .take 0]).flatten).foldl (SelectAll.step 2 cap) s = s'
  rintro ⟨h1, h2, h3, h4⟩
  rw [hs1.1] at h2
  rw [hs1.2.1] at h3
  obtain ⟨srcs, out, eos⟩ := s'
  simp only at h1 h2 h3 h4
  simp [SelectAll.step, forwardStep, upd, h1, h2, h3, hcap, List.range_succ]

end Witness

/-- **C72** is false for every budget: whatever the budget and however many batches a merge reads ahead, there are two sorted
partitions and a schedule of the worker that sends all of both, such that no merge gets past the first batch of the
second one. -/
theorem C72_every_budget_hangs_false (k budget cap : Nat) (hcap : 0 < cap) :
    ∃ (sources : Nat → List (Except Err (List Nat))) (srv : List SelectAll.Step) (c : Cfg (List Nat)),
      (∀ i, (rowsIn (sources i)).Pairwise (· ≤ ·)) ∧ (∀ st ∈ srv, SelectAll.isCrash st = false)
      ∧ c.n = 2 ∧ c.budget = budget ∧ c.connectErr = none
      ∧ SelectAll.Received List.length c.start (SelectAll.run 2 cap sources srv) c.sent
      ∧ (SelectAll.run 2 cap sources srv).eos = true
      ∧ ∀ d : Demand (List Nat), MergeDemand (· < ·) 2 k d → ∀ steps, Obeys c d (init c) steps →
        ((run c (init c) steps).chans 0).eos = false ∧ ((run c (init c) steps).chans 1).eos = false
        ∧ (rowsIn ((run c (init c) steps).chans 1).out = [] ∨ rowsIn ((run c (init c) steps).chans 1).out = [0]) := by
  obtain ⟨h1, h2⟩ := Witness.served cap hcap (k + 1 + budget)
  let pre : List (Wire (List Nat)) := .msg 1 1 [0] :: List.replicate (k + 1 + budget) (.msg 0 1 [2])
  have hsent : (SelectAll.run 2 cap (Witness.sources (k + 1 + budget)) (Witness.schedule (k + 1 + budget))).out.map
      (SelectAll.wireOf List.length 0) = pre ++ [.msg 1 1 [1]] := by
    rw [h2]
    simp [pre, SelectAll.wireOf]
  let c : Cfg (List Nat) := ⟨0, 2, budget, none, pre ++ [.msg 1 1 [1]]⟩
  have hm0 : messagesFor c 0 pre = List.replicate (k + 1 + budget) (1, [2]) := by
    simp [messagesFor, pre, c]
  have hm1 : messagesFor c 1 pre = [(1, [0])] := by
    simp [messagesFor, pre, c]
  refine ⟨_, _, c, ?_, ?_, rfl, rfl, rfl, .inl ⟨h1, hsent.symm⟩, h1, ?_⟩
  · intro i
    match i with
    | 0 =>
      have : ∀ m, rowsIn (List.replicate m (Except.ok [2] : Except Err (List Nat))) = List.replicate m 2 := by
        intro m
        induction m with
        | zero => rfl
        | succ m ih => rw [List.replicate_succ, List.replicate_succ, ← ih]; rfl
      change (rowsIn (List.replicate _ _)).Pairwise _
      rw [this]
      exact List.pairwise_replicate.mpr (.inr (Nat.le_refl _))
    | 1 => change (rowsIn [.ok [0], .ok [1]]).Pairwise _; decide
    | _ + 2 => exact List.Pairwise.nil
  · intro st hst
    simp only [Witness.schedule, List.mem_append, List.mem_flatten, List.mem_replicate] at hst
    have two : ∀ l : List SelectAll.Step, l.all (fun st => !SelectAll.isCrash st) = true → st ∈ l → SelectAll.isCrash st = false := by
      intro l hl hm
      simpa using List.all_eq_true.mp hl st hm
    rcases hst with (hst | ⟨l, ⟨_, rfl⟩, hst⟩) | hst <;> exact two _ (by rfl) hst
  · intro d hd steps ho
    have key := C72_merge_hangs_false c hd rfl (rest := [.msg 1 1 [1]]) (pre := pre) rfl (i := 0) (j := 1) (by decide)
      (Nat.succ_pos 1) (Nat.lt_succ_self 1) ?_ ?_ ?_ steps ho
    · refine ⟨(key 0).2, (key 1).2, ?_⟩
      have := (key 1).1
      rw [hm1] at this
      generalize ((run c (init c) steps).chans 1).out = l at this
      match l, this with
      | [], _ => exact .inl rfl
      | [x], h =>
        obtain ⟨t, ht⟩ := h
        simp only [List.map_cons, List.map_nil, List.cons_append, List.nil_append, List.cons.injEq] at ht
        rw [ht.1]; exact .inr rfl
      | x :: y :: l, h => exact absurd h.length_le (by simp)
    · intro w hw
      simp only [pre, List.mem_cons, List.mem_replicate] at hw
      rcases hw with rfl | ⟨_, rfl⟩ <;> rfl
    · intro m hm m' hm'
      rw [hm1] at hm
      rw [hm0] at hm'
      obtain rfl := List.mem_singleton.mp hm
      obtain rfl := (List.mem_replicate.mp hm').2
      intro x hx y hy
      obtain rfl := List.mem_singleton.mp hx
      obtain rfl := List.mem_singleton.mp hy
      decide
    · rw [hm0, List.drop_replicate, List.map_replicate]
      simp [c]

/-- The most a merge can ask for under `MergeDemand`. -/
def greedy (n k : Nat) : Demand (List Nat) := fun outs ended i =>
  (outs i).length ≤ k ∨ ∀ j < n, j ≠ i → ended j = false → ∃ x ∈ rowsIn (outs j), ∃ y ∈ rowsIn (outs i), ¬ x < y

theorem greedy_ok (n k : Nat) : MergeDemand (· < ·) n k (greedy n k) := by
  intro outs ended i hi j hjn hij hj h hd
  rcases hd with hd | hd
  · exact hd
  · obtain ⟨x, hx, y, hy, hn⟩ := hd j hjn (Ne.symm hij) hj
    exact absurd (h x hx y hy) hn

/-- Such merges are planned: a merge of sorted scans becomes a merge directly above a boundary whose connections carry several
partitions each, here 6 partitions of 3 tasks. -/
example : (match Tree.plan Tree.Demo.sess (Tree.fresh (.spm none Tree.Demo.byKey) [Tree.Demo.sortedScan]) with
    | .ok (some (.node (.spm ..) _ [.node (.netCoalesce p n _) _ _])) => p == 6 && n == 3
    | _ => false) = true := by decide +kernel

/-- One partition of a worker may be read to its end by a merge: the hypotheses of the theorems are met, with what the worker sends
in a different order. -/
example : let c : Cfg (List Nat) := ⟨0, 2, 5, none, [.msg 1 1 [0], .msg 0 1 [2], .msg 1 1 [1], .msg 0 1 [2]]⟩
    ∃ steps, Obeys c (greedy 2 0) (init c) steps ∧ ((run c (init c) steps).chans 1).eos = true := by
  intro c
  refine ⟨[.poll 0, .task, .task, .task, .task, .task, .task, .poll 1, .poll 0, .poll 1, .poll 1], ?_, by decide⟩
  refine ⟨.inl (by decide), True.intro, True.intro, True.intro, True.intro, True.intro, True.intro, .inl (by decide), .inl (by decide),
    .inr ?_, .inr ?_, True.intro⟩
  · intro j hj hn _
    obtain rfl : j = 0 := by omega
    exact ⟨2, by decide, 0, by decide, by decide⟩
  · intro j hj hn _
    obtain rfl : j = 0 := by omega
    exact ⟨2, by decide, 0, by decide, by decide⟩

/-! ### What is true -/

theorem step_fits (c : Cfg α) (s : State α) (st : Step) : s.reserved + sizes s.wire ≤ sizes c.sent →
    (step c s st).reserved + sizes (step c s st).wire ≤ sizes c.sent := by
  intro h
  cases st with
  | crash => exact h
  | dropInner i => simp only [step, dropInner]; split <;> exact h
  | dropCallback i => simp only [step, dropCallback]; split <;> exact h
  | poll i =>
    simp only [step, pollStep]
    split
    · split
      · change s.reserved - _ + sizes s.wire ≤ _
        omega
      · split <;> exact h
    · exact h
  | task =>
    simp only [step, taskStep]
    split
    · exact h
    · split
      · exact h
      · split
        · exact h
        · split
          · split <;> exact h
          · exact h
      · split
        · exact h
        · split
          · exact h
          · split
            · exact h
            · rename_i e ws hw
              rw [hw] at h
              change s.reserved + sizes ws ≤ _
              simp only [sizes, List.map_cons, List.sum_cons] at h ⊢
              omega
            · rename_i ws hw
              rw [hw] at h
              change s.reserved + sizes ws ≤ _
              simp only [sizes, List.map_cons, List.sum_cons] at h ⊢
              omega
            · rename_i p size a ws hw
              rw [hw] at h
              have h' : s.reserved + size + sizes ws ≤ sizes c.sent := by
                simp only [sizes, List.map_cons, List.sum_cons] at h ⊢
                omega
              split
              · change s.reserved + sizes ws ≤ _
                omega
              · split
                · unfold send
                  split
                  · exact h'
                  · change s.reserved + sizes ws ≤ _
                    omega
                · change s.reserved + sizes ws ≤ _
                  omega

/-- While the gate is open, the task or the consumer itself can go on. -/
theorem progress_open (c : Cfg α) (s : State α) (h : Inv c s) (hr : ¬ s.reserved ≥ c.budget)
    (i : Nat) (hi : i < c.n) (hin : (s.chans i).inner = true) (heos : (s.chans i).eos = false) :
    measure c (step c s .task) < measure c s ∨ measure c (step c s (.poll i)) < measure c s := by
  obtain ⟨hna, hnc⟩ := alive_of c s h i hi hin
  cases hph : s.phase with
  | done =>
    right
    rcases poll_measure c s i with h1 | h1
    · exfalso
      cases hq : (s.chans i).queue with
      | cons it q =>
        have hlen : ((pollStep c s i).chans i).queue.length = q.length := by
          simp [pollStep, hi, hin, heos, hq, upd]
        rw [h1, hq] at hlen; simp at hlen
      | nil =>
        have he : ((pollStep c s i).chans i).eos = true := by
          simp [pollStep, hi, hin, heos, hq, upd, hph]
        rw [h1, heos] at he; simp at he
    · exact h1
  | waiting =>
    cases hfp : s.firstPoll with
    | false =>
      right
      rcases poll_measure c s i with h1 | h1
      · exfalso
        have he : (pollStep c s i).firstPoll = true := by
          simp only [pollStep, hi, hin, heos, and_self, if_true]
          split
          · rfl
          · split <;> rfl
        rw [h1, hfp] at he; simp at he
      · exact h1
    | true =>
      left
      rcases task_measure c s with h1 | h1
      · exfalso
        have hc : (taskStep c s).phase ≠ .waiting := by
          simp only [taskStep, hna, hph, hnc, hfp, if_true, Bool.false_eq_true, if_false]
          split <;> simp [fanout]
        rw [h1] at hc; exact hc hph
      · exact h1
  | running =>
    left
    rcases task_measure c s with h1 | h1
    · exfalso
      have hch : (taskStep c s).phase = .done ∨ (taskStep c s).wire.length < s.wire.length := by
        simp only [taskStep, hna, hph, hnc, hr, Bool.false_eq_true, if_false]
        split
        · left; rfl
        · left; rfl
        · left; rfl
        · rename_i p size a ws hw
          split
          · left; rfl
          · split
            · right; simp only [send]; split <;> simp [hw]
            · left; rfl
      rw [h1, hph] at hch
      rcases hch with hch | hch
      · simp at hch
      · omega
    · exact h1

theorem runFor_mono (c : Cfg α) (σ : Nat → Step) (hne : ∀ t, σ t ≠ .crash) (t : Nat) :
    ∀ d, measure c (runFor c σ (t + d)) < measure c (runFor c σ t) ∨ runFor c σ (t + d) = runFor c σ t := by
  intro d
  induction d with
  | zero => right; rfl
  | succ d ih =>
    have h1 := step_measure c (runFor c σ (t + d)) (σ (t + d)) (hne _)
    have h2 : runFor c σ (t + (d + 1)) = step c (runFor c σ (t + d)) (σ (t + d)) := rfl
    rw [h2]
    rcases h1 with h1 | h1 <;> rcases ih with ih | ih
    · left; rw [h1]; exact ih
    · right; rw [h1]; exact ih
    · left; exact Nat.lt_trans h1 ih
    · left; rw [ih] at h1 ⊢; exact h1

/-- **C72** (partial) If everything the worker sends fits in the budget, then a partition that is polled again and again ends with
everything it must receive, whether its siblings are read, dropped or left alone: any merge makes progress. Missing: more than
the budget, refuted above. -/
theorem C72_fits_in_budget_partial (c : Cfg α) (σ : Nat → Step) (hfit : sizes c.sent < c.budget) (hne : ∀ t, σ t ≠ .crash)
    (htask : ∀ t, ∃ t' ≥ t, σ t' = .task) (i : Nat) (hi : i < c.n) (hpoll : ∀ t, ∃ t' ≥ t, σ t' = .poll i)
    (hlive : ∀ t, ((runFor c σ t).chans i).inner = true) :
    ∃ t, ((runFor c σ t).chans i).eos = true ∧ ((runFor c σ t).chans i).out = total c i := by
  have hinv : ∀ t, Inv c (runFor c σ t) ∧ (runFor c σ t).reserved + sizes (runFor c σ t).wire ≤ sizes c.sent := by
    intro t
    induction t with
    | zero => exact ⟨init_inv c, Nat.le_of_eq (Nat.zero_add _)⟩
    | succ t ih => exact ⟨step_inv c _ _ (hne t) ih.1, step_fits c _ _ ih.2⟩
  have key : ∀ m t, measure c (runFor c σ t) ≤ m → ∃ t', ((runFor c σ t').chans i).eos = true := by
    intro m
    induction m with
    | zero =>
      intro t hm
      by_cases he : ((runFor c σ t).chans i).eos = true
      · exact ⟨t, he⟩
      · have hI := hinv t
        rcases progress_open c _ hI.1 (by omega) i hi (hlive t) (by simpa using he) with h | h <;> omega
    | succ m ih =>
      intro t hm
      by_cases he : ((runFor c σ t).chans i).eos = true
      · exact ⟨t, he⟩
      · have hI := hinv t
        have hgo : ∃ t', measure c (runFor c σ t') < measure c (runFor c σ t) := by
          have use : ∀ st, measure c (step c (runFor c σ t) st) < measure c (runFor c σ t) → (∃ t' ≥ t, σ t' = st) →
              ∃ t', measure c (runFor c σ t') < measure c (runFor c σ t) := by
            rintro st h ⟨t', ht', hσ⟩
            obtain ⟨d, rfl⟩ := Nat.exists_eq_add_of_le ht'
            rcases runFor_mono c σ hne t d with h1 | h1
            · exact ⟨_, h1⟩
            · refine ⟨t + d + 1, ?_⟩
              show measure c (step c (runFor c σ (t + d)) (σ (t + d))) < _
              rw [hσ, h1]; exact h
          rcases progress_open c _ hI.1 (by omega) i hi (hlive t) (by simpa using he) with h | h
          · exact use _ h (htask t)
          · exact use _ h (hpoll t)
        obtain ⟨t', ht'⟩ := hgo
        exact ih t' (by omega)
  obtain ⟨t, ht⟩ := key _ 0 (Nat.le_refl _)
  exact ⟨t, ht, (hinv t).1.eos i ht⟩

theorem send_inner (s : State α) (i size : Nat) (a : α) (j : Nat) : ((send s i size a).chans j).inner = (s.chans j).inner := by
  unfold send
  split
  · dsimp only [upd]
    split
    · rename_i e; rw [e]
    · rfl
  · rfl

theorem fanout_inner (s : State α) (e : Err) (j : Nat) : ((fanout s e).chans j).inner = (s.chans j).inner := by
  dsimp only [fanout]
  split <;> rfl

theorem task_inner (c : Cfg α) (s : State α) (j : Nat) : ((taskStep c s).chans j).inner = (s.chans j).inner := by
  unfold taskStep
  split
  · rfl
  · split
    · rfl
    · split
      · rfl
      · split
        · split
          · exact fanout_inner ..
          · rfl
        · rfl
    · split
      · rfl
      · split
        · rfl
        · split
          · rfl
          · exact fanout_inner ..
          · exact fanout_inner ..
          · split
            · exact fanout_inner ..
            · split
              · exact send_inner ..
              · exact fanout_inner ..

theorem poll_inner (c : Cfg α) (s : State α) (i j : Nat) : ((pollStep c s i).chans j).inner = (s.chans j).inner := by
  unfold pollStep
  split
  · dsimp only
    split
    · dsimp only [upd]
      split
      · rename_i e; rw [e]
      · rfl
    · split
      · dsimp only [upd]
        split
        · rename_i e; rw [e]
        · rfl
      · rfl
  · rfl

/-- **C72** (one partition per connection) A connection that carries a single partition makes progress whatever its size, if its
budget is not 0. -/
theorem C72_one_partition (c : Cfg α) (σ : Nat → Step) (hn : c.n = 1) (hb : 0 < c.budget) (honly : ∀ t, σ t = .task ∨ σ t = .poll 0)
    (htask : ∀ t, ∃ t' ≥ t, σ t' = .task) (hpoll : ∀ t, ∃ t' ≥ t, σ t' = .poll 0) :
    ∃ t, ((runFor c σ t).chans 0).eos = true ∧ ((runFor c σ t).chans 0).out = total c 0 := by
  refine C31_no_starvation_partial c σ hb ?_ ⟨htask, ?_⟩ 0 (by omega) ?_
  · intro t
    rcases honly t with h | h <;> rw [h] <;> exact True.intro
  · intro t j hj
    obtain rfl : j = 0 := by omega
    obtain ⟨t', h1, h2⟩ := hpoll t
    exact ⟨t', h1, .inl h2⟩
  · intro t
    induction t with
    | zero => rfl
    | succ t ih =>
      change ((step c (runFor c σ t) (σ t)).chans 0).inner = true
      rcases honly t with h | h
      · rw [h]
        exact (task_inner c _ 0).trans ih
      · rw [h]
        exact (poll_inner c _ 0 0).trans ih

/-- The task and consumer 0 by turns. -/
def alternate (t : Nat) : Step := if t % 2 = 0 then .poll 0 else .task

theorem alternate_task (t : Nat) : ∃ t' ≥ t, alternate t' = .task :=
  ⟨2 * t + 1, by omega, by unfold alternate; rw [if_neg (by omega)]⟩

theorem alternate_poll (t : Nat) : ∃ t' ≥ t, alternate t' = .poll 0 :=
  ⟨2 * t, by omega, by unfold alternate; rw [if_pos (by omega)]⟩

theorem alternate_only (t : Nat) : alternate t = .task ∨ alternate t = .poll 0 := by
  unfold alternate
  split
  · exact .inr rfl
  · exact .inl rfl

/-- A sibling that is never read does not stop a consumer while everything fits. -/
example : let c : Cfg (List Nat) := ⟨0, 2, 100, none, [.msg 1 30 [0], .msg 1 30 [1], .msg 0 30 [2]]⟩
    ∃ t, ((runFor c alternate t).chans 0).eos = true ∧ ((runFor c alternate t).chans 0).out = total c 0 := by
  intro c
  refine C72_fits_in_budget_partial c alternate (by decide) ?_ alternate_task 0 (by decide) alternate_poll ?_
  · intro t h
    rcases alternate_only t with h' | h' <;> rw [h'] at h <;> cases h
  · intro t
    induction t with
    | zero => rfl
    | succ t ih =>
      change ((step c (runFor c alternate t) (alternate t)).chans 0).inner = true
      rcases alternate_only t with h | h
      · rw [h]; exact (task_inner c _ 0).trans ih
      · rw [h]; exact (poll_inner c _ 0 0).trans ih

/-- One partition whose messages exceed the budget. -/
example : let c : Cfg (List Nat) := ⟨0, 1, 10, none, [.msg 0 30 [0], .msg 0 30 [1], .msg 0 30 [2]]⟩
    ∃ t, ((runFor c alternate t).chans 0).eos = true ∧ ((runFor c alternate t).chans 0).out = total c 0 :=
  C72_one_partition _ alternate rfl (Nat.succ_pos _) alternate_only alternate_task alternate_poll

end DD.Demux
