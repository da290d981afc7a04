import Verif.Model.Boundary
import Verif.Lemmas.Lists
/- Helper lemmas about task groups and offsets. -/
namespace DD

theorem taskGroup_start_succ (n t i : Nat) (ht : 0 < t) :
    (taskGroup n (i+1) t).start = (taskGroup n i t).start + (taskGroup n i t).len := by
  simp only [taskGroup, Nat.ne_of_gt ht, if_false]
  rw [Nat.succ_mul]
  split <;> omega

theorem taskGroup_start_zero (n t : Nat) : (taskGroup n 0 t).start = 0 := by
  simp only [taskGroup]; split <;> simp

theorem taskGroup_start_last (n t : Nat) (ht : 0 < t) : (taskGroup n t t).start = n := by
  simp only [taskGroup, Nat.ne_of_gt ht, if_false]
  have h1 := Nat.mod_lt n ht
  have h2 := Nat.div_add_mod n t
  rw [Nat.min_eq_right (by omega)]
  omega

theorem taskGroup_len_le (n t i : Nat) : (taskGroup n i t).len ≤ (taskGroup n i t).maxLen := by
  simp only [taskGroup]
  split
  · simp
  · show _ + _ ≤ _ + _
    split <;> split <;> omega

theorem divCeil_eq (n t : Nat) (ht : 0 < t) :
    divCeil n t = n / t + (if 0 < n % t then 1 else 0) := by
  unfold divCeil
  have h2 := Nat.div_add_mod n t
  have h1 := Nat.mod_lt n ht
  split
  · rename_i h
    have : n + t - 1 = t * (n / t + 1) + (n % t - 1) := by rw [Nat.mul_succ]; omega
    have h3 : (n % t - 1) / t = 0 := Nat.div_eq_of_lt (by omega)
    rw [this, Nat.mul_add_div ht, h3]
  · rename_i h
    have : n + t - 1 = t * (n / t) + (t - 1) := by omega
    have h3 : (t - 1) / t = 0 := Nat.div_eq_of_lt (by omega)
    rw [this, Nat.mul_add_div ht, h3]

theorem taskGroup_maxLen (n t i : Nat) (ht : 0 < t) : (taskGroup n i t).maxLen = divCeil n t := by
  rw [divCeil_eq n t ht]
  simp [taskGroup, Nat.ne_of_gt ht]

theorem taskGroup_flatten (n t k : Nat) (ht : 0 < t) :
    (List.range k).flatMap (fun i => (List.range (taskGroup n i t).len).map ((taskGroup n i t).start + ·))
      = List.range (taskGroup n k t).start := by
  induction k with
  | zero => simp [taskGroup_start_zero]
  | succ k ih =>
    rw [List.range_succ, List.flatMap_append, ih, taskGroup_start_succ n t k ht, List.range_add]
    simp

/-- What one output partition of a correctly sized coalesce pulls. -/
theorem coalesce_execute_eq (P N T i o p : Nat) (hi : i < T) (hp : p < P) :
    (CoalesceExec.mk (P * max (divCeil N T) 1) N).execute ⟨i, T⟩ (P * o + p)
      = .ok (if o < (taskGroup N i T).len then [⟨(taskGroup N i T).start + o, p, 0, P⟩] else []) := by
  have hP : 0 < P := by omega
  have hT : 0 < T := by omega
  have hm : 0 < max (divCeil N T) 1 := by omega
  unfold CoalesceExec.execute
  simp only [ge_iff_le]
  rw [if_neg (by omega), Nat.mul_div_cancel _ hm, if_neg (by omega)]
  have h1 : (P * o + p) / P = o := by
    rw [Nat.mul_add_div hP, Nat.div_eq_of_lt hp]; omega
  have h2 : (P * o + p) % P = p := by
    rw [Nat.mul_add_mod, Nat.mod_eq_of_lt hp]
  rw [h1, h2]
  have h3 := taskGroup_len_le N T i
  by_cases h : o < (taskGroup N i T).len
  · rw [if_neg (by omega), if_neg (by omega), if_pos h]
  · rw [if_pos (by omega), if_neg h]

theorem coalesce_task_reads (P N T i : Nat) (hi : i < T) {α} (g : Except Err (List Pull) → List α)
    (hg : g (.ok []) = []) :
    (List.range (P * max (divCeil N T) 1)).flatMap
        (fun q => g ((CoalesceExec.mk (P * max (divCeil N T) 1) N).execute ⟨i, T⟩ q))
      = (List.range (taskGroup N i T).len).flatMap fun o => (List.range P).flatMap fun p =>
          g (.ok [⟨(taskGroup N i T).start + o, p, 0, P⟩]) := by
  have hT : 0 < T := by omega
  rw [range_mul_flatMap]
  have hlen : (taskGroup N i T).len ≤ max (divCeil N T) 1 := by
    have := taskGroup_len_le N T i
    rw [taskGroup_maxLen N T i hT] at this
    omega
  rw [← range_flatMap_guard _ _ hlen]
  apply flatMap_congr'
  intro o _
  by_cases ho : o < (taskGroup N i T).len
  · rw [if_pos ho]
    apply flatMap_congr'
    intro p hp
    rw [coalesce_execute_eq P N T i o p hi (List.mem_range.mp hp), if_pos ho]
  · rw [if_neg ho]
    refine (flatMap_congr' (g := fun _ => []) ?_).trans (flatMap_nil' _)
    intro p hp
    rw [coalesce_execute_eq P N T i o p hi (List.mem_range.mp hp), if_neg ho, hg]

/-- Running a broadcast producer never turns a caller away while no real partition is asked for more often than it
has consumers left. -/
theorem broadcast_run_ok (b : BroadcastExec) (hb : 0 < b.inputPartitions) (calls : List Nat) (st : BroadcastSt)
    (h : ∀ r, (calls.filter (fun p => p % b.inputPartitions = r)).length ≤ (st r).getD b.consumerTasks) :
    (b.run st calls).2 = calls.map fun p => .ok (p % b.inputPartitions) := by
  induction calls generalizing st with
  | nil => rfl
  | cons p ps ih =>
    unfold BroadcastExec.run BroadcastExec.execute
    rw [if_neg (by omega)]
    have hp := h (p % b.inputPartitions)
    simp only [List.filter_cons, decide_true, if_true, List.length_cons] at hp
    obtain ⟨n, hn⟩ : ∃ n, (st (p % b.inputPartitions)).getD b.consumerTasks = n + 1 :=
      ⟨_, (Nat.succ_pred_eq_of_pos (by omega)).symm⟩
    simp only [hn, List.map_cons]
    congr 1
    apply ih
    intro r
    by_cases hr : r = p % b.inputPartitions
    · subst hr
      simp only [if_true, Option.getD_some]
      omega
    · have := h r
      rw [if_neg hr]
      rw [List.filter_cons, if_neg (by simpa using fun h => hr h.symm)] at this
      exact this

/-- Which answer a call of a broadcast producer gets depends only on how many calls for the same real partition came before it. -/
theorem broadcast_run_get (b : BroadcastExec) (hb : 0 < b.inputPartitions) (calls : List Nat) (st : BroadcastSt) (k p : Nat)
    (hk : calls[k]? = some p) :
    (b.run st calls).2[k]? = some (if ((calls.take k).filter (fun q => q % b.inputPartitions = p % b.inputPartitions)).length
        < (st (p % b.inputPartitions)).getD b.consumerTasks then .ok (p % b.inputPartitions)
      else .error (.internal "Too many consumers")) := by
  induction calls generalizing st k with
  | nil => simp at hk
  | cons q qs ih =>
    unfold BroadcastExec.run BroadcastExec.execute
    rw [if_neg (by omega)]
    cases k with
    | zero =>
      obtain rfl : q = p := by simpa using hk
      simp only [List.getElem?_cons_zero, List.take_zero, List.filter_nil, List.length_nil]
      split
      · rename_i h; simp [h]
      · rename_i n h; simp [h]
    | succ k =>
      simp only [List.getElem?_cons_succ] at hk ⊢
      rw [ih _ k hk, List.take_succ_cons, List.filter_cons]
      by_cases hr : q % b.inputPartitions = p % b.inputPartitions
      · simp only [hr, decide_true, if_true, List.length_cons]
        split
        · rename_i h; simp [h]
        · rename_i n h; simp [h]
      · simp only [hr, decide_false, Bool.false_eq_true, if_false]
        split <;> simp only [if_neg (fun e => hr (Eq.symm e))]

end DD
