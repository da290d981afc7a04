/-
**C67**: the number of partitions in the header of a stage.
-/
import Verif.Model.StageHeader
import Verif.Props.Routing

namespace DD.Display

/-- **C67** (header of a stage that is shuffled) For `M` tasks whose rows are dealt by hash to `T` consumers with `P` partitions each:
the header names the number of tasks, and the partitions `0, 1, …` up to the number it names are those that are read. -/
theorem C67_header_of_a_shuffled_stage (P M T : Nat) (hM : 0 < M) :
    (headerOf M (FanExec.headPartitions ⟨P, M⟩ T) true).1 = M
    ∧ ∀ i, i < (headerOf M (FanExec.headPartitions ⟨P, M⟩ T) true).2 ↔
      ∃ t < T, ∃ q < P, ∃ pull ∈ (FanExec.mk P M).execute ⟨t, T⟩ q, pull.partition = i := by
  refine ⟨rfl, fun i => ?_⟩
  simp only [headerOf, if_true, FanExec.headPartitions]
  constructor
  · intro hi
    have hP : 0 < P := by
      rcases Nat.eq_zero_or_pos P with h | h
      · subst h; simp at hi
      · exact h
    refine ⟨i / P, Nat.div_lt_of_lt_mul hi, i % P, Nat.mod_lt _ hP, ⟨0, P * (i / P) + i % P, P * (i / P), P * (i / P) + P⟩, ?_, ?_⟩
    · simp only [FanExec.execute, List.mem_map, List.mem_range]
      exact ⟨0, hM, rfl⟩
    · exact Nat.div_add_mod i P
  · rintro ⟨t, ht, q, hq, pull, hp, rfl⟩
    simp only [FanExec.execute, List.mem_map, List.mem_range] at hp
    obtain ⟨j, _, rfl⟩ := hp
    show P * t + q < P * T
    calc P * t + q < P * t + P := by omega
      _ = P * (t + 1) := by rw [Nat.mul_succ]
      _ ≤ P * T := Nat.mul_le_mul_left _ ht

/-- **C67** (header of a stage that is gathered) If the first node of the stage does not declare a hash partitioning, the header names
the number of tasks, and the number of partitions of all tasks, which is how many are read. -/
theorem C67_header_of_a_gathered_stage_partial (P N T : Nat) (hT : 0 < T) (e : CoalesceExec) (he : CoalesceExec.tryNew P N T = .ok e) :
    (headerOf N P false).1 = N ∧ (headerOf N P false).2 = (allReads T e.outPartitions e.execute).length := by
  obtain ⟨e', he', _, hall⟩ := C01_coalesce_exactly_once P N T hT
  obtain rfl : e' = e := by rw [he] at he'; exact (Except.ok.inj he').symm
  refine ⟨rfl, ?_⟩
  rw [hall]
  simp [headerOf, allPairs, List.length_flatMap]

/-- **C67 is false** of the header of a stage that is gathered and declares a hash partitioning, as one that ends an aggregation does:
the partitions of one task are named for the partitions of all. -/
theorem C67_header_of_a_gathered_stage_false (P N T : Nat) (hP : 0 < P) (hN : 1 < N) (hT : 0 < T) (e : CoalesceExec)
    (he : CoalesceExec.tryNew P N T = .ok e) : (headerOf N P true).2 < (allReads T e.outPartitions e.execute).length := by
  rw [← (C67_header_of_a_gathered_stage_partial P N T hT e he).2]
  simp only [headerOf, if_true, Bool.false_eq_true, if_false]
  calc P = 1 * P := (Nat.one_mul P).symm
    _ < N * P := Nat.mul_lt_mul_of_pos_right hN hP

/-- Three tasks, two consumers of four partitions: eight partitions. -/
example : headerOf 3 (FanExec.headPartitions ⟨4, 3⟩ 2) true = (3, 8) := rfl

/-- Two tasks of four partitions that are gathered: eight partitions are read, the header says four if they are hashed. -/
example : ∃ e, CoalesceExec.tryNew 4 2 1 = .ok e ∧ (allReads 1 e.outPartitions e.execute).length = 8 ∧ headerOf 2 4 false = (2, 8)
    ∧ headerOf 2 4 true = (2, 4) := ⟨_, rfl, by decide, rfl, rfl⟩

end DD.Display
