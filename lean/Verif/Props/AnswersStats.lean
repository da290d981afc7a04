/-
C98 and C59 together: the statistics a stage is replanned with, from what its samplers report.
-/
import Verif.Props.Answers
import Verif.Props.RuntimeStats
import Verif.Lemmas.Limit

namespace DD.Answers
open Spec Gather Limit

variable {M : Type} {fl : Rat → Rat} {total nCols : Nat} {leafRows : Option Nat}

/-- What the coordinator reads of the reports of the tasks of a stage after a history: the channels of the tasks,
read at the same time (`futures::stream::select_all`,
`/repo/src/coordinator/prepare_dynamic_plan.rs:232-233`). -/
def Reads (st : State Report M) (stage tasks : Nat) (rs : List Report) : Prop :=
  Interleaved ((List.range tasks).map fun i => (st.chan (stage, i)).sent) rs

/-- Everything the samplers of a stage reported is read, and nothing else, however the answers of the workers and of
other stages are mixed. -/
theorem C98_replanning_reads_all_reports (collect : Bool) (stage tasks : Nat)
    (samplers : Nat → List (Option Report)) (metrics : Nat → Option M) (l p : Nat → List (Msg Report M))
    (hl : ∀ i < tasks, Answer (samplers i) (metrics i) (l i)) (hp : ∀ i < tasks, p i <+: l i)
    (hend : ∀ i < tasks, Msg.loadInfoEos ∈ p i) (es : List (Key × Option (Msg Report M)))
    (he : ∀ i < tasks, ofTask (stage, i) es = (p i).map some) (rs : List Report)
    (hr : Reads (run collect es) stage tasks rs) :
    (∀ i < tasks, ((run collect es).chan (stage, i)).isOpen = false)
    ∧ rs.Perm ((List.range tasks).flatMap fun i => reported (samplers i)) := by
  have hc : ∀ i < tasks, (run collect es).chan (stage, i) = ⟨reported (samplers i), false⟩ := fun i hi =>
    C98_reports_do_not_wait_for_metrics collect (stage, i) (samplers i) (metrics i) (l i) (p i) (hl i hi) (hp i hi)
      (hend i hi) es (he i hi)
  refine ⟨fun i hi => by rw [hc i hi], ?_⟩
  have hperm := Merged.perm hr
  refine hperm.trans (List.Perm.of_eq ?_)
  rw [← List.flatMap_def]
  refine List.flatMap_congr fun i hi => ?_
  rw [hc i (List.mem_range.mp hi)]

/-- **C98** with **C59**: for every history, if every sampler that reported had at least `lo` rows ready, the stage is
replanned with at least `lo` rows per partition. -/
theorem C98_replanned_with_at_least_what_is_ready (hf : F32 fl) (collect : Bool) (stage tasks : Nat)
    (samplers : Nat → List (Option Report)) (metrics : Nat → Option M) (l p : Nat → List (Msg Report M))
    (hl : ∀ i < tasks, Answer (samplers i) (metrics i) (l i)) (hp : ∀ i < tasks, p i <+: l i)
    (hend : ∀ i < tasks, Msg.loadInfoEos ∈ p i) (es : List (Key × Option (Msg Report M)))
    (he : ∀ i < tasks, ofTask (stage, i) es = (p i).map some) (rs : List Report)
    (hr : Reads (run collect es) stage tasks rs) (hsome : ∃ i < tasks, ∃ r, some r ∈ samplers i)
    {lo : Nat} (hlo : ∀ i < tasks, ∀ r, some r ∈ samplers i → lo ≤ r.rows) (hb : lo * total ≤ 2 ^ 24)
    {s : Stats} (hs : gather fl total nCols leafRows rs = .ok s) : lo * total ≤ s.rows := by
  obtain ⟨-, hperm⟩ := C98_replanning_reads_all_reports collect stage tasks samplers metrics l p hl hp hend es he rs hr
  have hmem : ∀ r, r ∈ rs ↔ ∃ i < tasks, some r ∈ samplers i := by
    intro r
    rw [hperm.mem_iff, List.mem_flatMap]
    constructor
    · rintro ⟨i, hi, h⟩
      obtain ⟨x, hx, hxr⟩ := List.mem_filterMap.mp h
      exact ⟨i, List.mem_range.mp hi, by rw [id] at hxr; rwa [← hxr]⟩
    · rintro ⟨i, hi, h⟩
      exact ⟨i, List.mem_range.mpr hi, List.mem_filterMap.mpr ⟨some r, h, rfl⟩⟩
  refine C59_at_least_what_is_ready hf ?_ hs (fun r h => ?_) hb
  · obtain ⟨i, hi, r, h⟩ := hsome
    intro hnil
    have := (hmem r).mpr ⟨i, hi, h⟩
    rw [hnil] at this
    simp at this
  · obtain ⟨i, hi, h⟩ := (hmem r).mp h
    exact hlo i hi r h

/-- Finding: if all samplers of a stage were dropped before they reported, or the connections to all its workers break
before a report arrives, the stage is replanned as one that is known to have no rows (whether the query fails for the
broken connections is another matter). -/
theorem C98_no_reports_means_exactly_no_rows (collect : Bool) (stage tasks : Nat)
    (es : List (Key × Option (Msg Report M))) (he : ∀ i < tasks, ofTask (stage, i) es = [none]) (rs : List Report)
    (hr : Reads (run collect es) stage tasks rs) :
    (∀ i < tasks, ((run collect es).chan (stage, i)).isOpen = false)
    ∧ gather fl total nCols leafRows rs = .ok (zeroStats nCols) ∧ (zeroStats nCols).exact = true := by
  have hc : ∀ i < tasks, (run collect es).chan (stage, i) = ⟨[], false⟩ := by
    intro i hi
    have h := (run_task collect (stage, i) es (State.init (R := Report) (M := M))).1
    unfold run
    rw [h, he i hi]
    rfl
  refine ⟨fun i hi => by rw [hc i hi], ?_, rfl⟩
  have hperm := Merged.perm hr
  have hnil : rs = [] := by
    refine List.Perm.eq_nil (hperm.trans (List.Perm.of_eq ?_))
    rw [← List.flatMap_def, List.flatMap_eq_nil_iff]
    intro i hi
    rw [hc i (List.mem_range.mp hi)]
  rw [hnil]
  rfl

/-- Non-vacuity: two tasks with one sampler each, whose answers are mixed. -/
example : ∃ (es : List (Key × Option (Msg Report Nat))) (rs : List Report) (s : Stats),
    Reads (run true es) 3 2 rs
    ∧ (∀ i < 2, ofTask (3, i) es = [some (Msg.loadInfo ⟨5, 5, [5], [1], [0], true⟩), some .loadInfoEos])
    ∧ gather id 2 1 none rs = .ok s ∧ s.rows = 10 := by
  refine ⟨[((3, 1), some (.loadInfo ⟨5, 5, [5], [1], [0], true⟩)), ((3, 0), some (.loadInfo ⟨5, 5, [5], [1], [0], true⟩)),
      ((3, 0), some .loadInfoEos), ((3, 1), some .loadInfoEos)],
    [⟨5, 5, [5], [1], [0], true⟩, ⟨5, 5, [5], [1], [0], true⟩], ?_⟩
  have hg : ((gather id 2 1 none [⟨5, 5, [5], [1], [0], true⟩, ⟨5, 5, [5], [1], [0], true⟩]).map (·.rows)) = .ok 10 := by
    decide +kernel
  cases h : gather id 2 1 none [⟨5, 5, [5], [1], [0], true⟩, ⟨5, 5, [5], [1], [0], true⟩] with
  | error e => rw [h] at hg; cases hg
  | ok s =>
    rw [h] at hg
    refine ⟨s, ?_, ?_, rfl, by simpa [Except.map] using hg⟩
    · exact .step (i := 0) rfl (fun _ _ _ _ => trivial) (.step (i := 1) rfl (fun _ _ _ _ => trivial)
        (.done (by
          change ∀ l ∈ [([] : List Report), []], l = []
          intro l hl
          simpa using hl)))
    · intro i hi
      match i, hi with
      | 0, _ => rfl
      | 1, _ => rfl

end DD.Answers
