/-
**C70**: the order of the rows of a file scan when it is split over several tasks. This is the condition `ScaleKeepsOrder` of the
theorems in `Verif.Props.Order`, for the scale-up of file scans the project brings along.
-/
import Verif.Props.Leaf

namespace DD.Leaf

variable {α F : Type}

theorem spread_mem : ∀ (xs : List α) (groups : List (List α)) (idx : Nat) {r}, spread groups idx xs = .ok r →
    ∀ v ∈ r, ∀ x ∈ v, x ∈ xs ∨ ∃ v' ∈ groups, x ∈ v'
  | [], groups, idx, r, h, v, hv, x, hx => by cases h; exact .inr ⟨v, hv, hx⟩
  | y :: ys, groups, idx, r, h, v, hv, x, hx => by
    unfold spread pushMod at h
    split at h
    · cases h
    · rename_i h0
      rcases spread_mem ys _ _ h v hv x hx with h | ⟨v', hv', hx'⟩
      · exact .inl (List.mem_cons_of_mem _ h)
      · rcases List.mem_or_eq_of_mem_set hv' with hv' | rfl
        · exact .inr ⟨v', hv', hx'⟩
        · rcases List.mem_append.mp hx' with hx' | hx'
          · refine .inr ⟨_, ?_, hx'⟩
            rw [List.getD_eq_getElem?_getD, List.getElem?_eq_getElem (Nat.mod_lt _ (by omega))]
            exact List.getElem_mem _
          · simp at hx'; subst hx'; exact .inl (by simp)

/-- What `FileGroupPartitioner` does with `preserve_order_within_groups` (external): a new file group holds rows of one
old group, in their order. -/
def KeepsGroups (rows : F → List α) (repartition : Nat → Option (List (List F))) (groups : List (List F)) : Prop :=
  ∀ n gs, repartition n = some gs → ∀ g ∈ gs, ∃ g0 ∈ groups, (g.flatMap rows).Sublist (g0.flatMap rows)

/-- **C70** A file scan without a declared partitioning whose file groups are sorted is split into file groups that are sorted,
for every order, file layout and task count. -/
theorem C70_scaled_scan_keeps_order (R : α → α → Prop) (rows : F → List α) (repartition : Nat → Option (List (List F)))
    (groups : List (List F)) (partitionCount tasks : Nat) (hk : KeepsGroups rows repartition groups)
    (hs : ∀ g ∈ groups, (g.flatMap rows).Pairwise R) {d : DistLeaf α}
    (h : scaleUp rows false repartition groups partitionCount tasks = .ok d) :
    (∀ p ∈ d.original, p.Pairwise R) ∧ ∀ v ∈ d.variants, ∀ p ∈ v, p.Pairwise R := by
  unfold scaleUp at h
  cases hf : fileScans false repartition groups partitionCount tasks with
  | error e => rw [hf] at h; cases h
  | ok scans =>
    rw [hf] at h
    obtain ⟨e1, e2⟩ : d.original = groups.map (·.flatMap rows) ∧ d.variants = scans.map fun s => s.map (·.flatMap rows) := by
      obtain ⟨a, b, _⟩ := tryNew_inv h
      exact ⟨a, b⟩
    rw [e1, e2]
    constructor
    · intro p hp
      obtain ⟨g, hg, rfl⟩ := List.mem_map.mp hp
      exact hs g hg
    · intro v hv p hp
      obtain ⟨s, hs', rfl⟩ := List.mem_map.mp hv
      obtain ⟨g, hg, rfl⟩ := List.mem_map.mp hp
      change spread (List.replicate tasks []) 0 ((repartition (partitionCount * tasks)).getD groups) = .ok scans at hf
      rcases spread_mem _ _ _ hf s hs' g hg with hg | ⟨v', hv', hg⟩
      · cases hr : repartition (partitionCount * tasks) with
        | none => rw [hr] at hg; exact hs g hg
        | some gs =>
          rw [hr] at hg
          obtain ⟨g0, h0, hsub⟩ := hk _ gs hr g hg
          exact (hs g0 h0).sublist hsub
      · rw [List.mem_replicate] at hv'
        rw [hv'.2] at hg
        cases hg

/-- It applies: two sorted groups, cut into four pieces for two tasks. -/
example : ∃ d, scaleUp (fun f : Nat => [f, f + 1]) false (fun _ => some [[1], [5], [2], [3, 7]]) [[1, 5], [2, 3, 7]] 2 2 = .ok d
    ∧ d.variants = [[[1, 2], [2, 3]], [[5, 6], [3, 4, 7, 8]]] ∧ ∀ v ∈ d.variants, ∀ p ∈ v, p.Pairwise (· ≤ ·) := by
  refine ⟨_, rfl, rfl, (C70_scaled_scan_keeps_order (· ≤ ·) (fun f : Nat => [f, f + 1]) (fun _ => some [[1], [5], [2], [3, 7]])
    [[1, 5], [2, 3, 7]] 2 2 ?_ (by decide) rfl).2⟩
  rintro n gs ⟨⟩ g hg
  simp only [List.mem_cons, List.not_mem_nil, or_false] at hg
  rcases hg with rfl | rfl | rfl | rfl
  · exact ⟨[1, 5], by simp, by decide⟩
  · exact ⟨[1, 5], by simp, by decide⟩
  · exact ⟨[2, 3, 7], by simp, by decide⟩
  · exact ⟨[2, 3, 7], by simp, by decide⟩

/-- **C70** is false for a file scan with a declared partitioning (`output_partitioning`): its files are dealt round robin
(`/repo/src/events/defaults/file_scan_config.rs:43-52`), so that files of different groups end up in one group. Every group of this
scan is sorted; after it is split over two tasks, a partition returns 3 before 1. -/
theorem C70_scaled_scan_order_false :
    (∀ g ∈ [[3, 4, 5], [0, 1, 2]], (g.flatMap fun f : Nat => [f]).Pairwise (· ≤ ·))
    ∧ ∃ d, scaleUp (fun f : Nat => [f]) true (fun _ => none) [[3, 4, 5], [0, 1, 2]] 2 2 = .ok d
      ∧ ∃ v ∈ d.variants, [3, 1] ∈ v := by
  refine ⟨by decide, _, rfl, ?_⟩
  decide

end DD.Leaf
