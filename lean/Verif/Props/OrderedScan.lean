/-
C97: scans that declare the order of their rows.
-/
import Verif.Model.OrderedScan
import Verif.Spec.OrderedScan
import Verif.Props.Leaf

namespace DD.OrderedScan
open Spec Leaf

variable {F α : Type}

theorem spread_sub (xs : List F) : ∀ (g : List (List F)) (idx : Nat) (s : List (List F)),
    spread g idx xs = .ok s → ∀ y ∈ s, ∃ y0 ∈ g, ∃ sub : List F, sub.Sublist xs ∧ y = y0 ++ sub := by
  induction xs with
  | nil =>
    intro g idx s h y hy
    simp only [spread, Except.ok.injEq] at h
    subst h
    exact ⟨y, hy, [], List.Sublist.refl _, by simp⟩
  | cons x xs ih =>
    intro g idx s h y hy
    simp only [spread, pushMod] at h
    by_cases hg : g.length = 0
    · rw [if_pos hg] at h
      exact absurd h (by intro h; cases h)
    · rw [if_neg hg] at h
      have hi : idx % g.length < g.length := Nat.mod_lt _ (by omega)
      obtain ⟨y0, h0, sub, hsub, rfl⟩ := ih _ _ s h y hy
      rcases List.mem_or_eq_of_mem_set h0 with h0 | rfl
      · exact ⟨y0, h0, sub, hsub.cons x, rfl⟩
      · refine ⟨g.getD (idx % g.length) [], ?_, x :: sub, hsub.cons_cons x, by simp⟩
        rw [List.getD_eq_getElem?_getD, List.getElem?_eq_getElem hi]
        exact List.getElem_mem hi

theorem fileScans_parts (declared : Bool) (cut : Nat → Option (List (List F))) (groups : List (List F))
    (partitionCount tasks : Nat) (s : List (List (List F)))
    (h : fileScans declared cut groups partitionCount tasks = .ok s) :
    ∃ rb, (if declared then rebalanceRoundRobin groups.flatten (partitionCount * tasks)
        else .ok ((cut (partitionCount * tasks)).getD groups)) = .ok rb
      ∧ spread (List.replicate tasks []) 0 rb = .ok s := by
  unfold fileScans at h
  cases declared with
  | false => exact ⟨_, rfl, h⟩
  | true =>
    change (rebalanceRoundRobin groups.flatten (partitionCount * tasks) >>= fun rebalanced =>
      spread (List.replicate tasks []) 0 rebalanced) = _ at h
    rw [if_pos rfl]
    cases he : rebalanceRoundRobin groups.flatten (partitionCount * tasks) with
    | error e =>
      rw [he] at h
      exact absurd h (by intro h; cases h)
    | ok rb =>
      rw [he] at h
      exact ⟨rb, rfl, h⟩

/-- Every partition of every task is one of the regrouped file groups. -/
theorem scan_parts (rows : F → List α) (declared ordered : Bool) (cut : Bool → Nat → Option (List (List F)))
    (groups : List (List F)) (partitionCount tasks : Nat) (d : DistLeaf α)
    (hd : scan rows declared ordered cut groups partitionCount tasks = .ok d) :
    d.original = groups.map (·.flatMap rows) ∧
    ∃ rb, (if declared then rebalanceRoundRobin groups.flatten (partitionCount * tasks)
        else .ok ((cut ordered (partitionCount * tasks)).getD groups)) = .ok rb
      ∧ ∀ v ∈ d.variants, ∀ p ∈ v, ∃ g ∈ rb, p = g.flatMap rows := by
  unfold scan scaleUp at hd
  cases hf : fileScans declared (cut ordered) groups partitionCount tasks with
  | error e =>
    rw [hf] at hd
    exact absurd hd (by intro h; cases h)
  | ok s =>
    rw [hf] at hd
    change DistLeaf.tryNew _ _ = _ at hd
    have hv : d.original = groups.map (·.flatMap rows)
        ∧ d.variants = s.map fun x => x.map (·.flatMap rows) := by
      unfold DistLeaf.tryNew at hd
      split at hd
      · simp at hd
      · rename_i v vs hvs
        split at hd
        · simp only [Except.ok.injEq] at hd
          rw [← hd]; exact ⟨rfl, hvs.symm⟩
        · simp at hd
    obtain ⟨rb, h1, h2⟩ := fileScans_parts _ _ _ _ _ s hf
    refine ⟨hv.1, rb, h1, fun v hvm p hp => ?_⟩
    rw [hv.2] at hvm
    obtain ⟨x, hx, rfl⟩ := List.mem_map.mp hvm
    obtain ⟨g, hg, rfl⟩ := List.mem_map.mp hp
    obtain ⟨y0, hy0, sub, hsub, rfl⟩ := spread_sub rb _ _ s h2 x hx
    rw [(List.mem_replicate.mp hy0).2, List.nil_append] at hg
    exact ⟨g, hsub.subset hg, rfl⟩

/-- What a task returns is one of the original partitions or one of a variant. -/
theorem execute_mem (d : DistLeaf α) (ctx : TaskCtx) (p : Nat) (out : List α) (h : d.execute ctx p = .ok out) :
    out ∈ d.original ∨ ∃ v ∈ d.variants, out ∈ v := by
  have hleaf : ∀ ps : Parts α, execLeaf ps p = .ok out → out ∈ ps := by
    intro ps h
    unfold execLeaf at h
    split at h
    · rename_i r hr
      simp only [Except.ok.injEq] at h
      subst h
      exact List.mem_of_getElem? hr
    · simp at h
  unfold DistLeaf.execute at h
  split at h
  · exact .inl (hleaf _ h)
  · split at h
    · simp at h
    · rename_i v hv
      exact .inr ⟨v, List.mem_of_getElem? hv, hleaf _ h⟩

/-! ### C97 -/

/-- Contract of DataFusion's `FileGroupPartitioner` when it is told to preserve order (external): every group it
makes is a part of one of the groups it was given. -/
def KeepsOrder (rows : F → List α) (cut : Bool → Nat → Option (List (List F))) (groups : List (List F)) : Prop :=
  ∀ target r, cut true target = some r → ∀ g ∈ r, ∃ g0 ∈ groups, (g.flatMap rows) <:+: (g0.flatMap rows)

/-- **C97**, scans without a declared partitioning: if every partition of the scan is in the declared order, then
so is everything any task returns for any of its partitions, for every number of tasks. -/
theorem C97_in_order_partial (le : α → α → Prop) (rows : F → List α)
    (cut : Bool → Nat → Option (List (List F))) (groups : List (List F)) (partitionCount tasks : Nat)
    (d : DistLeaf α) (hk : KeepsOrder rows cut groups) (hs : ScanInOrder le rows groups)
    (hd : scan rows false true cut groups partitionCount tasks = .ok d)
    (ctx : TaskCtx) (p : Nat) (out : List α) (ho : d.execute ctx p = .ok out) : InOrder le out := by
  obtain ⟨h0, rb, h1, h2⟩ := scan_parts _ _ _ _ _ _ _ d hd
  have hrb : ∀ g ∈ rb, InOrder le (g.flatMap rows) := by
    simp only [Bool.false_eq_true, if_false, Except.ok.injEq] at h1
    intro g hg
    cases hc : cut true (partitionCount * tasks) with
    | none =>
      rw [hc] at h1
      exact hs g (by rw [← h1] at hg; exact hg)
    | some r =>
      rw [hc] at h1
      obtain ⟨g0, hg0, hin⟩ := hk _ r hc g (by rw [← h1] at hg; exact hg)
      exact (hs g0 hg0).sublist hin.sublist
  rcases execute_mem d ctx p out ho with h | ⟨v, hv, h⟩
  · rw [h0] at h
    obtain ⟨g, hg, rfl⟩ := List.mem_map.mp h
    exact hs g hg
  · obtain ⟨g, hg, rfl⟩ := h2 v hv out h
    exact hrb g hg

/-- **C97**, scans with a declared partitioning and no more files than partitions of all tasks together: every
partition of a task is at most one file, so it is in order. -/
theorem C97_declared_few_files_partial (le : α → α → Prop) (rows : F → List α)
    (cut : Bool → Nat → Option (List (List F))) (ordered : Bool) (groups : List (List F))
    (partitionCount tasks : Nat) (d : DistLeaf α) (hs : ScanInOrder le rows groups)
    (hfew : groups.flatten.length ≤ partitionCount * tasks)
    (hd : scan rows true ordered cut groups partitionCount tasks = .ok d)
    (ctx : TaskCtx) (p : Nat) (out : List α) (ho : d.execute ctx p = .ok out) : InOrder le out := by
  obtain ⟨h0, rb, h1, h2⟩ := scan_parts _ _ _ _ _ _ _ d hd
  rw [if_pos rfl] at h1
  rcases execute_mem d ctx p out ho with h | ⟨v, hv, h⟩
  · rw [h0] at h
    obtain ⟨g, hg, rfl⟩ := List.mem_map.mp h
    exact hs g hg
  · obtain ⟨g, hg, rfl⟩ := h2 v hv out h
    have hlen : g.length ≤ 1 := by
      unfold rebalanceRoundRobin at h1
      by_cases hf : groups.flatten = []
      · rw [hf] at h1
        simp only [spread, Except.ok.injEq] at h1
        rw [← h1] at hg
        rw [(List.mem_replicate.mp hg).2]
        simp
      · have hpos : 0 < partitionCount * tasks := by
          have := List.length_pos_iff.mpr hf
          omega
        obtain ⟨r, r1, r2, -, r4⟩ := spread_ok groups.flatten (List.replicate (partitionCount * tasks) []) 0
          (.inr (by simpa using hpos))
        rw [h1] at r1
        simp only [Except.ok.injEq] at r1
        subst r1
        obtain ⟨j, hj, rfl⟩ := List.getElem_of_mem hg
        have hj' : j < partitionCount * tasks := by rw [r2, List.length_replicate] at hj; exact hj
        have := r4 j (by simpa using hj')
        rw [List.length_replicate, hits_eq _ _ _ hpos hj'] at this
        rw [List.getD_eq_getElem?_getD, List.getElem?_eq_getElem hj] at this
        simp only [Option.getD_some] at this
        rw [this]
        have hnil : ((List.replicate (partitionCount * tasks) ([] : List F)).getD j []).length = 0 := by
          rw [List.getD_eq_getElem?_getD, List.getElem?_replicate]
          split <;> rfl
        rw [hnil]
        rcases Nat.lt_or_eq_of_le hfew with hlt | heq
        · rw [Nat.div_eq_of_lt hlt]
          split <;> omega
        · rw [heq, Nat.div_self hpos, Nat.mod_self]
          simp
    have hmem : ∀ f ∈ g, f ∈ groups.flatten := by
      intro f hf
      obtain ⟨y0, hy0, sub, hsub, rfl⟩ := spread_sub groups.flatten _ _ rb h1 g hg
      rw [(List.mem_replicate.mp hy0).2, List.nil_append] at hf
      exact hsub.subset hf
    match g, hlen, hmem with
    | [], _, _ => exact List.Pairwise.nil
    | [f], _, hmem =>
      obtain ⟨g0, hg0, hf⟩ := List.mem_flatten.mp (hmem f List.mem_cons_self)
      have : (rows f).Sublist (g0.flatMap rows) := by
        rw [List.flatMap]
        exact List.sublist_flatten_of_mem (List.mem_map.mpr ⟨f, hf, rfl⟩)
      simpa [InOrder] using (hs g0 hg0).sublist this

/-- **C97**, scans with a declared partitioning whose files are in order across all partitions: files are dealt
out in their order, so every partition of every task is in order. -/
theorem C97_declared_files_in_order_partial (le : α → α → Prop) (rows : F → List α)
    (cut : Bool → Nat → Option (List (List F))) (ordered : Bool) (groups : List (List F))
    (partitionCount tasks : Nat) (d : DistLeaf α) (hs : InOrder le (groups.flatten.flatMap rows))
    (hd : scan rows true ordered cut groups partitionCount tasks = .ok d)
    (ctx : TaskCtx) (p : Nat) (out : List α) (ho : d.execute ctx p = .ok out) : InOrder le out := by
  have hsub : ∀ a b : List F, a.Sublist b → (a.flatMap rows).Sublist (b.flatMap rows) := by
    intro a b h
    induction h with
    | slnil => exact List.Sublist.refl _
    | cons x _ ih => exact ih.trans (List.sublist_append_right _ _)
    | cons_cons x _ ih => exact (List.Sublist.refl (rows x)).append ih
  obtain ⟨h0, rb, h1, h2⟩ := scan_parts _ _ _ _ _ _ _ d hd
  rw [if_pos rfl] at h1
  rcases execute_mem d ctx p out ho with h | ⟨v, hv, h⟩
  · rw [h0] at h
    obtain ⟨g, hg, rfl⟩ := List.mem_map.mp h
    exact hs.sublist (hsub _ _ (List.sublist_flatten_of_mem hg))
  · obtain ⟨g, hg, rfl⟩ := h2 v hv out h
    obtain ⟨y0, hy0, sub, hss, rfl⟩ := spread_sub groups.flatten _ _ rb h1 g hg
    rw [(List.mem_replicate.mp hy0).2, List.nil_append]
    exact hs.sublist (hsub _ _ hss)

/-- Finding (**C97** does not hold for scans with a declared partitioning): a scan of two partitions of three
files each, both in ascending order, on two tasks of two partitions. The first partition of the first task is the
first file of the first partition followed by the second file of the second one, and is not in order. -/
theorem C97_false :
    ScanInOrder (· ≤ ·) (fun f : Nat => [f]) [[5, 6, 7], [1, 2, 3]]
    ∧ ∃ d, scan (fun f : Nat => [f]) true true (fun _ _ => none) [[5, 6, 7], [1, 2, 3]] 2 2 = .ok d
      ∧ d.execute ⟨0, 2⟩ 0 = .ok [5, 2] ∧ ¬ InOrder (· ≤ ·) [5, 2] := by
  refine ⟨?_, ⟨[[5, 6, 7], [1, 2, 3]], 2, [[[5, 2], [7]], [[6, 3], [1]]]⟩, rfl, rfl, ?_⟩
  · unfold ScanInOrder InOrder
    decide +kernel
  · unfold InOrder
    decide +kernel

/-- Non-vacuity of `C97_in_order_partial`: two partitions in order, each cut in two by a partitioner that keeps
the order, on two tasks. -/
example : KeepsOrder (fun f : Nat => [f, f + 1])
      (fun keep _ => if keep then some [[1], [3], [2], [7]] else some [[3, 1], [7, 2]]) [[1, 3], [2, 7]]
    ∧ ScanInOrder (· ≤ ·) (fun f : Nat => [f, f + 1]) [[1, 3], [2, 7]]
    ∧ ∃ d, scan (fun f : Nat => [f, f + 1]) false true
        (fun keep _ => if keep then some [[1], [3], [2], [7]] else some [[3, 1], [7, 2]]) [[1, 3], [2, 7]] 2 2
        = .ok d ∧ d.execute ⟨1, 2⟩ 1 = .ok [7, 8] := by
  refine ⟨?_, ?_, ⟨[[1, 2, 3, 4], [2, 3, 7, 8]], 2, [[[1, 2], [2, 3]], [[3, 4], [7, 8]]]⟩, rfl, rfl⟩
  · intro target r hr g hg
    simp only [if_true, Option.some.injEq] at hr
    subst hr
    revert hg
    revert g
    decide +kernel
  · unfold ScanInOrder InOrder
    decide +kernel

/-- Non-vacuity of the two theorems on declared partitionings. -/
example : ScanInOrder (· ≤ ·) (fun f : Nat => [f, f]) [[3, 4], [1]]
    ∧ [[3, 4], [1]].flatten.length ≤ 2 * 2
    ∧ InOrder (· ≤ ·) ([[1, 2], [3, 4, 5]].flatten.flatMap fun f : Nat => [f, f])
    ∧ (∃ d, scan (fun f : Nat => [f, f]) true true (fun _ _ => none) [[3, 4], [1]] 2 2 = .ok d
        ∧ d.execute ⟨0, 2⟩ 1 = .ok [1, 1])
    ∧ ∃ d, scan (fun f : Nat => [f, f]) true true (fun _ _ => none) [[1, 2], [3, 4, 5]] 2 2 = .ok d
        ∧ d.execute ⟨0, 2⟩ 0 = .ok [1, 1, 5, 5] := by
  refine ⟨?_, by decide, ?_, ⟨⟨[[3, 3, 4, 4], [1, 1]], 2, [[[3, 3], [1, 1]], [[4, 4], []]]⟩, rfl, rfl⟩,
    ⟨⟨[[1, 1, 2, 2], [3, 3, 4, 4, 5, 5]], 2, [[[1, 1, 5, 5], [3, 3]], [[2, 2], [4, 4]]]⟩, rfl, rfl⟩⟩
  · unfold ScanInOrder InOrder
    decide +kernel
  · unfold InOrder
    decide +kernel

end DD.OrderedScan
