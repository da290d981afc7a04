/-
C14-C16: isolated unions. C52: largest-remainder fairness. C53: rewriting keeps the assignment.
-/
import Verif.Lemmas.Union
import Mathlib.Data.List.Nodup

namespace DD.Union

/-! ### Specification -/

/-- An input `split_children` accepts. -/
structure Accepted (ws : List ChildWeight) (budget : Nat) : Prop where
  budget : 0 < budget
  children : ws ≠ []
  caps : ∀ w ∈ ws, w.max ≠ some 0
  weights : ∀ w ∈ ws, 0 ≤ w.weight

/-- All the child tasks of `n` children, child `c` running `k c` tasks: one entry per child task, with
its index and its count. -/
def childTasks (n : Nat) (k : Nat → Nat) : List Entry :=
  (List.range n).flatMap fun c => (List.range (k c)).map fun i => (c, ⟨i, k c⟩)

/-- `m` runs each task of each of the `n` children exactly once, where child `c` has `k c ≥ 1` tasks. -/
def RunsAll (n : Nat) (k : Nat → Nat) (m : TaskMap) : Prop :=
  (∀ c < n, 1 ≤ k c) ∧ m.flatten.Perm (childTasks n k)

/-- No task runs two tasks of the same child. -/
def OncePerTask (m : TaskMap) : Prop := ∀ es ∈ m, (es.map (·.1)).Nodup

/-- The proportional share of child `c`. -/
def share (ws : List ChildWeight) (budget c : Nat) : Rat :=
  if 0 < (ws.map (·.weight)).sum
  then (budget : Rat) * ((ws.map (·.weight)).getD c 0) / (ws.map (·.weight)).sum
  else (budget : Rat) / (ws.length : Rat)

/-! ### Helpers -/

theorem mem_childTasks {n : Nat} {k : Nat → Nat} {c : Nat} {x : TaskCtx} :
    (c, x) ∈ childTasks n k ↔ c < n ∧ x.index < k c ∧ x.count = k c := by
  obtain ⟨i, j⟩ := x
  simp only [childTasks, List.mem_flatMap, List.mem_range, List.mem_map, Prod.mk.injEq,
    TaskCtx.mk.injEq]
  constructor
  · rintro ⟨a, ha, b, hb, rfl, rfl, rfl⟩; exact ⟨ha, hb, rfl⟩
  · rintro ⟨h1, h2, rfl⟩; exact ⟨c, h1, i, h2, rfl, rfl, rfl⟩

theorem childTasks_congr {n : Nat} {k k' : Nat → Nat} (h : ∀ c < n, k c = k' c) :
    childTasks n k = childTasks n k' := by
  unfold childTasks
  rw [List.flatMap_congr]
  intro c hc
  rw [h c (List.mem_range.mp hc)]

theorem RunsAll.unique {n : Nat} {k k' : Nat → Nat} {m : TaskMap} (h : RunsAll n k m)
    (h' : RunsAll n k' m) : ∀ c < n, k c = k' c := by
  intro c hc
  have : ((c, ⟨0, k c⟩) : Entry) ∈ childTasks n k := mem_childTasks.mpr ⟨hc, h.1 c hc, rfl⟩
  have := h'.2.mem_iff.mp (h.2.mem_iff.mpr this)
  exact (mem_childTasks.mp this).2.2

theorem split_spec {ws : List ChildWeight} {budget : Nat} (h : Accepted ws budget) :
    ∃ m, split ws budget = .ok m ∧ m.length = budget
      ∧ RunsAll ws.length
          (fun c => max 1 ((taskCounts (shares ws budget) (ws.map (·.max)) budget).getD c 0)) m
      ∧ ∀ t < budget, m.getD t [] = [] →
          (taskCounts (shares ws budget) (ws.map (·.max)) budget).sum ≠ budget := by
  obtain ⟨m, h1, h2, h3, h4⟩ := splitWith_spec (shares ws budget) ws budget (shares_length ..)
    (shares_fit ws budget h.children h.weights) h.budget h.children h.caps h.weights
  exact ⟨m, h1, h2, ⟨fun c _ => Nat.le_max_left .., h3⟩, h4⟩

/-! ### C14 -/

/-- **C14.** Every accepted input is given an assignment with exactly one slot per task, in which each
child gets at least one task and each of its tasks is run by exactly one slot, knowing its index and how
many siblings it has. -/
theorem C14_every_child_task_once (ws : List ChildWeight) (budget : Nat) (h : Accepted ws budget) :
    ∃ m k, split ws budget = .ok m ∧ m.length = budget ∧ RunsAll ws.length k m := by
  obtain ⟨m, h1, h2, h3, _⟩ := split_spec h
  exact ⟨m, _, h1, h2, h3⟩

/-- **C14** for the floating-point shares of the code: whatever the rounding of the shares, as long as
their whole parts fit in the budget, the same holds. (The code computes them in `f64`; a sum of whole
parts above the budget needs relative errors of `1/budget`.) -/
theorem C14_any_rounding (sh : List Rat) (ws : List ChildWeight) (budget : Nat) (h : Accepted ws budget)
    (hlen : sh.length = ws.length)
    (hfit : (List.zipWith floorCap sh (ws.map (·.max))).sum ≤ budget) :
    ∃ m k, splitWith sh ws budget = .ok m ∧ m.length = budget ∧ RunsAll ws.length k m := by
  obtain ⟨m, h1, h2, h3, _⟩ := splitWith_spec sh ws budget hlen hfit h.budget h.children h.caps h.weights
  exact ⟨m, _, h1, h2, fun c _ => Nat.le_max_left .., h3⟩

theorem placeZeros_once (T : Nat) : ∀ (cs : List Nat) (m : TaskMap) (z : Nat) (r : TaskMap), cs.Nodup →
    (∀ c ∈ cs, ∀ es ∈ m, c ∉ es.map (·.1)) → OncePerTask m → placeZeros T m z cs = .ok r → OncePerTask r
  | [], m, z, r, _, _, hm, h => by cases h; exact hm
  | c :: cs, m, z, r, hd, hc, hm, h => by
    rw [List.nodup_cons] at hd
    unfold placeZeros at h
    cases hg : m[z % T]? with
    | none =>
      have : pushAt m (z % T) (c, ⟨0, 1⟩) = .error (.panic "index out of bounds") := by unfold pushAt; rw [hg]
      rw [this] at h; cases h
    | some l =>
      have hp : pushAt m (z % T) (c, ⟨0, 1⟩) = .ok (m.set (z % T) (l ++ [(c, ⟨0, 1⟩)])) := by unfold pushAt; rw [hg]
      rw [hp] at h
      have hl := List.mem_of_getElem? hg
      refine placeZeros_once T cs _ (z + 1) r hd.2 ?_ ?_ h
      · intro c' hc' es hes
        rcases List.mem_or_eq_of_mem_set hes with hes | rfl
        · exact hc c' (by simp [hc']) es hes
        · rw [List.map_append, List.mem_append, not_or]
          refine ⟨hc c' (by simp [hc']) l hl, ?_⟩
          simp only [List.map_cons, List.map_nil, List.mem_singleton]
          rintro rfl
          exact hd.1 hc'
      · intro es hes
        rcases List.mem_or_eq_of_mem_set hes with hes | rfl
        · exact hm es hes
        · rw [List.map_append, List.nodup_append]
          refine ⟨hm l hl, by simp, ?_⟩
          intro a ha b hb
          simp only [List.map_cons, List.map_nil, List.mem_singleton] at hb
          subst hb
          rintro rfl
          exact hc a (by simp) l hl ha

/-- **C14** No task is given two tasks of the same child. -/
theorem C14_no_child_twice (ws : List ChildWeight) (budget : Nat) (m : TaskMap) (h : split ws budget = .ok m) :
    OncePerTask m := by
  have hacc : Accepted ws budget := by
    apply Classical.byContradiction
    intro hn
    unfold split splitWith at h
    split at h
    · cases h
    split at h
    · cases h
    split at h
    · cases h
    split at h
    · cases h
    rename_i h1 h2 h3 h4
    refine hn ⟨by omega, by simpa using h2, ?_, ?_⟩
    · intro w hw he
      exact h3 (List.any_eq_true.mpr ⟨w, hw, by simp [he]⟩)
    · intro w hw
      by_contra hlt
      exact h4 (List.any_eq_true.mpr ⟨w, hw, by simpa using hlt⟩)
  have hfit := shares_fit ws budget hacc.children hacc.weights
  have hl : (shares ws budget).length = (ws.map (·.max)).length := by simp [shares_length]
  obtain ⟨h1, h2, _, _, _⟩ := taskCounts_spec (shares ws budget) (ws.map (·.max)) budget hl hfit
  unfold split splitWith at h
  rw [if_neg (by have := hacc.budget; omega), if_neg (by simpa using hacc.children), if_neg, if_neg] at h
  rotate_left
  · simp only [List.any_eq_true, decide_eq_true_eq, not_exists, not_and]
    exact fun w hw hlt => absurd (hacc.weights w hw) (by simpa using hlt)
  · simp only [List.any_eq_true, beq_iff_eq, not_exists, not_and]
    exact fun w hw => hacc.caps w hw
  generalize hk : taskCounts (shares ws budget) (ws.map (·.max)) budget = k at *
  have hlay := layOut_ok (laidOut k) [] budget (by rw [laidOut_length]; exact h2)
  simp only [List.nil_append, List.length_nil, Nat.zero_add] at hlay
  simp only [hlay] at h
  have hone : OncePerTask ((laidOut k).map (fun e => [e]) ++ List.replicate (budget - (laidOut k).length) []) := by
    intro es hes
    rw [List.mem_append] at hes
    rcases hes with hes | hes
    · obtain ⟨e, _, rfl⟩ := List.mem_map.mp hes
      simp
    · rw [(List.mem_replicate.mp hes).2]; simp
  change (if 0 < (laidOut k).length then _ else _) = _ at h
  split at h
  · refine placeZeros_once _ _ _ _ _ ?_ ?_ hone h
    · rw [zeros_eq]
      exact List.nodup_range.filter _
    · intro c hc es hes
      rw [zeros_eq, List.mem_filter] at hc
      rw [List.mem_append] at hes
      rcases hes with hes | hes
      · obtain ⟨e, he, rfl⟩ := List.mem_map.mp hes
        rw [laidOut_eq] at he
        simp only [List.mem_flatMap, List.mem_map, List.mem_range] at he
        obtain ⟨c', _, i, hi, rfl⟩ := he
        simp only [List.map_cons, List.map_nil, List.mem_singleton]
        rintro rfl
        have := hc.2
        simp only [beq_iff_eq] at this
        omega
      · rw [(List.mem_replicate.mp hes).2]; simp
  · cases h; exact hone

/-- `childTasks` has no duplicates, so "permutation of it" does mean "exactly once". -/
theorem childTasks_nodup (n : Nat) (k : Nat → Nat) : (childTasks n k).Nodup := by
  unfold childTasks
  rw [List.nodup_flatMap]
  refine ⟨fun c _ => ?_, ?_⟩
  · refine List.Nodup.map ?_ List.nodup_range
    intro a b hab
    simp only [Prod.mk.injEq, TaskCtx.mk.injEq, and_true, true_and] at hab
    exact hab
  · refine List.Pairwise.imp ?_ (List.nodup_range (n := n))
    intro a b hab
    simp only [Function.onFun, List.disjoint_left, List.mem_map, not_exists, not_and]
    rintro _ ⟨i, _, rfl⟩ j _ hj
    exact hab (by simp only [Prod.mk.injEq] at hj; exact hj.1.symm)

/-- Inputs that are not accepted are errors, never a partial assignment. -/
theorem C14_rejected (ws : List ChildWeight) (budget : Nat) (h : ¬ Accepted ws budget) :
    ∃ e, split ws budget = .error e := by
  unfold split splitWith
  by_cases h1 : budget = 0
  · exact ⟨_, if_pos h1⟩
  rw [if_neg h1]
  by_cases h2 : ws.isEmpty = true
  · exact ⟨_, if_pos h2⟩
  rw [if_neg h2]
  by_cases h3 : (ws.any fun w => w.max == some 0) = true
  · exact ⟨_, if_pos h3⟩
  rw [if_neg h3]
  by_cases h4 : (ws.any fun w => decide (w.weight < 0)) = true
  · exact ⟨_, if_pos h4⟩
  exfalso
  refine h ⟨by omega, by simpa using h2, fun w hw hc => h3 ?_, fun w hw => ?_⟩
  · exact List.any_eq_true.mpr ⟨w, hw, by simp [hc]⟩
  · apply Classical.byContradiction
    intro hn
    exact h4 (List.any_eq_true.mpr ⟨w, hw, by simpa using hn⟩)

/-- Non-vacuity: the two running examples of the source (children_isolator_union.rs:488-490). -/
example : split [.desired 10, .desired 1, .desired 1] 3
    = .ok [[(0, ⟨0, 3⟩), (1, ⟨0, 1⟩)], [(0, ⟨1, 3⟩), (2, ⟨0, 1⟩)], [(0, ⟨2, 3⟩)]] := by decide +kernel
example : split [.maximum 1, .desired 1] 3
    = .ok [[(0, ⟨0, 1⟩)], [(1, ⟨0, 2⟩)], [(1, ⟨1, 2⟩)]] := by decide +kernel

/-! ### C15 -/

theorem getD_shares (ws : List ChildWeight) (budget c : Nat) (hc : c < ws.length) :
    (shares ws budget).getD c 0 = share ws budget c := by
  simp only [shares, share]
  split
  · simp [List.getD_eq_getElem?_getD, hc]
  · simp [List.getD_eq_getElem?_getD, hc]

theorem sum_filter_le (k : List Nat) : ∀ (l : List Nat) (f : Nat → Nat),
    ((l.filter fun c => decide (2 ≤ max 1 (f c))).map fun c => max 1 (f c)).sum ≤ (l.map f).sum
  | [], f => by simp
  | c :: l, f => by
    have ih := sum_filter_le k l f
    rw [List.filter_cons]
    split
    · rename_i h
      simp only [decide_eq_true_eq] at h
      simp only [List.map_cons, List.sum_cons]; omega
    · simp only [List.map_cons, List.sum_cons]; omega

theorem map_getD_range (k : List Nat) : (List.range k.length).map (fun c => k.getD c 0) = k := by
  apply List.ext_getElem
  · simp
  · intro i h1 h2
    simp [h2]

/-- **C15.** In the assignment of an accepted input, with `k c` the number of tasks of child `c`:
no child exceeds its cap; children with several tasks together use at most the budget; a slot stays empty
only if every child is at its cap; every child gets at least the whole part of its proportional share, or
its cap. -/
theorem C15_caps_budget_proportion (ws : List ChildWeight) (budget : Nat) (h : Accepted ws budget)
    (m : TaskMap) (k : Nat → Nat) (hm : split ws budget = .ok m) (hk : RunsAll ws.length k m) :
    (∀ (c : Nat) (w : ChildWeight) (cap : Nat), ws[c]? = some w → w.max = some cap → k c ≤ cap)
    ∧ (((List.range ws.length).filter fun c => decide (2 ≤ k c)).map k).sum ≤ budget
    ∧ ((∃ t < budget, m.getD t [] = []) →
        ∀ (c : Nat) (w : ChildWeight), ws[c]? = some w → w.max = some (k c))
    ∧ ∀ (c : Nat) (w : ChildWeight), ws[c]? = some w →
        (share ws budget c).floor ≤ k c ∨ w.max = some (k c) := by
  obtain ⟨m', h1, h2, h3, h4⟩ := split_spec h
  rw [hm] at h1
  cases h1
  have hu := RunsAll.unique hk h3
  obtain ⟨t1, t2, t3, t4, t5⟩ := taskCounts_spec (shares ws budget) (ws.map (·.max)) budget
    (by simp [shares_length]) (shares_fit ws budget h.children h.weights)
  generalize hK : taskCounts (shares ws budget) (ws.map (·.max)) budget = K at *
  simp only [List.length_map] at t1 t5
  have hmax : ∀ (c : Nat) (w : ChildWeight), ws[c]? = some w →
      (ws.map (·.max)).getD c none = w.max := by
    intro c w hw; simp [List.getD_eq_getElem?_getD, hw]
  have hpos : ∀ (c : Nat) (w : ChildWeight) (cap : Nat), ws[c]? = some w → w.max = some cap → 1 ≤ cap := by
    intro c w cap hw hc
    have := h.caps w (List.mem_of_getElem? hw)
    rw [hc] at this
    simp at this; omega
  refine ⟨fun c w cap hw hc => ?_, ?_, fun ⟨t, ht, he⟩ c w hw => ?_, fun c w hw => ?_⟩
  · have hlt := (List.getElem?_eq_some_iff.mp hw).1
    rw [hu c hlt]
    have := t4 c cap (by rw [hmax c w hw, hc])
    have := hpos c w cap hw hc
    omega
  · have e : (((List.range ws.length).filter fun c => decide (2 ≤ k c)).map k)
        = ((List.range ws.length).filter fun c => decide (2 ≤ max 1 (K.getD c 0))).map
            fun c => max 1 (K.getD c 0) := by
      rw [List.filter_congr (q := fun c => decide (2 ≤ max 1 (K.getD c 0)))]
      · refine List.map_congr_left fun c hc => ?_
        exact hu c (List.mem_range.mp (List.mem_filter.mp hc).1)
      · intro c hc
        rw [hu c (List.mem_range.mp hc)]
    rw [e]
    refine Nat.le_trans (sum_filter_le K _ fun c => K.getD c 0) ?_
    rw [← t1, map_getD_range]; exact t2
  · have hlt := (List.getElem?_eq_some_iff.mp hw).1
    rcases t5 with t5 | t5
    · exact absurd t5 (h4 t ht he)
    · have hc := t5 c hlt
      rw [hmax c w hw] at hc
      unfold atCap at hc
      cases hx : w.max with
      | none => rw [hx] at hc; cases hc
      | some cap =>
        rw [hx] at hc
        simp only [decide_eq_true_eq] at hc
        have := t4 c cap (by rw [hmax c w hw, hx])
        have := hpos c w cap hw hx
        rw [hu c hlt]
        congr 1; omega
  · have hlt := (List.getElem?_eq_some_iff.mp hw).1
    have hle := t3 c
    have hfl : (List.zipWith floorCap (shares ws budget) (ws.map (·.max))).getD c 0
        = floorCap (share ws budget c) w.max := by
      have hs : (shares ws budget)[c]? = some (share ws budget c) := by
        have hl : c < (shares ws budget).length := by rw [shares_length]; exact hlt
        rw [List.getElem?_eq_getElem hl, ← getD_shares ws budget c hlt]
        simp [hl]
      simp [List.getD_eq_getElem?_getD, List.getElem?_zipWith, hs, hw]
    rw [hfl] at hle
    have e := hu c hlt
    unfold floorCap at hle
    cases hx : w.max with
    | none =>
      rw [hx] at hle
      left
      simp only at hle
      rw [e]; omega
    | some cap =>
      rw [hx] at hle
      simp only at hle
      have := t4 c cap (by rw [hmax c w hw, hx])
      have := hpos c w cap hw hx
      rw [e]
      by_cases hcap : cap ≤ (share ws budget c).floor.toNat
      · right; congr 1; omega
      · left; omega

/-- Non-vacuity: with both children capped the third slot stays empty, and both are at their cap. -/
example : split [.maximum 1, .maximum 1] 3 = .ok [[(0, ⟨0, 1⟩)], [(1, ⟨0, 1⟩)], []]
    ∧ Accepted [.maximum 1, .maximum 1] 3 := by
  refine ⟨by decide +kernel, ⟨by decide, by simp, ?_, ?_⟩⟩
  · simp [ChildWeight.maximum]
  · simp [ChildWeight.maximum]

/-! ### C52: largest remainder -/

theorem before_total (sh : List Rat) (a b : Nat) : before sh a b ∨ before sh b a := by
  unfold before
  rcases lt_trichotomy (frac (sh.getD a 0)) (frac (sh.getD b 0)) with h | h | h
  · exact .inr (.inl h)
  · rcases Nat.le_total a b with hab | hab
    · exact .inl (.inr ⟨h, hab⟩)
    · exact .inr (.inr ⟨h.symm, hab⟩)
  · exact .inl (.inl h)

theorem before_trans (sh : List Rat) (a b c : Nat) (h1 : before sh a b) (h2 : before sh b c) :
    before sh a c := by
  unfold before at *
  rcases h1 with h1 | ⟨h1, h1'⟩ <;> rcases h2 with h2 | ⟨h2, h2'⟩
  · exact .inl (lt_trans h2 h1)
  · exact .inl (h2 ▸ h1)
  · exact .inl (h1 ▸ h2)
  · exact .inr ⟨h1.trans h2, Nat.le_trans h1' h2'⟩

theorem order_sorted (sh : List Rat) : (order sh).Pairwise (before sh) := by
  haveI : Std.Total (before sh) := ⟨before_total sh⟩
  haveI : IsTrans Nat (before sh) := ⟨before_trans sh⟩
  exact List.pairwise_insertionSort _ _

theorem order_nodup (sh : List Rat) : (order sh).Nodup :=
  (order_perm sh).nodup_iff.mpr List.nodup_range

/-- Without caps, one pass gives one task to each of the first `un` children of the order. -/
theorem pass_uncapped (maxs : List (Option Nat)) (hm : ∀ i, maxs.getD i none = none) :
    ∀ (os counts : List Nat) (un : Nat), (∀ i ∈ os, i < counts.length) → os.Nodup →
    (pass maxs os counts un).2 = un - os.length
    ∧ ∀ i, (pass maxs os counts un).1.getD i 0 = counts.getD i 0 + (if i ∈ os.take un then 1 else 0)
  | [], counts, un, _, _ => by simp [pass]
  | idx :: os, counts, un, h, hnd => by
    have hi := h idx (List.mem_cons_self ..)
    rw [List.nodup_cons] at hnd
    simp only [pass]
    split
    · rename_i hu; simp [hu]
    · rename_i hu
      obtain ⟨un, rfl⟩ : ∃ v, un = v + 1 := ⟨un - 1, by omega⟩
      rw [if_neg (by rw [hm]; simp [atCap])]
      obtain ⟨e1, e2⟩ := pass_uncapped maxs hm os (addAt counts idx) un
        (fun i hi => by rw [addAt_length]; exact h i (List.mem_cons_of_mem _ hi)) hnd.2
      refine ⟨by simp only [Nat.add_sub_cancel, e1, List.length_cons]; omega, fun i => ?_⟩
      simp only [Nat.add_sub_cancel, e2, addAt_getD _ _ _ hi, List.take_succ_cons, List.mem_cons]
      by_cases hii : idx = i
      · subst hii
        have : idx ∉ os.take un := fun hc => hnd.1 (List.mem_of_mem_take hc)
        simp [this]
      · have : ¬ i = idx := fun h => hii h.symm
        simp [hii, this]

theorem taskCounts_uncapped (sh : List Rat) (maxs : List (Option Nat)) (budget : Nat)
    (hlen : sh.length = maxs.length) (hm : ∀ i, maxs.getD i none = none)
    (hle : budget - (List.zipWith floorCap sh maxs).sum ≤ sh.length) (i : Nat) :
    (taskCounts sh maxs budget).getD i 0
      = (List.zipWith floorCap sh maxs).getD i 0
        + (if i ∈ (order sh).take (budget - (List.zipWith floorCap sh maxs).sum) then 1 else 0) := by
  have hl : (List.zipWith floorCap sh maxs).length = maxs.length := by simp [hlen]
  obtain ⟨e1, e2⟩ := pass_uncapped maxs hm (order sh) (List.zipWith floorCap sh maxs)
    (budget - (List.zipWith floorCap sh maxs).sum)
    (fun i hi => by
      rw [hl, ← hlen]
      exact List.mem_range.mp ((order_perm sh).mem_iff.mp hi)) (order_nodup sh)
  have hol : (order sh).length = sh.length := by simpa using (order_perm sh).length_eq
  have heq : taskCounts sh maxs budget = leftoverFuel maxs (order sh)
    (budget - (List.zipWith floorCap sh maxs).sum) (List.zipWith floorCap sh maxs)
    (budget - (List.zipWith floorCap sh maxs).sum) := rfl
  rw [heq]
  cases hu : budget - (List.zipWith floorCap sh maxs).sum with
  | zero => simp [leftoverFuel]
  | succ un =>
    rw [hu] at e1 e2 hle
    simp only [leftoverFuel]
    rw [if_neg (by omega), if_pos (by rw [e1]; omega)]
    have h0 : (pass maxs (order sh) (List.zipWith floorCap sh maxs) (un + 1)).2 = 0 := by
      rw [e1]; omega
    rw [h0]
    have : ∀ (f : Nat) (c : List Nat), leftoverFuel maxs (order sh) f c 0 = c := by
      intro f c; cases f <;> simp [leftoverFuel]
    rw [this]
    exact e2 i

theorem sum_floor_gap : ∀ (sh : List Rat) (maxs : List (Option Nat)), sh.length = maxs.length →
    (∀ i, maxs.getD i none = none) → (∀ s ∈ sh, 0 ≤ s) →
    sh.sum ≤ ((List.zipWith floorCap sh maxs).sum : Nat) + sh.length
  | [], [], _, _, _ => by simp
  | s :: sh, m :: ms, hl, hm, h => by
    have ih := sum_floor_gap sh ms (by simpa using hl) (fun i => by simpa using hm (i + 1))
      (fun x hx => h x (List.mem_cons_of_mem _ hx))
    have hm0 : m = none := by simpa using hm 0
    subst hm0
    simp only [List.zipWith_cons_cons, List.sum_cons, Nat.cast_add, List.length_cons, Nat.cast_one]
    have hs := h s (List.mem_cons_self ..)
    have h0 : 0 ≤ s.floor := Rat.le_floor_iff.mpr (by simpa using hs)
    have hfl : s ≤ (floorCap s none : Rat) + 1 := by
      simp only [floorCap]
      have h1 : ((s.floor.toNat : Int) : Rat) = (s.floor : Rat) := by rw [Int.toNat_of_nonneg h0]
      have h2 : (s.floor.toNat : Rat) = (s.floor : Rat) := by exact_mod_cast h1
      rw [h2]
      exact_mod_cast le_of_lt (Rat.lt_floor_add_one s)
    linarith

/-- **C52.** Without caps the tasks follow the largest-remainder rule: a child never gets more than the
whole part of its share plus one (or the single task every child gets), and of two children with the same
shortfall the larger fractional part is served first: if `d` was rounded up and `c` was not, then `c`'s
fractional part is not larger than `d`'s. -/
theorem C52_largest_remainder (ws : List ChildWeight) (budget : Nat) (h : Accepted ws budget)
    (huncapped : ∀ w ∈ ws, w.max = none)
    (m : TaskMap) (k : Nat → Nat) (hm : split ws budget = .ok m) (hk : RunsAll ws.length k m) :
    (∀ c < ws.length, (k c : Int) ≤ max 1 ((share ws budget c).floor + 1))
    ∧ ∀ c < ws.length, ∀ d < ws.length,
        (k c : Int) ≤ (share ws budget c).floor → max 1 (share ws budget d).floor < (k d : Int) →
        share ws budget c - (share ws budget c).floor ≤ share ws budget d - (share ws budget d).floor := by
  obtain ⟨m', h1, _, h3, _⟩ := split_spec h
  rw [hm] at h1
  cases h1
  have hu := RunsAll.unique hk h3
  have hnone : ∀ i, (ws.map (·.max)).getD i none = none := by
    intro i
    simp only [List.getD_eq_getElem?_getD, List.getElem?_map]
    cases hw : ws[i]? with
    | none => rfl
    | some w => simpa using huncapped w (List.mem_of_getElem? hw)
  have hgap := sum_floor_gap (shares ws budget) (ws.map (·.max)) (by simp [shares_length]) hnone
    (shares_nonneg ws budget h.weights)
  rw [shares_sum ws budget h.children, shares_length] at hgap
  have hgap' : budget ≤ (List.zipWith floorCap (shares ws budget) (ws.map (·.max))).sum + ws.length := by
    exact_mod_cast hgap
  have htc := taskCounts_uncapped (shares ws budget) (ws.map (·.max)) budget (by simp [shares_length])
    hnone (by rw [shares_length]; omega)
  have hnn : ∀ c < ws.length, 0 ≤ (share ws budget c).floor := by
    intro c hc
    have : 0 ≤ share ws budget c := by
      rw [← getD_shares ws budget c hc]
      refine shares_nonneg ws budget h.weights _ ?_
      have hl : c < (shares ws budget).length := by rw [shares_length]; exact hc
      simp only [List.getD_eq_getElem?_getD, List.getElem?_eq_getElem hl, Option.getD_some]
      exact List.getElem_mem hl
    exact Rat.le_floor_iff.mpr (by simpa using this)
  have hfl : ∀ c < ws.length, (List.zipWith floorCap (shares ws budget) (ws.map (·.max))).getD c 0
      = (share ws budget c).floor.toNat := by
    intro c hc
    have hl : c < (shares ws budget).length := by rw [shares_length]; exact hc
    have hs : (shares ws budget)[c]? = some (share ws budget c) := by
      rw [List.getElem?_eq_getElem hl, ← getD_shares ws budget c hc]
      simp [hl]
    have hx := huncapped ws[c] (List.getElem_mem hc)
    simp [List.getD_eq_getElem?_getD, List.getElem?_zipWith, hs, hc, hx, floorCap]
  generalize budget - (List.zipWith floorCap (shares ws budget) (ws.map (·.max))).sum = un at htc
  refine ⟨fun c hc => ?_, fun c hc d hd hkc hkd => ?_⟩
  · have := hnn c hc
    rw [hu c hc, htc, hfl c hc]
    split <;> omega
  · have hnc := hnn c hc
    have hnd := hnn d hd
    rw [hu c hc, htc, hfl c hc] at hkc
    rw [hu d hd, htc, hfl d hd] at hkd
    have hcn : c ∉ (order (shares ws budget)).take un := by
      intro hmem; rw [if_pos hmem] at hkc; omega
    have hdm : d ∈ (order (shares ws budget)).take un := by
      apply Classical.byContradiction
      intro hmem; rw [if_neg hmem] at hkd; omega
    have hcm : c ∈ (order (shares ws budget)).drop un := by
      have : c ∈ order (shares ws budget) :=
        (order_perm _).mem_iff.mpr (by rw [shares_length]; exact List.mem_range.mpr hc)
      rw [← List.take_append_drop un (order (shares ws budget))] at this
      exact (List.mem_append.mp this).resolve_left hcn
    have hsort := order_sorted (shares ws budget)
    rw [← List.take_append_drop un (order (shares ws budget)), List.pairwise_append] at hsort
    have hb := hsort.2.2 d hdm c hcm
    unfold before frac at hb
    rw [getD_shares ws budget c hc, getD_shares ws budget d hd] at hb
    rcases hb with hb | hb
    · exact le_of_lt hb
    · exact le_of_eq hb.1.symm

/-- Non-vacuity: shares 10/7, 25/7, 35/7 of a budget of 10; the middle one has the largest remainder and
is rounded up. -/
example : split [.desired 2, .desired 5, .desired 7] 10
    = .ok [[(0, ⟨0, 1⟩)], [(1, ⟨0, 4⟩)], [(1, ⟨1, 4⟩)], [(1, ⟨2, 4⟩)], [(1, ⟨3, 4⟩)], [(2, ⟨0, 5⟩)],
        [(2, ⟨1, 5⟩)], [(2, ⟨2, 5⟩)], [(2, ⟨3, 5⟩)], [(2, ⟨4, 5⟩)]] := by decide +kernel

/-! ### C16 -/

/-- Every partition of every task of every child. -/
def allRuns (children : List Nat) (k : Nat → Nat) : List Run :=
  (childTasks children.length k).flatMap fun (c, ctx) =>
    (List.range (children.getD c 0)).map fun p => ⟨c, ctx, p⟩

/-- What executing all partitions of all tasks runs. -/
def executed (n : Node) : List Run :=
  (List.range n.map.length).flatMap fun t =>
    (List.range n.partitions).filterMap fun p =>
      match n.execute t p with
      | .ok r => r
      | .error _ => none

theorem partitionsOf_ok (children : List Nat) : ∀ (es : List Entry), (∀ e ∈ es, e.1 < children.length) →
    partitionsOf children es = .ok (es.map fun e => children.getD e.1 0).sum
  | [], _ => rfl
  | (c, x) :: es, h => by
    have hc : c < children.length := h (c, x) (List.mem_cons_self ..)
    simp only [partitionsOf, List.getElem?_eq_getElem hc]
    rw [partitionsOf_ok children es fun e he => h e (List.mem_cons_of_mem _ he)]
    simp [Except.map, hc]

theorem execIn_all (children : List Nat) : ∀ (es : List Entry) (P : Nat),
    (∀ e ∈ es, e.1 < children.length) → (es.map fun e => children.getD e.1 0).sum ≤ P →
    (∀ p < P, ∃ r, execIn children es p = .ok r)
    ∧ ((List.range P).filterMap fun p =>
        match execIn children es p with | .ok r => r | .error _ => none)
      = es.flatMap fun (c, ctx) => (List.range (children.getD c 0)).map fun p => ⟨c, ctx, p⟩
  | [], P, _, _ => by
    refine ⟨fun p _ => ⟨none, rfl⟩, ?_⟩
    simp [execIn]
  | (c, x) :: es, P, h, hP => by
    have hc : c < children.length := h (c, x) (List.mem_cons_self ..)
    simp only [List.map_cons, List.sum_cons] at hP
    have hg : children.getD c 0 = children[c] := by simp [hc]
    obtain ⟨i1, i2⟩ := execIn_all children es (P - children.getD c 0)
      (fun e he => h e (List.mem_cons_of_mem _ he)) (by omega)
    constructor
    · intro p hp
      simp only [execIn, List.getElem?_eq_getElem hc]
      split
      · exact ⟨_, rfl⟩
      · exact i1 _ (by omega)
    · have hr : List.range P = List.range (children.getD c 0)
          ++ (List.range (P - children.getD c 0)).map (children.getD c 0 + ·) := by
        rw [← List.range_add]; congr 1; omega
      rw [hr, List.filterMap_append, List.flatMap_cons]
      congr 1
      · show _ = List.map (fun p => (⟨c, x, p⟩ : Run)) _
        rw [← List.filterMap_eq_map]
        refine List.filterMap_congr fun p hp => ?_
        have : p < children[c] := by rw [← hg]; exact List.mem_range.mp hp
        simp [execIn, List.getElem?_eq_getElem hc, this]
      · rw [List.filterMap_map, ← i2]
        refine List.filterMap_congr fun p _ => ?_
        simp [execIn, List.getElem?_eq_getElem hc]

theorem mapM_ok (children : List Nat) : ∀ (m : TaskMap), (∀ es ∈ m, ∀ e ∈ es, e.1 < children.length) →
    m.mapM (partitionsOf children)
      = .ok (m.map fun es => (es.map fun e => children.getD e.1 0).sum)
  | [], _ => rfl
  | es :: m, h => by
    rw [List.mapM_cons, partitionsOf_ok children es (h es (List.mem_cons_self ..)),
      mapM_ok children m fun es' he => h es' (List.mem_cons_of_mem _ he)]
    rfl

theorem flatten_flatMap {α β : Type} (g : α → List β) : ∀ (m : List (List α)),
    m.flatten.flatMap g = m.flatMap fun es => es.flatMap g
  | [] => rfl
  | es :: m => by simp [flatten_flatMap g m]

theorem flatMap_range_getD {β : Type} (m : TaskMap) (f : List Entry → List β) :
    ((List.range m.length).flatMap fun t => f (m.getD t [])) = m.flatMap f := by
  have : m = (List.range m.length).map fun t => m.getD t [] := by
    apply List.ext_getElem
    · simp
    · intro i a b; simp [a]
  conv_rhs => rw [this]
  rw [List.flatMap_map]

/-- **C16.** For an isolated union built by the planner for any children and any accepted weights and
budget: every `execute` call within the advertised partitions of an existing task succeeds, and together
these calls run each partition of each task of each child exactly once; all other output partitions are
empty. -/
theorem C16_every_child_partition_once (children : List Nat) (ws : List ChildWeight) (budget : Nat)
    (h : Accepted ws budget) (hl : children.length = ws.length) :
    ∃ n k, Node.make split children ws budget = .ok n ∧ n.children = children ∧ n.map.length = budget
      ∧ RunsAll children.length k n.map
      ∧ (∀ t < budget, ∀ p < n.partitions, ∃ r, n.execute t p = .ok r)
      ∧ (executed n).Perm (allRuns children k) := by
  obtain ⟨m, h1, h2, h3, _⟩ := split_spec h
  generalize (fun c => max 1 ((taskCounts (shares ws budget) (ws.map (·.max)) budget).getD c 0)) = k at h3
  rw [← hl] at h3
  have hvalid : ∀ es ∈ m, ∀ e ∈ es, e.1 < children.length := by
    intro es hes e he
    exact (mem_childTasks.mp (h3.2.mem_iff.mp (List.mem_flatten.mpr ⟨es, hes, he⟩))).1
  have hmap := mapM_ok children m hvalid
  have hmne : m ≠ [] := by
    intro hm; rw [hm] at h2; have := h.budget; simp at h2; omega
  obtain ⟨P, hP⟩ : ∃ P, (m.map fun es => (es.map fun e => children.getD e.1 0).sum).max? = some P := by
    cases hx : (m.map fun es => (es.map fun e => children.getD e.1 0).sum).max? with
    | none => rw [List.max?_eq_none_iff] at hx; simp [hmne] at hx
    | some P => exact ⟨P, rfl⟩
  have hle : ∀ es ∈ m, (es.map fun e => children.getD e.1 0).sum ≤ P := by
    intro es hes
    exact (List.max?_eq_some_iff.mp hP).2 _ (List.mem_map.mpr ⟨es, hes, rfl⟩)
  refine ⟨⟨children, ws, m, P⟩, k, ?_, rfl, h2, h3, ?_, ?_⟩
  · unfold Node.make
    rw [if_neg (by simpa using hl), h1]
    show (do let counts ← m.mapM (partitionsOf children); _) = _
    rw [hmap]
    show (match (m.map fun es => (es.map fun e => children.getD e.1 0).sum).max? with
      | none => _ | some p => _) = _
    rw [hP]
  · intro t ht p hp
    have htm : t < m.length := by omega
    simp only [Node.execute, List.getElem?_eq_getElem htm]
    exact (execIn_all children m[t] P (hvalid _ (List.getElem_mem htm))
      (hle _ (List.getElem_mem htm))).1 p hp
  · have e : executed ⟨children, ws, m, P⟩ = m.flatten.flatMap fun (c, ctx) =>
        (List.range (children.getD c 0)).map fun p => ⟨c, ctx, p⟩ := by
      rw [flatten_flatMap, ← flatMap_range_getD m]
      unfold executed
      refine List.flatMap_congr fun t ht => ?_
      have htm : t < m.length := List.mem_range.mp ht
      have := (execIn_all children m[t] P (hvalid _ (List.getElem_mem htm))
        (hle _ (List.getElem_mem htm))).2
      simp only [Node.execute, List.getElem?_eq_getElem htm, this]
      simp [htm]
    rw [e]
    exact h3.2.flatMap_right _

/-- Non-vacuity: children with 2, 1 and 3 partitions over 3 tasks; each task advertises 5 partitions. -/
example : (Node.make split [2, 1, 3] [.desired 10, .desired 1, .desired 1] 3).map
      (fun n => (n.partitions, (executed n).length))
    = .ok (5, 2 * 3 + 1 + 3) := by decide +kernel

/-- The assignment must be executed by as many tasks as it has slots: run by a single task (as the head
stage is), an isolated union of two slots silently loses a child. The planner must not leave one there,
see C22-C25. -/
theorem C16_single_task_run_loses_rows :
    ∃ n, Node.make split [1, 1] [.desired 1, .desired 1] 2 = .ok n
      ∧ (List.range n.partitions).map (n.execute 0) = [.ok (some ⟨0, ⟨0, 1⟩, 0⟩)] :=
  ⟨⟨[1, 1], [.desired 1, .desired 1], [[(0, ⟨0, 1⟩)], [(1, ⟨0, 1⟩)]], 1⟩,
    by decide +kernel, by decide +kernel⟩

/-! ### C53: rewriting, child task counts, specialisation -/

theorem make_map {children : List Nat} {ws : List ChildWeight} {budget : Nat} {n : Node}
    (h : Node.make split children ws budget = .ok n) :
    children.length = ws.length ∧ split ws budget = .ok n.map ∧ n.children = children
      ∧ n.weights = ws := by
  unfold Node.make at h
  split at h
  · cases h
  · rename_i hl
    refine ⟨by simpa using hl, ?_⟩
    cases hs : split ws budget with
    | error e => rw [hs] at h; cases h
    | ok m =>
      rw [hs] at h
      change (do let counts ← m.mapM (partitionsOf children); _) = _ at h
      cases hc : m.mapM (partitionsOf children) with
      | error e => rw [hc] at h; cases h
      | ok cs =>
        rw [hc] at h
        change (match cs.max? with | none => _ | some p => _) = _ at h
        cases hm : cs.max? with
        | none => rw [hm] at h; cases h
        | some p => rw [hm] at h; cases h; exact ⟨rfl, rfl, rfl⟩

theorem accepted_of_split {ws : List ChildWeight} {budget : Nat} {m : TaskMap}
    (h : split ws budget = .ok m) : Accepted ws budget := by
  apply Classical.byContradiction
  intro hn
  obtain ⟨e, he⟩ := C14_rejected ws budget hn
  rw [he] at h; cases h

/-- **C53.** Replacing the children of an isolated union (as every plan rewrite does) keeps its task
assignment. -/
theorem C53_rewrite_keeps_assignment (children children' : List Nat) (ws : List ChildWeight)
    (budget : Nat) (n : Node) (hn : Node.make split children ws budget = .ok n)
    (hl : children'.length = children.length) :
    ∃ n', n.withNewChildren children' = .ok n' ∧ n'.map = n.map ∧ n'.children = children'
      ∧ n'.weights = n.weights := by
  obtain ⟨h1, h2, h3, h4⟩ := make_map hn
  have ha := accepted_of_split h2
  obtain ⟨m, s1, s2, _, _⟩ := split_spec ha
  rw [h2] at s1; cases s1
  obtain ⟨n', k, e1, e2, _, _, _, _⟩ :=
    C16_every_child_partition_once children' ws budget ha (hl.trans h1)
  refine ⟨n', ?_, ?_, e2, ?_⟩
  · unfold Node.withNewChildren
    rw [if_neg (by rw [h3]; simpa using hl), h4, s2]
    exact e1
  · have := (make_map e1).2.1
    rw [h2] at this
    exact (Except.ok.inj this).symm
  · rw [(make_map e1).2.2.2, h4]

/-- Recording one entry in `child_task_counts`. -/
def bump (acc : List Nat) (e : Entry) : List Nat :=
  match acc[e.1]? with
  | some k => acc.set e.1 (max k e.2.count)
  | none => acc

theorem childTaskCounts_eq (n : Node) :
    n.childTaskCounts = n.map.flatten.foldl bump (List.replicate n.children.length 0) := by
  unfold Node.childTaskCounts
  generalize List.replicate n.children.length 0 = acc
  induction n.map generalizing acc with
  | nil => rfl
  | cons es m ih =>
    simp only [List.foldl_cons, List.flatten_cons, List.foldl_append]
    exact ih _

theorem bump_fold (k : Nat → Nat) : ∀ (es : List Entry) (acc : List Nat),
    (∀ e ∈ es, e.1 < acc.length ∧ e.2.count = k e.1) →
    (es.foldl bump acc).length = acc.length
    ∧ ∀ c, (acc.getD c 0 ≤ k c → (es.foldl bump acc).getD c 0 ≤ k c)
        ∧ acc.getD c 0 ≤ (es.foldl bump acc).getD c 0
        ∧ ((∃ e ∈ es, e.1 = c) → k c ≤ (es.foldl bump acc).getD c 0)
  | [], acc, _ => by simp
  | e :: es, acc, h => by
    have he := h e (List.mem_cons_self ..)
    have hb : bump acc e = acc.set e.1 (max (acc.getD e.1 0) (k e.1)) := by
      rw [← he.2]
      unfold bump
      rw [List.getElem?_eq_getElem he.1]
      simp [he.1]
    have hlen : (bump acc e).length = acc.length := by rw [hb]; simp
    obtain ⟨i1, i2⟩ := bump_fold k es (bump acc e)
      (fun x hx => by rw [hlen]; exact h x (List.mem_cons_of_mem _ hx))
    have hg : ∀ c, (bump acc e).getD c 0 = if e.1 = c then max (acc.getD c 0) (k c) else acc.getD c 0 := by
      intro c
      rw [hb]
      simp only [List.getD_eq_getElem?_getD, List.getElem?_set]
      split
      · rename_i hc; subst hc; simp [he.1]
      · rfl
    refine ⟨by simpa [hlen] using i1, fun c => ?_⟩
    obtain ⟨j1, j2, j3⟩ := i2 c
    rw [hg] at j1 j2
    simp only [List.foldl_cons]
    refine ⟨fun hle => j1 ?_, ?_, ?_⟩
    · split <;> omega
    · split at j2 <;> omega
    · rintro ⟨x, hx, hxc⟩
      rcases List.mem_cons.mp hx with rfl | hx
      · rw [if_pos hxc] at j2; omega
      · exact j3 ⟨x, hx, hxc⟩

/-- **C53**, task counts: the task count an isolated union reports for a child is the number of tasks the
child really runs in. -/
theorem C53_child_task_counts (children : List Nat) (ws : List ChildWeight) (budget : Nat) (n : Node)
    (k : Nat → Nat) (hn : Node.make split children ws budget = .ok n)
    (hk : RunsAll children.length k n.map) :
    n.childTaskCounts.length = children.length
    ∧ ∀ c < children.length, n.childTaskCounts.getD c 0 = k c := by
  obtain ⟨_, _, h3, _⟩ := make_map hn
  rw [childTaskCounts_eq, h3]
  have hmem : ∀ e ∈ n.map.flatten, e.1 < children.length ∧ e.2.count = k e.1 := by
    intro e he
    have := mem_childTasks.mp (hk.2.mem_iff.mp he)
    exact ⟨this.1, this.2.2⟩
  obtain ⟨i1, i2⟩ := bump_fold k n.map.flatten (List.replicate children.length 0)
    (fun e he => by simpa using hmem e he)
  refine ⟨by simpa using i1, fun c hc => ?_⟩
  obtain ⟨j1, _, j3⟩ := i2 c
  have h0 : (List.replicate children.length 0).getD c 0 = 0 := by
    simp [List.getD_eq_getElem?_getD, hc]
  have hin : ((c, ⟨0, k c⟩) : Entry) ∈ n.map.flatten :=
    hk.2.mem_iff.mpr (mem_childTasks.mpr ⟨hc, hk.1 c hc, rfl⟩)
  exact Nat.le_antisymm (j1 (by rw [h0]; omega)) (j3 ⟨_, hin, rfl⟩)

theorem execIn_child (children : List Nat) : ∀ (es : List Entry) (p : Nat) (r : Run),
    execIn children es p = .ok (some r) → (r.child, r.ctx) ∈ es
  | [], p, r, h => by simp [execIn] at h
  | (c, x) :: es, p, r, h => by
    simp only [execIn] at h
    split at h
    · cases h
    · split at h
      · cases h; exact List.mem_cons_self ..
      · exact List.mem_cons_of_mem _ (execIn_child children es _ r h)

/-- **C53**, specialisation: the plan shipped to task `t` keeps every child that task `t` executes, so
trimming the other children changes nothing for it. -/
theorem C53_specialised_keeps_executed (n : Node) (t p : Nat) (r : Run)
    (h : n.execute t p = .ok (some r)) (hr : r.child < n.children.length) :
    (n.kept t).getD r.child false = true := by
  unfold Node.execute at h
  cases hm : n.map[t]? with
  | none => rw [hm] at h; cases h
  | some es =>
    rw [hm] at h
    have := execIn_child _ es p r h
    have hmd : n.map.getD t [] = es := by simp [List.getD_eq_getElem?_getD, hm]
    simp only [Node.kept, hmd, List.getD_eq_getElem?_getD, List.getElem?_map,
      List.getElem?_range hr, Option.map_some, Option.getD_some]
    exact List.contains_iff_mem.mpr (List.mem_map.mpr ⟨_, this, rfl⟩)

/-- ... and drops the others. -/
theorem C53_specialised_drops_rest (n : Node) (t c : Nat) (hc : c < n.children.length)
    (hno : ∀ e ∈ n.map.getD t [], e.1 ≠ c) : (n.kept t).getD c true = false := by
  simp only [Node.kept, List.getD_eq_getElem?_getD, List.getElem?_map, List.getElem?_range hc,
    Option.map_some, Option.getD_some]
  rw [Bool.eq_false_iff]
  intro hcon
  obtain ⟨e, he, rfl⟩ := List.mem_map.mp (List.contains_iff_mem.mp hcon)
  exact hno e (by simpa [List.getD_eq_getElem?_getD] using he) rfl

/-- Non-vacuity: child task counts and kept children of a three-slot union. -/
example : (Node.make split [2, 1, 3] [.desired 10, .desired 1, .desired 1] 3).map
      (fun n => (n.childTaskCounts, n.kept 0, n.kept 2))
    = .ok ([3, 1, 1], [true, true, false], [true, false, false]) := by decide +kernel

end DD.Union
