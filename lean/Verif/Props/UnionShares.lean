/-
**C52**: without caps, every child of an isolated union gets its share of the tasks rounded down or up.
-/
import Verif.Props.Union
import Mathlib.Tactic.ByContra

namespace DD.Union

theorem frac_nonneg (s : Rat) : 0 ≤ frac s := by
  have := Rat.floor_le s
  unfold frac; linarith

theorem frac_lt_one (s : Rat) : frac s < 1 := by
  have : s < ((s.floor + 1 : Int) : Rat) := Rat.lt_floor_add_one s
  push_cast at this
  unfold frac; linarith

theorem sum_frac_le (sh : List Rat) : ∀ l : List Nat, ((l.map fun i => frac (sh.getD i 0)).sum : Rat) ≤ l.length
  | [] => by simp
  | i :: l => by
    have := sum_frac_le sh l
    have := frac_lt_one (sh.getD i 0)
    simp only [List.map_cons, List.sum_cons, List.length_cons, Nat.cast_add, Nat.cast_one]
    linarith

theorem sum_frac_lt (sh : List Rat) (l : List Nat) (h : l ≠ []) :
    ((l.map fun i => frac (sh.getD i 0)).sum : Rat) < l.length := by
  cases l with
  | nil => exact absurd rfl h
  | cons i l =>
    have := sum_frac_le sh l
    have := frac_lt_one (sh.getD i 0)
    simp only [List.map_cons, List.sum_cons, List.length_cons, Nat.cast_add, Nat.cast_one]
    linarith

theorem sum_floor_frac : ∀ (sh : List Rat) (maxs : List (Option Nat)), sh.length = maxs.length →
    (∀ i, maxs.getD i none = none) → (∀ s ∈ sh, 0 ≤ s) →
    sh.sum = ((List.zipWith floorCap sh maxs).sum : Nat) + (sh.map frac).sum
  | [], [], _, _, _ => by simp
  | s :: sh, m :: ms, hl, hm, h => by
    have ih := sum_floor_frac sh ms (by simpa using hl) (fun i => by simpa using hm (i + 1))
      (fun x hx => h x (List.mem_cons_of_mem _ hx))
    have hm0 : m = none := by simpa using hm 0
    subst hm0
    simp only [List.zipWith_cons_cons, List.sum_cons, Nat.cast_add, List.map_cons]
    have hs := h s (List.mem_cons_self ..)
    have h0 : 0 ≤ s.floor := Rat.le_floor_iff.mpr (by simpa using hs)
    have hfl : (floorCap s none : Rat) = (s.floor : Rat) := by
      simp only [floorCap]
      have h1 : ((s.floor.toNat : Int) : Rat) = (s.floor : Rat) := by rw [Int.toNat_of_nonneg h0]
      exact_mod_cast h1
    rw [hfl, ih]
    unfold frac
    ring

theorem map_frac_range (sh : List Rat) : (List.range sh.length).map (fun i => frac (sh.getD i 0)) = sh.map frac := by
  apply List.ext_getElem
  · simp
  · intro i h1 h2
    simp only [List.length_map] at h2
    simp [List.getD_eq_getElem?_getD, h2]

theorem sum_nonpos_rat : ∀ l : List Rat, (∀ x ∈ l, x ≤ 0) → l.sum ≤ 0
  | [], _ => by simp
  | x :: l, h => by
    have := sum_nonpos_rat l fun y hy => h y (List.mem_cons_of_mem _ hy)
    have := h x (List.mem_cons_self ..)
    rw [List.sum_cons]; linarith

/-- Only children with a fractional part are rounded up. -/
theorem frac_pos_of_mem_take (sh : List Rat) (maxs : List (Option Nat)) (budget : Nat) (hlen : sh.length = maxs.length)
    (hm : ∀ i, maxs.getD i none = none) (hnn : ∀ s ∈ sh, 0 ≤ s) (hsum : sh.sum = budget) {i : Nat}
    (hi : i ∈ (order sh).take (budget - (List.zipWith floorCap sh maxs).sum)) : 0 < frac (sh.getD i 0) := by
  have e := sum_floor_frac sh maxs hlen hm hnn
  rw [hsum] at e
  have hun : (((budget - (List.zipWith floorCap sh maxs).sum : Nat)) : Rat) = (sh.map frac).sum := by
    have hle : (List.zipWith floorCap sh maxs).sum ≤ budget := by
      have := zipWith_floor_le sh maxs hnn
      rw [hsum] at this
      exact_mod_cast this
    rw [Nat.cast_sub hle, e]; ring
  generalize budget - (List.zipWith floorCap sh maxs).sum = un at hi hun
  have hperm : ((order sh).map fun i => frac (sh.getD i 0)).sum = (sh.map frac).sum := by
    rw [← map_frac_range]
    exact ((order_perm sh).map _).sum_eq
  rw [← hperm] at hun
  conv at hun => rhs; rw [← List.take_append_drop un (order sh), List.map_append, List.sum_append]
  by_contra hneg
  have h0 : frac (sh.getD i 0) = 0 := le_antisymm (not_lt.mp hneg) (frac_nonneg _)
  have hdrop : (((order sh).drop un).map fun i => frac (sh.getD i 0)).sum ≤ 0 := by
    refine sum_nonpos_rat _ ?_
    intro x hx
    obtain ⟨j, hj, rfl⟩ := List.mem_map.mp hx
    have hb : before sh i j := by
      have := order_sorted sh
      rw [← List.take_append_drop un (order sh), List.pairwise_append] at this
      exact this.2.2 i hi j hj
    rcases hb with hb | ⟨hb, _⟩
    · rw [h0] at hb; exact le_of_lt hb
    · rw [← hb, h0]
  have hne : (order sh).take un ≠ [] := List.ne_nil_of_mem hi
  have hlt := sum_frac_lt sh _ hne
  have hl : (((order sh).take un).length : Rat) ≤ un := by
    exact_mod_cast (List.length_take_le un (order sh))
  linarith

/-- **C52** Without caps, every child gets its share rounded down or rounded up, and one task if that is none. In
particular a child whose share is a whole number of tasks, at least one, gets exactly that many. -/
theorem C52_floor_or_ceiling (ws : List ChildWeight) (budget : Nat) (h : Accepted ws budget)
    (huncapped : ∀ w ∈ ws, w.max = none)
    (m : TaskMap) (k : Nat → Nat) (hm : split ws budget = .ok m) (hk : RunsAll ws.length k m) (c : Nat)
    (hc : c < ws.length) :
    (k c : Int) = max 1 (share ws budget c).floor ∨ (k c : Int) = max 1 (share ws budget c).ceil := by
  obtain ⟨m', h1, _, h3, _⟩ := split_spec h
  rw [hm] at h1
  cases h1
  have hu := RunsAll.unique hk h3
  have hnone : ∀ i, (ws.map (·.max)).getD i none = none := by
    intro i
    simp only [List.getD_eq_getElem?_getD, List.getElem?_map]
    cases hw : ws[i]? with
    | none => rfl
    | some w => simpa using huncapped w (List.mem_of_getElem? hw)
  have hgap := sum_floor_gap (shares ws budget) (ws.map (·.max)) (by simp [shares_length]) hnone
    (shares_nonneg ws budget h.weights)
  rw [shares_sum ws budget h.children, shares_length] at hgap
  have hgap' : budget ≤ (List.zipWith floorCap (shares ws budget) (ws.map (·.max))).sum + ws.length := by
    exact_mod_cast hgap
  have htc := taskCounts_uncapped (shares ws budget) (ws.map (·.max)) budget (by simp [shares_length])
    hnone (by rw [shares_length]; omega)
  have hl : c < (shares ws budget).length := by rw [shares_length]; exact hc
  have hs : (shares ws budget)[c]? = some (share ws budget c) := by
    rw [List.getElem?_eq_getElem hl, ← getD_shares ws budget c hc]
    simp [hl]
  have hnn : 0 ≤ (share ws budget c).floor := by
    have : 0 ≤ share ws budget c := shares_nonneg ws budget h.weights _ (List.mem_of_getElem? hs)
    exact Rat.le_floor_iff.mpr (by simpa using this)
  have hfl : (List.zipWith floorCap (shares ws budget) (ws.map (·.max))).getD c 0
      = (share ws budget c).floor.toNat := by
    have hx := huncapped ws[c] (List.getElem_mem hc)
    simp [List.getD_eq_getElem?_getD, List.getElem?_zipWith, hs, hc, hx, floorCap]
  have hup := fun hi => frac_pos_of_mem_take (shares ws budget) (ws.map (·.max)) budget (by simp [shares_length]) hnone
    (shares_nonneg ws budget h.weights) (shares_sum ws budget h.children) (i := c) hi
  rw [getD_shares ws budget c hc] at hup
  rw [hu c hc, htc, hfl]
  split
  · rename_i hi
    refine .inr ?_
    have hp := hup hi
    have hceil : (share ws budget c).ceil = (share ws budget c).floor + 1 := by
      apply le_antisymm
      · rw [Rat.ceil_le_iff]
        exact_mod_cast le_of_lt (Rat.lt_floor_add_one (share ws budget c))
      · have : ¬ (share ws budget c).ceil ≤ (share ws budget c).floor := by
          rw [Rat.ceil_le_iff]
          unfold frac at hp
          linarith
        omega
    rw [hceil]
    omega
  · refine .inl ?_
    omega

/-- Non-vacuity: shares 1/2, 5/2 and 2 of a budget of 5. The first child is served by rounding up, the whole share stays as
it is. -/
example : Accepted [.desired 1, .desired 5, .desired 4] 5
    ∧ (∀ w ∈ ([.desired 1, .desired 5, .desired 4] : List ChildWeight), w.max = none)
    ∧ split [.desired 1, .desired 5, .desired 4] 5
      = .ok [[(0, ⟨0, 1⟩)], [(1, ⟨0, 2⟩)], [(1, ⟨1, 2⟩)], [(2, ⟨0, 2⟩)], [(2, ⟨1, 2⟩)]]
    ∧ RunsAll 3 (fun c => if c = 0 then 1 else 2) [[(0, ⟨0, 1⟩)], [(1, ⟨0, 2⟩)], [(1, ⟨1, 2⟩)], [(2, ⟨0, 2⟩)], [(2, ⟨1, 2⟩)]] := by
  refine ⟨⟨by decide, by decide, by decide, ?_⟩, by decide, by decide +kernel, ⟨?_, by decide⟩⟩
  · decide +kernel
  · intro c _; dsimp only; split <;> omega

end DD.Union
