/-
Lemmas about the task allocation of `ChildrenIsolatorUnionExec`.
-/
import Verif.Model.Union
import Mathlib.Data.List.Perm.Basic
import Mathlib.Data.Rat.Floor
import Mathlib.Algebra.Order.Field.Rat
import Mathlib.Algebra.Order.BigOperators.Group.List
import Mathlib.Tactic.FieldSimp

namespace DD.Union

/-! ### addAt / pass / leftover -/

theorem addAt_length (counts : List Nat) (i : Nat) : (addAt counts i).length = counts.length := by
  unfold addAt; cases counts[i]? <;> simp

theorem addAt_getD (counts : List Nat) (i j : Nat) (h : i < counts.length) :
    (addAt counts i).getD j 0 = counts.getD j 0 + (if i = j then 1 else 0) := by
  unfold addAt
  have : counts[i]? = some counts[i] := List.getElem?_eq_getElem h
  rw [this]
  simp only [List.getD_eq_getElem?_getD, List.getElem?_set]
  split
  · rename_i hij; subst hij; simp [h]
  · simp

theorem addAt_sum (counts : List Nat) (i : Nat) (h : i < counts.length) :
    (addAt counts i).sum = counts.sum + 1 := by
  unfold addAt
  have : counts[i]? = some counts[i] := List.getElem?_eq_getElem h
  rw [this]
  simp only
  clear this
  induction counts generalizing i with
  | nil => simp at h
  | cons a t ih =>
    cases i with
    | zero => simp; omega
    | succ i =>
      simp only [List.set_cons_succ, List.getElem_cons_succ, List.sum_cons]
      rw [ih i (by simpa using h)]; omega

/-- Every count respects its cap. -/
def Within (maxs : List (Option Nat)) (counts : List Nat) : Prop :=
  ∀ (i m : Nat), maxs.getD i none = some m → counts.getD i 0 ≤ m

theorem pass_spec (maxs : List (Option Nat)) : ∀ (os counts : List Nat) (un : Nat),
    (∀ i ∈ os, i < counts.length) →
    let r := pass maxs os counts un
    r.1.length = counts.length ∧ r.1.sum + r.2 = counts.sum + un ∧ r.2 ≤ un
    ∧ (∀ i, counts.getD i 0 ≤ r.1.getD i 0)
    ∧ (Within maxs counts → Within maxs r.1)
    ∧ (r.2 = un → r.1 = counts ∧ (0 < un → ∀ i ∈ os, atCap (maxs.getD i none) (counts.getD i 0) = true))
  | [], counts, un, _ => by simp [pass]
  | idx :: os, counts, un, h => by
    have hi := h idx (List.mem_cons_self ..)
    simp only [pass]
    split
    · rename_i hu; simp [hu]
    · rename_i hu
      split
      · rename_i hc
        obtain ⟨h1, h2, h3, h4, h5, h6⟩ :=
          pass_spec maxs os counts un (fun i hi => h i (List.mem_cons_of_mem _ hi))
        refine ⟨h1, h2, h3, h4, h5, fun he => ⟨(h6 he).1, fun hp i hi => ?_⟩⟩
        rcases List.mem_cons.mp hi with rfl | hi
        · exact hc
        · exact (h6 he).2 hp i hi
      · rename_i hc
        obtain ⟨h1, h2, h3, h4, h5, h6⟩ :=
          pass_spec maxs os (addAt counts idx) (un - 1)
            (fun i hi => by rw [addAt_length]; exact h i (List.mem_cons_of_mem _ hi))
        refine ⟨h1.trans (addAt_length ..), ?_, by omega, fun i => ?_, fun hw => h5 ?_, fun he => ?_⟩
        · rw [addAt_sum _ _ hi] at h2; omega
        · refine Nat.le_trans ?_ (h4 i); rw [addAt_getD _ _ _ hi]; omega
        · intro i m hm
          rw [addAt_getD _ _ _ hi]
          have := hw i m hm
          split
          · rename_i hij
            subst hij
            rw [hm] at hc
            simp only [atCap, decide_eq_true_eq] at hc
            omega
          · omega
        · exfalso; omega

theorem leftoverFuel_spec (maxs : List (Option Nat)) (os : List Nat) :
    ∀ (fuel : Nat) (counts : List Nat) (un : Nat), (∀ i ∈ os, i < counts.length) → un ≤ fuel →
    let r := leftoverFuel maxs os fuel counts un
    r.length = counts.length ∧ r.sum ≤ counts.sum + un
    ∧ (∀ i, counts.getD i 0 ≤ r.getD i 0)
    ∧ (Within maxs counts → Within maxs r)
    ∧ (r.sum = counts.sum + un ∨ ∀ i ∈ os, atCap (maxs.getD i none) (r.getD i 0) = true)
  | 0, counts, un, h, hf => by
    have : un = 0 := by omega
    subst this
    simp [leftoverFuel]
  | fuel + 1, counts, un, h, hf => by
    simp only [leftoverFuel]
    split
    · rename_i hu; simp [hu]
    · rename_i hu
      obtain ⟨h1, h2, h3, h4, h5, h6⟩ := pass_spec maxs os counts un h
      split
      · rename_i hlt
        obtain ⟨g1, g2, g3, g4, g5⟩ := leftoverFuel_spec maxs os fuel (pass maxs os counts un).1
          (pass maxs os counts un).2 (fun i hi => by rw [h1]; exact h i hi) (by omega)
        refine ⟨g1.trans h1, by omega, fun i => Nat.le_trans (h4 i) (g3 i), fun hw => g4 (h5 hw), ?_⟩
        rcases g5 with g5 | g5
        · left; omega
        · exact .inr g5
      · rename_i hge
        have heq : (pass maxs os counts un).2 = un := by omega
        obtain ⟨e1, e2⟩ := h6 heq
        refine ⟨h1, by omega, h4, h5, .inr fun i hi => ?_⟩
        rw [e1]; exact e2 (by omega) i hi

theorem order_perm (sh : List Rat) : (order sh).Perm (List.range sh.length) :=
  List.perm_insertionSort _ _

theorem floorCap_le (s : Rat) (m k : Nat) (h : m = k) : floorCap s (some m) ≤ k := by
  subst h; simp [floorCap]

theorem floors_within (sh : List Rat) (maxs : List (Option Nat)) :
    Within maxs (List.zipWith floorCap sh maxs) := by
  intro i m hm
  simp only [List.getD_eq_getElem?_getD, List.getElem?_zipWith] at hm ⊢
  cases hs : sh[i]? with
  | none => simp
  | some s =>
    cases hx : maxs[i]? with
    | none => simp
    | some x =>
      rw [hx] at hm
      simp only [Option.getD_some] at hm ⊢
      subst hm
      exact floorCap_le s m m rfl

/-- Everything needed about the task counts, for any shares whose whole parts fit in the budget. -/
theorem taskCounts_spec (sh : List Rat) (maxs : List (Option Nat)) (budget : Nat)
    (hlen : sh.length = maxs.length) (hfit : (List.zipWith floorCap sh maxs).sum ≤ budget) :
    let k := taskCounts sh maxs budget
    k.length = maxs.length ∧ k.sum ≤ budget
    ∧ (∀ i, (List.zipWith floorCap sh maxs).getD i 0 ≤ k.getD i 0)
    ∧ Within maxs k
    ∧ (k.sum = budget ∨ ∀ i < maxs.length, atCap (maxs.getD i none) (k.getD i 0) = true) := by
  have hl : (List.zipWith floorCap sh maxs).length = maxs.length := by simp [hlen]
  obtain ⟨h1, h2, h3, h4, h5⟩ := leftoverFuel_spec maxs (order sh)
    (budget - (List.zipWith floorCap sh maxs).sum) (List.zipWith floorCap sh maxs)
    (budget - (List.zipWith floorCap sh maxs).sum)
    (fun i hi => by
      rw [hl, ← hlen]
      exact List.mem_range.mp ((order_perm sh).mem_iff.mp hi)) (Nat.le_refl _)
  have heq : taskCounts sh maxs budget = leftoverFuel maxs (order sh)
    (budget - (List.zipWith floorCap sh maxs).sum) (List.zipWith floorCap sh maxs)
    (budget - (List.zipWith floorCap sh maxs).sum) := rfl
  rw [← heq] at h1 h2 h3 h4 h5
  refine ⟨h1.trans hl, by omega, h3, h4 (floors_within _ _), ?_⟩
  rcases h5 with h5 | h5
  · left; omega
  · exact .inr fun i hi => h5 i ((order_perm sh).mem_iff.mpr (by simpa [hlen] using hi))

theorem taskCounts_sum_pos (sh : List Rat) (maxs : List (Option Nat)) (budget : Nat)
    (hlen : sh.length = maxs.length) (hfit : (List.zipWith floorCap sh maxs).sum ≤ budget)
    (hb : 0 < budget) (hne : maxs ≠ []) (hcap : ∀ i, maxs.getD i none ≠ some 0) :
    0 < (taskCounts sh maxs budget).sum := by
  obtain ⟨h1, _, _, _, h5⟩ := taskCounts_spec sh maxs budget hlen hfit
  rcases h5 with h5 | h5
  · omega
  · have hpos : 0 < maxs.length := List.length_pos_iff.mpr hne
    have hc := h5 0 hpos
    have hk : 0 < (taskCounts sh maxs budget).getD 0 0 := by
      unfold atCap at hc
      cases hm : maxs.getD 0 none with
      | none => rw [hm] at hc; cases hc
      | some m =>
        rw [hm] at hc
        have : m ≠ 0 := fun h => hcap 0 (by rw [hm, h])
        simp only [decide_eq_true_eq] at hc
        omega
    cases hk' : taskCounts sh maxs budget with
    | nil => rw [hk'] at hk; simp at hk
    | cons a t => rw [hk'] at hk; simp at hk ⊢; omega

/-! ### Laying the tasks out -/

theorem pushAt_ok (m : TaskMap) (slot : Nat) (e : Entry) (h : slot < m.length) :
    pushAt m slot e = .ok (m.set slot (m[slot] ++ [e])) := by
  unfold pushAt; rw [List.getElem?_eq_getElem h]

theorem layOut_ok : ∀ (es : List Entry) (A : TaskMap) (b : Nat), es.length ≤ b →
    layOut (A ++ List.replicate b []) A.length es
      = .ok (A ++ es.map (fun e => [e]) ++ List.replicate (b - es.length) [], A.length + es.length)
  | [], A, b, _ => by simp [layOut]
  | e :: es, A, b, h => by
    obtain ⟨b, rfl⟩ : ∃ c, b = c + 1 := ⟨b - 1, by simp at h; omega⟩
    simp only [layOut]
    rw [pushAt_ok _ _ _ (by simp)]
    have hset : (A ++ List.replicate (b + 1) []).set A.length
        ((A ++ List.replicate (b + 1) [])[A.length]'(by simp) ++ [e])
        = (A ++ [[e]]) ++ List.replicate b [] := by
      simp [List.replicate_succ, List.set_append]
    rw [hset]
    have ih := layOut_ok es (A ++ [[e]]) b (by simpa using h)
    simp only [List.length_append, List.length_cons, List.length_nil, Nat.zero_add] at ih
    show layOut (A ++ [[e]] ++ List.replicate b []) (A.length + 1) es = _
    rw [ih]
    simp [List.append_assoc]
    omega

theorem flatten_set_perm (m : TaskMap) (i : Nat) (e : Entry) (h : i < m.length) :
    ((m.set i (m[i] ++ [e])).flatten).Perm (m.flatten ++ [e]) := by
  induction m generalizing i with
  | nil => simp at h
  | cons a t ih =>
    cases i with
    | zero =>
      simp only [List.set_cons_zero, List.getElem_cons_zero, List.flatten_cons, List.append_assoc]
      exact List.Perm.append_left _ List.perm_append_comm
    | succ i =>
      simp only [List.set_cons_succ, List.getElem_cons_succ, List.flatten_cons, List.append_assoc]
      exact List.Perm.append_left _ (ih i (by simpa using h))

theorem placeZeros_ok (T : Nat) : ∀ (cs : List Nat) (m : TaskMap) (z : Nat), 0 < T → T ≤ m.length →
    ∃ r, placeZeros T m z cs = .ok r ∧ r.length = m.length
      ∧ r.flatten.Perm (m.flatten ++ cs.map fun c => (c, ⟨0, 1⟩))
      ∧ ∀ t : Nat, r.getD t [] = [] → m.getD t [] = []
  | [], m, z, _, _ => ⟨m, rfl, rfl, by simp, fun _ h => h⟩
  | c :: cs, m, z, hT, hm => by
    have hz : z % T < m.length := Nat.lt_of_lt_of_le (Nat.mod_lt _ hT) hm
    simp only [placeZeros]
    rw [pushAt_ok _ _ _ hz]
    obtain ⟨r, h1, h2, h3, h4⟩ := placeZeros_ok T cs (m.set (z % T) (m[z % T] ++ [(c, ⟨0, 1⟩)])) (z + 1)
      hT (by simpa using hm)
    refine ⟨r, h1, by simpa using h2, ?_, fun t ht => ?_⟩
    · refine h3.trans ?_
      refine ((flatten_set_perm m _ (c, ⟨0, 1⟩) hz).append_right _).trans ?_
      simp
    · have := h4 t ht
      simp only [List.getD_eq_getElem?_getD, List.getElem?_set] at this ⊢
      split at this
      · rename_i heq
        subst heq
        simp [hz] at this
      · exact this

theorem zipIdx_eq (counts : List Nat) :
    counts.zipIdx = (List.range counts.length).map fun c => (counts.getD c 0, c) := by
  apply List.ext_getElem
  · simp
  · intro i h1 h2
    simp at h1
    simp [h1, List.getElem?_eq_getElem]

theorem laidOut_eq (counts : List Nat) :
    laidOut counts = (List.range counts.length).flatMap fun c =>
      (List.range (counts.getD c 0)).map fun i => (c, ⟨i, counts.getD c 0⟩) := by
  simp [laidOut, zipIdx_eq, List.flatMap_map]

theorem zeros_eq (counts : List Nat) :
    zeros counts = (List.range counts.length).filter fun c => counts.getD c 0 == 0 := by
  rw [zeros, zipIdx_eq, List.filter_map, List.map_map]
  simp [Function.comp_def]

theorem laidOut_length (counts : List Nat) : (laidOut counts).length = counts.sum := by
  unfold laidOut
  generalize hz : 0 = z
  clear hz
  induction counts generalizing z with
  | nil => simp
  | cons a t ih => simp [List.zipIdx_cons, ih]

/-- The children's tasks, as `split_children` means them: child `c` runs `max 1 k_c` tasks. -/
theorem perm_all (k : Nat → Nat) : ∀ (cs : List Nat),
    ((cs.flatMap fun c => (List.range (k c)).map fun i => ((c, ⟨i, k c⟩) : Entry))
      ++ (cs.filter fun c => k c == 0).map fun c => ((c, ⟨0, 1⟩) : Entry)).Perm
    (cs.flatMap fun c => (List.range (max 1 (k c))).map fun i => ((c, ⟨i, max 1 (k c)⟩) : Entry))
  | [] => by simp
  | c :: cs => by
    have ih := perm_all k cs
    simp only [List.flatMap_cons]
    by_cases hc : k c = 0
    · simp only [hc, List.range_zero, List.map_nil, List.nil_append, List.filter_cons, beq_self_eq_true,
        if_true, List.map_cons]
      refine List.perm_middle.trans ?_
      simpa using ih
    · have h1 : max 1 (k c) = k c := by omega
      have h2 : (k c == 0) = false := by simpa using hc
      simp only [h1, List.filter_cons, h2, List.append_assoc]
      exact List.Perm.append_left _ (by simpa using ih)

/-- The result of `split_children`, for any accepted input and any shares whose whole parts fit. -/
theorem splitWith_spec (sh : List Rat) (ws : List ChildWeight) (budget : Nat)
    (hlen : sh.length = ws.length) (hfit : (List.zipWith floorCap sh (ws.map (·.max))).sum ≤ budget)
    (hb : 0 < budget) (hne : ws ≠ []) (hcap : ∀ w ∈ ws, w.max ≠ some 0) (hw : ∀ w ∈ ws, 0 ≤ w.weight) :
    ∃ m, splitWith sh ws budget = .ok m ∧ m.length = budget
      ∧ m.flatten.Perm ((List.range ws.length).flatMap fun c =>
          (List.range (max 1 ((taskCounts sh (ws.map (·.max)) budget).getD c 0))).map fun i =>
            (c, ⟨i, max 1 ((taskCounts sh (ws.map (·.max)) budget).getD c 0)⟩))
      ∧ ∀ t < budget, m.getD t [] = [] → (taskCounts sh (ws.map (·.max)) budget).sum ≠ budget := by
  have hl : sh.length = (ws.map (·.max)).length := by simpa using hlen
  obtain ⟨h1, h2, _, _, _⟩ := taskCounts_spec sh (ws.map (·.max)) budget hl hfit
  have hpos := taskCounts_sum_pos sh (ws.map (·.max)) budget hl hfit hb (by simpa using hne) (by
    intro i hi
    simp only [List.getD_eq_getElem?_getD, List.getElem?_map] at hi
    cases hx : ws[i]? with
    | none => rw [hx] at hi; simp at hi
    | some w =>
      rw [hx] at hi
      exact hcap w (List.mem_of_getElem? hx) (by simpa using hi))
  generalize hk : taskCounts sh (ws.map (·.max)) budget = k at *
  have hlay := layOut_ok (laidOut k) [] budget (by rw [laidOut_length]; exact h2)
  simp only [List.nil_append, List.length_nil, Nat.zero_add] at hlay
  obtain ⟨r, r1, r2, r3, r4⟩ := placeZeros_ok (laidOut k).length (zeros k)
    ((laidOut k).map (fun e => [e]) ++ List.replicate (budget - (laidOut k).length) []) 0
    (by rw [laidOut_length]; exact hpos) (by simp)
  have hbud : ((laidOut k).map (fun e => [e]) ++ List.replicate (budget - (laidOut k).length) []).length
      = budget := by
    simp [laidOut_length]; omega
  refine ⟨r, ?_, r2.trans hbud, ?_, fun t ht hr => ?_⟩
  · unfold splitWith
    rw [if_neg (by omega), if_neg (by simpa using hne), if_neg, if_neg]
    · simp only [hk]
      rw [hlay]
      show (if 0 < (laidOut k).length then _ else _) = _
      rw [if_pos (by rw [laidOut_length]; exact hpos)]
      exact r1
    · simp only [List.any_eq_true, decide_eq_true_eq, not_exists, not_and]
      exact fun w hw' hlt => absurd (hw w hw') (by simpa using hlt)
    · simp only [List.any_eq_true, beq_iff_eq, not_exists, not_and]
      exact fun w hw' => hcap w hw'
  · refine r3.trans ?_
    have hf : ((laidOut k).map (fun e => [e]) ++ List.replicate (budget - (laidOut k).length) []).flatten
        = laidOut k := by
      simp [List.flatten_append, ← List.flatMap_def]
    rw [hf, laidOut_eq, zeros_eq, h1]
    simpa using perm_all (fun c => k.getD c 0) (List.range ws.length)
  · intro hsum
    have := r4 t hr
    simp only [List.getD_eq_getElem?_getD] at this
    rw [List.getElem?_append_left (by simp [laidOut_length, hsum]; exact ht)] at this
    have hlt : t < (laidOut k).length := by rw [laidOut_length]; omega
    simp [List.getElem?_eq_getElem hlt] at this

/-! ### Exact shares -/

theorem sum_mul_div (b t : Rat) : ∀ (l : List ChildWeight),
    (l.map fun w => b * w.weight / t).sum = b * (l.map (·.weight)).sum / t
  | [] => by simp
  | w :: l => by
    simp only [List.map_cons, List.sum_cons]
    rw [sum_mul_div b t l]
    ring

theorem sum_replicate_rat (n : Nat) (x : Rat) : (List.replicate n x).sum = n * x := by
  induction n with
  | zero => simp
  | succ n ih => rw [List.replicate_succ, List.sum_cons, ih]; push_cast; ring

theorem shares_length (ws : List ChildWeight) (b : Nat) : (shares ws b).length = ws.length := by
  simp only [shares]; split <;> simp

theorem shares_sum (ws : List ChildWeight) (b : Nat) (hne : ws ≠ []) : (shares ws b).sum = b := by
  simp only [shares]
  split
  · rename_i h
    rw [sum_mul_div]
    field_simp
  · rw [sum_replicate_rat]
    have : (ws.length : Rat) ≠ 0 := by
      have := List.length_pos_iff.mpr hne
      exact_mod_cast (by omega : ws.length ≠ 0)
    field_simp

theorem shares_nonneg (ws : List ChildWeight) (b : Nat) (hw : ∀ w ∈ ws, 0 ≤ w.weight) :
    ∀ s ∈ shares ws b, 0 ≤ s := by
  intro s hs
  simp only [shares] at hs
  split at hs
  · rename_i h
    obtain ⟨w, hm, rfl⟩ := List.mem_map.mp hs
    have := hw w hm
    positivity
  · rw [List.mem_replicate] at hs
    rw [hs.2]; positivity

theorem floorCap_le_share (s : Rat) (m : Option Nat) (h : 0 ≤ s) : (floorCap s m : Rat) ≤ s := by
  have h1 : floorCap s m ≤ s.floor.toNat := by
    unfold floorCap
    cases m with
    | none => simp
    | some m => exact Nat.min_le_left _ _
  have h2 : ((s.floor.toNat : Int) : Rat) ≤ s := by
    have h0 : 0 ≤ s.floor := Rat.le_floor_iff.mpr (by simpa using h)
    rw [Int.toNat_of_nonneg h0]
    exact Rat.floor_le s
  have h3 : (floorCap s m : Rat) ≤ (s.floor.toNat : Rat) := by exact_mod_cast h1
  exact le_trans h3 (by exact_mod_cast h2)

theorem zipWith_floor_le : ∀ (sh : List Rat) (maxs : List (Option Nat)), (∀ s ∈ sh, 0 ≤ s) →
    (((List.zipWith floorCap sh maxs).sum : Nat) : Rat) ≤ sh.sum
  | [], _, _ => by simp
  | s :: sh, [], h => by
    simp only [List.zipWith_nil_right, List.sum_nil, Nat.cast_zero]
    exact List.sum_nonneg h
  | s :: sh, m :: ms, h => by
    simp only [List.zipWith_cons_cons, List.sum_cons, Nat.cast_add]
    exact add_le_add (floorCap_le_share s m (h s (List.mem_cons_self ..)))
      (zipWith_floor_le sh ms fun x hx => h x (List.mem_cons_of_mem _ hx))

theorem shares_fit (ws : List ChildWeight) (b : Nat) (hne : ws ≠ []) (hw : ∀ w ∈ ws, 0 ≤ w.weight) :
    (List.zipWith floorCap (shares ws b) (ws.map (·.max))).sum ≤ b := by
  have := zipWith_floor_le (shares ws b) (ws.map (·.max)) (shares_nonneg ws b hw)
  rw [shares_sum ws b hne] at this
  exact_mod_cast this

end DD.Union
