import Verif.Spec.Choice
import Verif.Lemmas.PlanExec

namespace DD.Tree

variable {Row : Type}

/-! ### Limits -/

theorem IsLimit.congr {k m : Nat} {a b x y : List Row} (h : IsLimit k m a x) (ha : a.Perm b) (hx : x.Perm y) :
    IsLimit k m b y := by
  obtain ⟨h1, rest, h2⟩ := h
  exact ⟨by rw [← hx.length_eq, h1, ha.length_eq], rest, ((hx.symm.append_right rest).trans h2).trans ha⟩

theorem IsLocalLimit.congr {n : Nat} {a b x : List Row} (h : IsLocalLimit n a x) (ha : a.Perm b) : IsLocalLimit n b x := by
  obtain ⟨h1, rest, h2⟩ := h
  exact ⟨by rw [← ha.length_eq]; exact h1, rest, h2.trans ha⟩

theorem IsLocalLimit.nil {n : Nat} {x : List Row} (h : IsLocalLimit n [] x) : x = [] := by
  obtain ⟨_, rest, h2⟩ := h
  exact (List.append_eq_nil_iff.mp h2.eq_nil).1

theorem perm_append_swap (x r y s : List Row) : ((x ++ y) ++ (r ++ s)).Perm ((x ++ r) ++ (y ++ s)) := by
  rw [List.append_assoc, List.append_assoc]
  refine List.Perm.append_left _ ?_
  rw [← List.append_assoc, ← List.append_assoc]
  exact List.perm_append_comm.append_right _

theorem IsLocalLimit.append {n : Nat} {a b x y : List Row} (h : IsLocalLimit n a x) (g : IsLocalLimit n b y) :
    IsLocalLimit n (a ++ b) (x ++ y) := by
  obtain ⟨h1, r, h2⟩ := h
  obtain ⟨g1, s, g2⟩ := g
  refine ⟨?_, r ++ s, (perm_append_swap x r y s).trans (h2.append g2)⟩
  simp only [List.length_append]
  omega

/-- A limit of what per-partition limits leave is a limit of the table. -/
theorem IsLimit.of_local {k m n : Nat} {a y z : List Row} (hn : k + m ≤ n) (h : IsLocalLimit n a y) (g : IsLimit k m y z) :
    IsLimit k m a z := by
  obtain ⟨h1, r, h2⟩ := h
  obtain ⟨g1, s, g2⟩ := g
  have hl := h2.length_eq
  simp only [List.length_append] at hl
  refine ⟨by omega, s ++ r, ?_⟩
  rw [← List.append_assoc]
  exact (g2.append_right r).trans h2

/-- An offset of a limit. -/
theorem IsLimit.of_limit {k m n : Nat} {a y z : List Row} (hn : k + m ≤ n) (h : IsLimit 0 n a y) (g : IsLimit k m y z) :
    IsLimit k m a z :=
  .of_local hn ⟨by rw [h.1, Nat.sub_zero], h.2⟩ g

/-! ### Sorted limits -/

variable {le : Row → Row → Bool}

theorem IsTop.congr {k m : Nat} {a b x y : List Row} (h : IsTop le k m a x) (ha : a.Perm b) (hx : x.Perm y) :
    IsTop le k m b y := by
  obtain ⟨p, q, h1, h2, h3, h4, h5⟩ := h
  refine ⟨p, q, ((hx.symm.append_left p).append_right q |>.trans h1).trans ha, by rw [h2, ha.length_eq],
    by rw [← hx.length_eq, h3, ha.length_eq], fun r hr s hs => h4 r hr s ?_, fun r hr s hs => h5 r (hx.mem_iff.mpr hr) s hs⟩
  rcases List.mem_append.mp hs with hs | hs
  · exact List.mem_append_left _ (hx.mem_iff.mpr hs)
  · exact List.mem_append_right _ hs

theorem IsLocalTop.congr {n : Nat} {a b x : List Row} (h : IsLocalTop le n a x) (ha : a.Perm b) : IsLocalTop le n b x := by
  obtain ⟨rest, h1, h2⟩ := h
  exact ⟨rest, h1.trans ha, h2⟩

theorem IsLocalTop.nil {n : Nat} {x : List Row} (h : IsLocalTop le n [] x) : x = [] := by
  obtain ⟨rest, h2, _⟩ := h
  exact (List.append_eq_nil_iff.mp h2.eq_nil).1

theorem IsLocalTop.append {n : Nat} {a b x y : List Row} (h : IsLocalTop le n a x) (g : IsLocalTop le n b y) :
    IsLocalTop le n (a ++ b) (x ++ y) := by
  obtain ⟨r, h1, h2⟩ := h
  obtain ⟨s, g1, g2⟩ := g
  refine ⟨r ++ s, (perm_append_swap x r y s).trans (h1.append g1), fun t ht => ?_⟩
  rw [List.filter_append, List.length_append]
  rcases List.mem_append.mp ht with ht | ht
  · have := h2 t ht; omega
  · have := g2 t ht; omega

theorem exists_not_mem_filter {p : Row → Bool} {l : List Row} {s : Row} (hs : s ∈ l) (h : p s = false) :
    (l.filter p).length < l.length := by
  induction l with
  | nil => cases hs
  | cons a l ih =>
    rcases List.mem_cons.mp hs with rfl | hs
    · rw [List.filter_cons_of_neg (by simp [h]), List.length_cons]
      exact Nat.lt_succ_of_le (List.length_filter_le _ _)
    · have := ih hs
      rw [List.filter_cons]
      split <;> simp only [List.length_cons] <;> omega

/-- The first rows of what the first rows of every partition leave are the first rows of the table. -/
theorem IsTop.of_local (ht : ∀ a b c, le a b = true → le b c = true → le a c = true) {k m n : Nat} {a y z : List Row}
    (hn : k + m ≤ n) (h : IsLocalTop le n a y) (g : IsTop le k m y z) : IsTop le k m a z := by
  obtain ⟨r, h1, h2⟩ := h
  obtain ⟨p, q, g1, g2, g3, g4, g5⟩ := g
  have hl := h1.length_eq
  have gl := g1.length_eq
  simp only [List.length_append] at hl gl
  by_cases hr : r = []
  · subst hr
    rw [List.append_nil] at h1
    exact IsTop.congr ⟨p, q, g1, g2, g3, g4, g5⟩ h1 (.refl _)
  · obtain ⟨r0, hr0⟩ := List.exists_mem_of_ne_nil r hr
    have hy : n ≤ y.length := Nat.le_trans (h2 r0 hr0) (List.length_filter_le _ _)
    have key : ∀ s ∈ p ++ z, ∀ t ∈ r, le s t = true := by
      intro s hs t htr
      by_contra hne
      have hne : le s t = false := by simpa using hne
      have h3 := h2 t htr
      rw [(g1.filter (le · t)).length_eq.symm, List.filter_append, List.length_append] at h3
      have h4 := exists_not_mem_filter (p := (le · t)) hs hne
      simp only [List.length_append] at h4
      have : 0 < (q.filter (le · t)).length := by omega
      obtain ⟨u, hu⟩ := List.exists_mem_of_length_pos this
      rw [List.mem_filter] at hu
      have hsu : le s u = true := by
        rcases List.mem_append.mp hs with hs | hs
        · exact g4 s hs u (List.mem_append_right _ hu.1)
        · exact g5 s hs u hu.1
      rw [ht s u t hsu hu.2] at hne
      cases hne
    refine ⟨p, q ++ r, ?_, by omega, by omega, fun s hs t htr => ?_, fun s hs t htr => ?_⟩
    · rw [← List.append_assoc]
      exact (g1.append_right r).trans h1
    · rcases List.mem_append.mp htr with h | h
      · exact g4 s hs t (List.mem_append_left _ h)
      · rcases List.mem_append.mp h with h | h
        · exact g4 s hs t (List.mem_append_right _ h)
        · exact key s (List.mem_append_left _ hs) t h
    · rcases List.mem_append.mp htr with h | h
      · exact g5 s hs t h
      · exact key s (List.mem_append_right _ hs) t h

/-- The first rows are what any partition leaves, at least. -/
theorem IsTop.local {n : Nat} {a x : List Row} (h : IsTop le 0 n a x) : IsLocalTop le n a x := by
  obtain ⟨p, q, h1, h2, h3, h4, h5⟩ := h
  have : p = [] := List.eq_nil_of_length_eq_zero (by simpa using h2)
  subst this
  refine ⟨q, by simpa using h1, fun t ht => ?_⟩
  have : x.filter (le · t) = x := List.filter_eq_self.mpr fun s hs => h5 s hs t ht
  rw [this, h3]
  have hl := h1.length_eq
  have : 0 < q.length := List.length_pos_of_mem ht
  simp only [List.nil_append, List.length_append] at hl
  omega

theorem IsTop.of_top (ht : ∀ a b c, le a b = true → le b c = true → le a c = true) {k m n : Nat} {a y z : List Row}
    (hn : k + m ≤ n) (h : IsTop le 0 n a y) (g : IsTop le k m y z) : IsTop le k m a z :=
  .of_local ht hn h.local g

/-- Cutting rows out of any arrangement of the table. -/
theorem IsLimit.of_perm {k m : Nat} {a s : List Row} (h : s.Perm a) : IsLimit k m a ((s.drop k).take m) := by
  refine ⟨by simp [h.length_eq], s.take k ++ (s.drop k).drop m, List.Perm.trans ?_ h⟩
  rw [← List.append_assoc]
  refine (List.perm_append_comm.append_right _).trans ?_
  rw [List.append_assoc, List.take_append_drop, List.take_append_drop]

theorem IsLimit.local {n : Nat} {a x : List Row} (h : IsLimit 0 n a x) : IsLocalLimit n a x :=
  ⟨by rw [h.1, Nat.sub_zero], h.2⟩

/-- Cutting rows out of the sorted table. -/
theorem IsTop.of_sorted {k m : Nat} {a s : List Row} (h : s.Perm a) (hs : s.Pairwise (le · · = true)) :
    IsTop le k m a ((s.drop k).take m) := by
  have e1 : s.take k ++ ((s.drop k).take m ++ (s.drop k).drop m) = s := by simp
  rw [← e1, List.pairwise_append, List.pairwise_append] at hs
  refine ⟨s.take k, (s.drop k).drop m, ?_, by simp [h.length_eq], by simp [h.length_eq], hs.2.2, hs.2.1.2.2⟩
  rw [List.append_assoc, e1]
  exact h

/-! ### As operators -/

theorem choice_whole {R : List Row → List Row → Prop} {choose h} (hR : ∀ a b x, a.Perm b → R a x → R b x) :
    Whole [.perm] .perm (Op.choice R choose h) := by
  intro as bs x hs hx
  match as, bs with
  | [a], [b] => exact ⟨x, hR a b x hs.1 hx, .refl _⟩
  | [], _ | [_], [] | _ :: _ :: _, [] | [_], _ :: _ :: _ => simp [SameInputs] at hs
  | _ :: _ :: _, [_] | _ :: _ :: _, _ :: _ :: _ => simp [SameInputs] at hs

theorem choice_hom {R : List Row → List Row → Prop} {choose h} (hnil : ∀ x, R [] x → x = [])
    (happ : ∀ a b x y, R a x → R b y → R (a ++ b) (x ++ y)) (hR : ∀ a b x, a.Perm b → R a x → R b x) :
    Hom .perm .perm (Op.choice R choose h) where
  nil x hx := .of_eq (hnil x hx)
  append a b x y hx hy := ⟨_, happ a b x y hx hy, .refl _⟩
  congr a b x hab hx := ⟨x, hR a b x hab hx, .refl _⟩

end DD.Tree
