import Verif.Model.TaskCount
import Verif.Lemmas.Boundary
/-
C19: merging task count annotations. C46: run-time task counts.
-/
namespace DD
open TaskCount

/-! ## Specification -/

/-- The maxima requested in a list of annotations. -/
def maxima (l : List TaskCount) : List Nat := l.filterMap fun | .maximum n => some n | .desired _ => none

/-- The wishes (not maxima) in a list of annotations. -/
def wishes (l : List TaskCount) : List Nat := l.filterMap fun | .desired n => some n | .maximum _ => none

/-- What a combination of wishes and maxima should be: the smallest maximum if there is one, else the largest wish. -/
def combined (l : List TaskCount) : TaskCount :=
  match maxima l with
  | [] => .desired ((wishes l).foldr max 0)
  | m :: ms => .maximum (ms.foldr min m)

/-! ## C19 -/

theorem C19_merge_comm (a b : TaskCount) : a.merge b = b.merge a := by
  cases a <;> cases b <;> simp [merge, Nat.max_comm, Nat.min_comm]

theorem C19_merge_assoc (a b c : TaskCount) : (a.merge b).merge c = a.merge (b.merge c) := by
  cases a <;> cases b <;> cases c <;> simp [merge, Nat.max_assoc, Nat.min_assoc]

theorem C19_merge_idem (a : TaskCount) : a.merge a = a := by cases a <;> simp [merge]

/-- Limiting to the cluster size commutes with merging. -/
theorem C19_limit_merge (a b : TaskCount) (k : Nat) : (a.merge b).limit k = (a.limit k).merge (b.limit k) := by
  cases a <;> cases b <;> simp [merge, limit] <;> omega

theorem C19_limit_le (a : TaskCount) (k : Nat) : (a.limit k).asUsize ≤ k := by
  cases a <;> simp [limit, asUsize] <;> omega

theorem foldr_min_le (l : List Nat) (b : Nat) : l.foldr min b ≤ b ∧ ∀ x ∈ l, l.foldr min b ≤ x := by
  induction l with
  | nil => simp
  | cons a l ih =>
    simp only [List.foldr_cons, List.mem_cons]
    refine ⟨by omega, ?_⟩
    rintro x (rfl | h)
    · omega
    · have := ih.2 x h; omega

theorem foldr_min_mem (l : List Nat) (b : Nat) : l.foldr min b = b ∨ l.foldr min b ∈ l := by
  induction l with
  | nil => simp
  | cons a l ih =>
    simp only [List.foldr_cons, List.mem_cons]
    rcases Nat.le_total a (l.foldr min b) with h | h
    · rw [Nat.min_eq_left h]; exact Or.inr (Or.inl rfl)
    · rw [Nat.min_eq_right h]; rcases ih with h | h
      · exact Or.inl h
      · exact Or.inr (Or.inr h)

theorem le_foldr_max (l : List Nat) (b : Nat) : b ≤ l.foldr max b ∧ ∀ x ∈ l, x ≤ l.foldr max b := by
  induction l with
  | nil => simp
  | cons a l ih =>
    simp only [List.foldr_cons, List.mem_cons]
    refine ⟨by omega, ?_⟩
    rintro x (rfl | h)
    · omega
    · have := ih.2 x h; omega

theorem foldl_merge_eq_combined (l : List TaskCount) (a : TaskCount) : l.foldl merge a = combined (a :: l) := by
  induction l generalizing a with
  | nil => cases a <;> simp [combined, maxima, wishes]
  | cons b l ih =>
    rw [List.foldl_cons, ih]
    cases a <;> cases b <;> simp only [merge, combined, maxima, wishes, List.filterMap_cons]
    · split <;> simp [Nat.max_assoc]
    · rename_i n m
      congr 1
      induction (l.filterMap fun | .maximum n => some n | .desired _ => none) with
      | nil => simp [Nat.min_comm]
      | cons x xs ihx => simp only [List.foldr_cons] at ihx ⊢; omega

/-- **C19** Merging a node's own annotation with those of its children, as the planner does (a left fold), gives: the
smallest maximum when any is requested, otherwise the largest wish. -/
theorem C19_fold_is_combined (own : TaskCount) (children : List TaskCount) :
    children.foldl merge own = combined (own :: children) := foldl_merge_eq_combined children own

/-- **C19** The order of the children (and of the own annotation among them) does not matter. -/
theorem C19_fold_perm (own own' : TaskCount) (children children' : List TaskCount)
    (h : (own :: children).Perm (own' :: children')) : children.foldl merge own = children'.foldl merge own' := by
  have hf : ∀ (l l' : List TaskCount), l.Perm l' → l.foldr merge (.desired 0) = l'.foldr merge (.desired 0) := by
    intro l l' h
    induction h with
    | nil => rfl
    | cons x _ ih => simp only [List.foldr_cons, ih]
    | swap x y l => simp only [List.foldr_cons]; rw [← C19_merge_assoc, ← C19_merge_assoc, C19_merge_comm x y]
    | trans _ _ h1 h2 => exact h1.trans h2
  have hfold : ∀ (l : List TaskCount) (a : TaskCount), l.foldl merge a = (a :: l).foldr merge (.desired 0) := by
    intro l
    induction l with
    | nil => intro a; cases a <;> simp [merge]
    | cons b l ih =>
      intro a
      rw [List.foldl_cons, ih]
      simp only [List.foldr_cons]
      rw [C19_merge_assoc]
  rw [hfold, hfold]
  exact hf _ _ h

/-- **C19** The merged count never exceeds any requested maximum. -/
theorem C19_fold_le_maximum (own : TaskCount) (children : List TaskCount) (m : Nat)
    (hm : TaskCount.maximum m ∈ own :: children) : (children.foldl merge own).asUsize ≤ m := by
  rw [C19_fold_is_combined]
  have : m ∈ maxima (own :: children) := by
    simp only [maxima, List.mem_filterMap]; exact ⟨_, hm, rfl⟩
  unfold combined
  split
  · rename_i h; rw [h] at this; simp at this
  · rename_i x xs h
    rw [h] at this
    simp only [asUsize]
    rcases List.mem_cons.mp this with rfl | h'
    · exact (foldr_min_le xs _).1
    · exact (foldr_min_le xs _).2 m h'

/-- **C19** Without maxima, the merged count is the largest wish: every wish fits, and it is one of the wishes. -/
theorem C19_fold_largest_wish (own : TaskCount) (children : List TaskCount)
    (h : ∀ m, TaskCount.maximum m ∉ own :: children) :
    (∀ n, TaskCount.desired n ∈ own :: children → n ≤ (children.foldl merge own).asUsize) ∧
      TaskCount.desired (children.foldl merge own).asUsize ∈ own :: children := by
  have hw : ∀ (l : List TaskCount) (a : Nat), (∀ m, TaskCount.maximum m ∉ l) →
      ∃ k, l.foldl merge (.desired a) = .desired k ∧ a ≤ k ∧ (∀ n, TaskCount.desired n ∈ l → n ≤ k) ∧
        (k = a ∨ TaskCount.desired k ∈ l) := by
    intro l
    induction l with
    | nil => intro a _; exact ⟨a, rfl, Nat.le_refl _, by simp, Or.inl rfl⟩
    | cons b l ih =>
      intro a hno
      cases b with
      | maximum m => exact absurd List.mem_cons_self (hno m)
      | desired b =>
        obtain ⟨k, h1, h2, h3, h4⟩ := ih (max a b) (fun m hm => hno m (List.mem_cons_of_mem _ hm))
        refine ⟨k, by simpa [merge] using h1, by omega, ?_, ?_⟩
        · intro n hn
          rcases List.mem_cons.mp hn with h | h
          · cases h; omega
          · exact h3 n h
        · rcases h4 with h4 | h4
          · rcases Nat.le_total a b with hab | hab
            · right; rw [h4, Nat.max_eq_right hab]; simp
            · left; omega
          · right; exact List.mem_cons_of_mem _ h4
  cases own with
  | maximum m => exact absurd List.mem_cons_self (h m)
  | desired a =>
    obtain ⟨k, h1, h2, h3, h4⟩ := hw children a (fun m hm => h m (List.mem_cons_of_mem _ hm))
    rw [h1]
    refine ⟨?_, ?_⟩
    · intro n hn
      rcases List.mem_cons.mp hn with h | h
      · cases h; exact h2
      · exact h3 n h
    · rcases h4 with h4 | h4
      · rw [h4]; exact List.mem_cons_self
      · exact List.mem_cons_of_mem _ h4

example : [TaskCount.desired 7, .maximum 3, .desired 9, .maximum 4].foldl merge (.desired 1) = .maximum 3 := by decide
example : [TaskCount.desired 7, .desired 9].foldl merge (.desired 1) = .desired 9 := by decide

/-! ## C46 -/

theorem divCeil_le_divCeil (a b c : Nat) (h : a ≤ b) : divCeil a c ≤ divCeil b c := by
  unfold divCeil; exact Nat.div_le_div_right (by omega)

/-- The configured maximum is never zero, even with no workers. -/
theorem C46_max_tasks_pos (cfg : Nat) (urls : Except Err Nat) (m : Nat) (h : maxTasks cfg urls = .ok m) : 1 ≤ m := by
  unfold maxTasks at h
  split at h
  · cases urls with
    | error e => simp [Except.map] at h
    | ok n => simp [Except.map] at h; omega
  · rename_i hne
    simp only [Except.ok.injEq] at h
    rcases Nat.eq_zero_or_pos cfg with h0 | h0
    · exact absurd h0 hne
    · omega

/-- **C46** For every measured cost (including none), configured byte budget, partition count and annotation of the
stage within the cluster limit: the run-time task count exists, is at most the maximum number of tasks, is at most any
maximum requested for the stage, and is at least one unless the stage itself was annotated with a maximum of zero. -/
theorem C46_dynamic_bounds (cpu : Option Nat) (bytes parts cfg : Nat) (urls : Except Err Nat) (m : Nat) (a : TaskCount)
    (hm : maxTasks cfg urls = .ok m) (hp : 0 < parts) (ha : a.asUsize ≤ m) :
    ∃ r, dynamicTaskCount cpu bytes parts m a = .ok r ∧ r.asUsize ≤ m ∧
      (a ≠ .maximum 0 → 1 ≤ r.asUsize) ∧ (∀ k, a = .maximum k → r.asUsize ≤ k) := by
  have h1 := C46_max_tasks_pos cfg urls m hm
  unfold dynamicTaskCount clampE
  rw [if_neg (by omega), if_neg (by omega)]
  refine ⟨_, rfl, ?_, ?_, ?_⟩
  · cases a <;> simp only [merge, asUsize] at * <;> omega
  · intro h0
    cases a with
    | desired n => simp only [merge, asUsize]; omega
    | maximum n =>
      simp only [merge, asUsize]
      rcases Nat.eq_zero_or_pos n with rfl | h
      · exact absurd rfl h0
      · exact h
  · rintro k rfl; simp [merge, asUsize]

/-- **C46** The run-time task count grows with the measured cost. -/
theorem C46_dynamic_mono (c c' : Nat) (hc : c ≤ c') (bytes parts m : Nat) (a r r' : TaskCount)
    (h : dynamicTaskCount (some c) bytes parts m a = .ok r) (h' : dynamicTaskCount (some c') bytes parts m a = .ok r') :
    r.asUsize ≤ r'.asUsize := by
  unfold dynamicTaskCount clampE at h h'
  split at h
  · simp at h
  · rename_i hp
    rw [if_neg hp] at h'
    split at h
    · simp [Except.map] at h
    · rename_i hcl
      rw [if_neg hcl] at h'
      simp only [Except.map, Except.ok.injEq] at h h'
      subst h h'
      have := divCeil_le_divCeil _ _ parts (divCeil_le_divCeil c c' (max bytes 1) hc)
      simp only [Option.getD_some]
      cases a <;> simp only [merge, asUsize] <;> omega

example : dynamicTaskCount (some 1000) 16 4 10 (.desired 2) = .ok (.desired 10) ∧
    dynamicTaskCount (some 1000) 100 4 10 (.desired 2) = .ok (.desired 3) ∧
    dynamicTaskCount none 16 4 10 (.maximum 1) = .ok (.maximum 1) ∧ maxTasks 0 (.ok 0) = .ok 1 := by decide

end DD
