/-
Limits commute with merging, and the rewritten nodes may return what the original ones may.
-/
import Verif.Spec.Limit
import Verif.Lemmas.Boundary

namespace DD.Limit

variable {Row : Type}

/-! ### Merging -/

theorem Order.any : Order (fun _ _ : Row => True) := ⟨fun _ _ => .inl trivial, fun _ _ _ _ _ => trivial⟩

/-- Some list has a least first row, unless all are empty. -/
theorem least {R : Row → Row → Prop} (hR : Order R) : ∀ ls : List (List Row), (∀ l ∈ ls, l = []) ∨
    ∃ (i : Nat) (x : Row) (t : List Row), ls[i]? = some (x :: t) ∧ ∀ (j : Nat) y t', ls[j]? = some (y :: t') → R x y
  | [] => .inl (by simp)
  | l :: ls => by
    rcases least hR ls with h | ⟨i, x, t, h1, h2⟩
    · cases l with
      | nil => exact .inl (by simpa using h)
      | cons x t =>
        refine .inr ⟨0, x, t, rfl, ?_⟩
        intro j y t' hj
        cases j with
        | zero => cases hj; rcases hR.1 x x with h | h <;> exact h
        | succ j =>
          have := h _ (List.mem_of_getElem? hj)
          cases this
    · cases l with
      | nil =>
        refine .inr ⟨i + 1, x, t, h1, ?_⟩
        intro j y t' hj
        cases j with
        | zero => cases hj
        | succ j => exact h2 j y t' hj
      | cons z u =>
        rcases hR.1 z x with hz | hz
        · refine .inr ⟨0, z, u, rfl, ?_⟩
          intro j y t' hj
          cases j with
          | zero => cases hj; rcases hR.1 z z with h | h <;> exact h
          | succ j => exact hR.2 _ _ _ hz (h2 j y t' hj)
        · refine .inr ⟨i + 1, x, t, h1, ?_⟩
          intro j y t' hj
          cases j with
          | zero => cases hj; exact hz
          | succ j => exact h2 j y t' hj

theorem flatten_set_length {ls : List (List Row)} {i : Nat} {x t} (h : ls[i]? = some (x :: t)) :
    (ls.set i t).flatten.length + 1 = ls.flatten.length := by
  induction ls generalizing i with
  | nil => cases h
  | cons l ls ih =>
    cases i with
    | zero => cases h; simp [Nat.add_right_comm]
    | succ i =>
      have := ih (i := i) h
      simp only [List.set_cons_succ, List.flatten_cons, List.length_append]
      omega

/-- Merging never gets stuck. -/
theorem Merged.exists {R : Row → Row → Prop} (hR : Order R) (ls : List (List Row)) : ∃ l, Merged R ls l := by
  generalize hn : ls.flatten.length = n
  induction n generalizing ls with
  | zero =>
    rcases least hR ls with h | ⟨i, x, t, h1, h2⟩
    · exact ⟨[], .done h⟩
    · have := flatten_set_length h1
      omega
  | succ n ih =>
    rcases least hR ls with h | ⟨i, x, t, h1, h2⟩
    · exact ⟨[], .done h⟩
    · have := flatten_set_length h1
      obtain ⟨l, hl⟩ := ih (ls.set i t) (by omega)
      exact ⟨x :: l, .step h1 h2 hl⟩

/-- Each list cut off after its own number of rows. -/
def cut (b : Nat → Nat) (ls : List (List Row)) : List (List Row) := ls.mapIdx fun i l => l.take (b i)

theorem cut_get (b : Nat → Nat) (ls : List (List Row)) (i : Nat) : (cut b ls)[i]? = ls[i]?.map (·.take (b i)) := by
  simp [cut, List.getElem?_mapIdx]

theorem cut_set (b : Nat → Nat) (ls : List (List Row)) (i : Nat) (t : List Row) :
    (cut b ls).set i (t.take (b i - 1)) = cut (Function.update b i (b i - 1)) (ls.set i t) := by
  apply List.ext_getElem?
  intro j
  rw [cut_get, List.getElem?_set, List.getElem?_set, cut_get]
  have hl : (cut b ls).length = ls.length := by simp [cut]
  by_cases hij : i = j
  · subst hij
    rw [hl]
    by_cases hi : i < ls.length <;> simp [hi]
  · have : j ≠ i := fun e => hij e.symm
    simp [hij, Function.update_of_ne this]

/-- The first `n` rows of a merge only depend on the first `n` rows of the lists. -/
theorem merged_take {R : Row → Row → Prop} (hR : Order R) : ∀ (n : Nat) (ls : List (List Row)) (b : Nat → Nat), (∀ i, n ≤ b i) →
    ∀ r, (∃ l, Merged R (cut b ls) l ∧ r = l.take n) ↔ ∃ l, Merged R ls l ∧ r = l.take n
  | 0, ls, b, _, r => by
    obtain ⟨l, h1⟩ := Merged.exists hR (cut b ls)
    obtain ⟨l', h2⟩ := Merged.exists hR ls
    simp only [List.take_zero]
    exact ⟨fun ⟨_, _, e⟩ => ⟨l', h2, e⟩, fun ⟨_, _, e⟩ => ⟨l, h1, e⟩⟩
  | n + 1, ls, b, hb, r => by
    have hup : ∀ i, (∀ j, n ≤ Function.update b i (b i - 1) j) := by
      intro i j
      by_cases hij : j = i
      · subst hij
        have := hb j
        simp; omega
      · rw [Function.update_of_ne hij]
        have := hb j; omega
    have htake : ∀ i (x : Row) t, (x :: t).take (b i) = x :: t.take (b i - 1) := by
      intro i x t
      have := hb i
      obtain ⟨m, hm⟩ : ∃ m, b i = m + 1 := ⟨b i - 1, by omega⟩
      rw [hm]; rfl
    constructor
    · rintro ⟨l, hl, rfl⟩
      cases hl with
      | done h =>
        refine ⟨[], .done ?_, rfl⟩
        intro l hl
        obtain ⟨i, hi, rfl⟩ := List.getElem_of_mem hl
        have h1 : (cut b ls)[i]? = some (ls[i].take (b i)) := by
          rw [cut_get, List.getElem?_eq_getElem hi]; rfl
        have := h _ (List.mem_of_getElem? h1)
        cases hx : ls[i] with
        | nil => rfl
        | cons x t => rw [hx, htake] at this; cases this
      | @step _ i x t l h1 h2 hl =>
        rw [cut_get, Option.map_eq_some_iff] at h1
        obtain ⟨l0, e1, e2⟩ := h1
        cases l0 with
        | nil => simp at e2
        | cons x0 t0 =>
          rw [htake] at e2
          injection e2 with e3 e4
          subst e3
          rw [← e4, cut_set] at hl
          obtain ⟨l', hl', e⟩ := (merged_take hR n (ls.set i t0) _ (hup i) (l.take n)).mp ⟨l, hl, rfl⟩
          refine ⟨x0 :: l', .step e1 ?_ hl', by rw [List.take_succ_cons, List.take_succ_cons, e]⟩
          intro j y t' hj
          exact h2 j y (t'.take (b j - 1)) (by rw [cut_get, hj, Option.map_some, htake])
    · rintro ⟨l, hl, rfl⟩
      cases hl with
      | done h =>
        refine ⟨[], .done ?_, rfl⟩
        intro l hl
        obtain ⟨i, hi⟩ := List.mem_iff_getElem?.mp hl
        rw [cut_get, Option.map_eq_some_iff] at hi
        obtain ⟨l0, e1, rfl⟩ := hi
        rw [h _ (List.mem_of_getElem? e1)]
        simp
      | @step _ i x t l h1 h2 hl =>
        obtain ⟨l', hl', e⟩ := (merged_take hR n (ls.set i t) _ (hup i) (l.take n)).mpr ⟨l, hl, rfl⟩
        rw [← cut_set] at hl'
        refine ⟨x :: l', .step (t := t.take (b i - 1)) ?_ ?_ hl', by rw [List.take_succ_cons, List.take_succ_cons, e]⟩
        · rw [cut_get, h1, Option.map_some, htake]
        · intro j y t' hj
          rw [cut_get, Option.map_eq_some_iff] at hj
          obtain ⟨l0, e1, e2⟩ := hj
          cases l0 with
          | nil => simp at e2
          | cons y0 t0 =>
            rw [htake] at e2
            injection e2 with e3
            subst e3
            exact h2 j _ t0 e1

/-- The same with one limit for all lists. -/
theorem merged_limit {R : Row → Row → Prop} (hR : Order R) (n P : Nat) (u : Outcome Row) (r : List Row) :
    (∃ l, Merged R ((List.range P).map fun q => (u q).take n) l ∧ r = l.take n)
      ↔ ∃ l, Merged R ((List.range P).map u) l ∧ r = l.take n := by
  have : (List.range P).map (fun q => (u q).take n) = cut (fun _ => n) ((List.range P).map u) := by
    apply List.ext_getElem?
    intro i
    rw [cut_get]
    by_cases hi : i < P
    · simp [List.getElem?_range hi]
    · simp [hi]
  rw [this]
  exact merged_take hR n _ _ (fun _ => Nat.le_refl _) r

theorem Merged.perm {R : Row → Row → Prop} {ls : List (List Row)} {l : List Row} (h : Merged R ls l) : l.Perm ls.flatten := by
  induction h with
  | done h =>
    rename_i ls
    have : ls.flatten = [] := by simpa using h
    rw [this]
  | @step ls i x t l h1 h2 h3 ih =>
    have : ∀ (ls : List (List Row)) (i : Nat), ls[i]? = some (x :: t) → (x :: (ls.set i t).flatten).Perm ls.flatten := by
      intro ls
      induction ls with
      | nil => intro i h; cases h
      | cons a ls ih =>
        intro i h
        cases i with
        | zero => cases h; exact .refl _
        | succ i =>
          simp only [List.set_cons_succ, List.flatten_cons]
          exact List.perm_middle.symm.trans (List.Perm.append_left _ (ih i h))
    exact (List.Perm.cons x ih).trans (this ls i h1)

/-- Merging sorted lists gives a sorted list. -/
theorem Merged.sorted {R : Row → Row → Prop} (hR : Order R) {ls : List (List Row)} {l : List Row} (h : Merged R ls l)
    (hs : ∀ l ∈ ls, l.Pairwise R) : l.Pairwise R := by
  induction h with
  | done h => exact .nil
  | @step ls i x t l h1 h2 h3 ih =>
    have hx := hs _ (List.mem_of_getElem? h1)
    have hset : ∀ l ∈ ls.set i t, l.Pairwise R := by
      intro l' hl'
      rcases List.mem_or_eq_of_mem_set hl' with h | rfl
      · exact hs _ h
      · exact (List.pairwise_cons.mp hx).2
    refine List.pairwise_cons.mpr ⟨?_, ih hset⟩
    intro y hy
    have hy := h3.perm.mem_iff.mp hy
    obtain ⟨l', hl', hy'⟩ := List.mem_flatten.mp hy
    rcases List.mem_or_eq_of_mem_set hl' with h | rfl
    · obtain ⟨j, hj⟩ := List.mem_iff_getElem?.mp h
      cases l' with
      | nil => cases hy'
      | cons z u =>
        have hz := h2 j z u hj
        rcases List.mem_cons.mp hy' with rfl | hy'
        · exact hz
        · exact hR.2 _ _ _ hz ((List.pairwise_cons.mp (hs _ h)).1 y hy')
    · exact (List.pairwise_cons.mp hx).1 y hy'

/-! ### Coalesces -/

/-- A coalesce reads from existing producer tasks, one partition at most. -/
theorem execute_reads {ps tasks : Nat} {ctx : TaskCtx} {q : Nat} {pulls} (h : (CoalesceExec.mk ps tasks).execute ctx q = .ok pulls) :
    pulls = [] ∨ ∃ r, pulls = [r] ∧ r.task < tasks := by
  unfold CoalesceExec.execute at h
  split at h
  · cases h
  · rename_i hlt
    simp only at h
    split at h
    · cases h
    · split at h
      · cases h; exact .inl rfl
      · split at h
        · cases h
        · rename_i hoff _
          cases h
          refine .inr ⟨_, rfl, ?_⟩
          have hc : 0 < ctx.count := by omega
          have h1 := taskGroup_start_succ tasks ctx.count ctx.index hc
          have h2 : (taskGroup tasks (ctx.index + 1) ctx.count).start ≤ tasks := by
            have hmono : ∀ i j, i ≤ j → (taskGroup tasks i ctx.count).start ≤ (taskGroup tasks j ctx.count).start := by
              intro i j hij
              induction hij with
              | refl => exact Nat.le_refl _
              | @step j _ ih => rw [taskGroup_start_succ tasks ctx.count j hc]; omega
            have := hmono (ctx.index + 1) ctx.count (by omega)
            rwa [taskGroup_start_last tasks ctx.count hc] at this
          simp only [ge_iff_le, Nat.not_le] at hoff
          simp only
          omega

theorem coalesced_congr {ps tasks : Nat} {ctx : TaskCtx} {os os' : Nat → Outcome Row} {f : List Row → List Row} (hf : f [] = [])
    (h : ∀ t < tasks, ∀ q, os' t q = f (os t q)) (q : Nat) :
    coalesced ps tasks ctx os' q = f (coalesced ps tasks ctx os q) := by
  unfold coalesced
  cases he : (CoalesceExec.mk ps tasks).execute ctx q with
  | error e => exact hf.symm
  | ok pulls =>
    rcases execute_reads he with rfl | ⟨r, rfl, hr⟩
    · exact hf.symm
    · simp [h r.task hr]

/-! ### The rewritten nodes -/

theorem first_take_of {fetch : Option Nat} {n : Nat} (h : ∀ m, fetch = some m → n ≤ m) (l : List Row) :
    (first fetch l).take n = l.take n := by
  cases fetch with
  | none => rfl
  | some m =>
    have := h m rfl
    show (l.take m).take n = l.take n
    rw [List.take_take, Nat.min_eq_left this]

theorem not_enough {n : Nat} {p : LPlan Row} (h : enough n p = false) : ∀ m, fetchOf p = some m → n ≤ m := by
  intro m hm
  unfold enough at h
  rw [hm] at h
  have : ¬ m ≤ n := by simpa using h
  omega

/-- What a node may return if its fetch is set to `n`. -/
theorem limitTo_outs {n : Nat} {p : LPlan Row} (h : enough n p = false) (ctx : TaskCtx) (o : Outcome Row) :
    Outs (limitTo n p) ctx o ↔ ∃ u, Outs p ctx u ∧ ∀ q, o q = (u q).take n := by
  have hm := not_enough h
  -- nodes with a single partition
  have single : ∀ (fetch : Option Nat) (P : List Row → Prop) (_ : ∀ m, fetch = some m → n ≤ m),
      ((∃ l, P l ∧ o 0 = first (some n) l ∧ ∀ q > 0, o q = [])
        ↔ ∃ u : Outcome Row, (∃ l, P l ∧ u 0 = first fetch l ∧ ∀ q > 0, u q = []) ∧ ∀ q, o q = (u q).take n) := by
    intro fetch P hf
    constructor
    · rintro ⟨l, hl, h0, hq⟩
      refine ⟨fun q => if q = 0 then first fetch l else [], ⟨l, hl, rfl, fun q hq => if_neg (by omega)⟩, fun q => ?_⟩
      by_cases hq0 : q = 0
      · subst hq0
        show o 0 = (first fetch l).take n
        rw [first_take_of hf, h0]; rfl
      · simp [if_neg hq0, hq q (by omega)]
    · rintro ⟨u, ⟨l, hl, h0, hq⟩, ho⟩
      refine ⟨l, hl, ?_, fun q hq' => by rw [ho, hq q hq', List.take_nil]⟩
      rw [ho, h0, first_take_of hf]; rfl
  unfold limitTo withFetch
  split
  · rename_i fetch parts ctxOf rel cs
    simp only [Option.getD_some, Outs]
    constructor
    · rintro ⟨os, raw, h1, h2, h3⟩
      refine ⟨fun q => first fetch (raw q), ⟨os, raw, h1, h2, fun _ => rfl⟩, fun q => ?_⟩
      show o q = (first fetch (raw q)).take n
      rw [h3, first_take_of (fetch := fetch) hm]; rfl
    · rintro ⟨u, ⟨os, raw, h1, h2, h3⟩, h4⟩
      refine ⟨os, raw, h1, h2, fun q => ?_⟩
      rw [h4, h3, first_take_of (fetch := fetch) hm]; rfl
  · rename_i fetch c
    simp only [Option.getD_some, Outs]
    constructor
    · rintro ⟨u, l, h1, h2, h3⟩
      obtain ⟨v, ⟨l', a, b⟩, c⟩ := (single fetch (fun l => Interleaved ((List.range (parts c)).map u) l) hm).mp ⟨l, h2, h3⟩
      exact ⟨v, ⟨u, l', h1, a, b⟩, c⟩
    · rintro ⟨v, ⟨u, l, h1, h2, h3⟩, h4⟩
      obtain ⟨l', a, b⟩ := (single fetch (fun l => Interleaved ((List.range (parts c)).map u) l) hm).mpr ⟨v, ⟨l, h2, h3⟩, h4⟩
      exact ⟨u, l', h1, a, b⟩
  · rename_i le fetch c
    simp only [Option.getD_some, Outs]
    constructor
    · rintro ⟨u, l, h1, h2, h3⟩
      obtain ⟨v, ⟨l', a, b⟩, c⟩ := (single fetch (fun l => Merged le ((List.range (parts c)).map u) l) hm).mp ⟨l, h2, h3⟩
      exact ⟨v, ⟨u, l', h1, a, b⟩, c⟩
    · rintro ⟨v, ⟨u, l, h1, h2, h3⟩, h4⟩
      obtain ⟨l', a, b⟩ := (single fetch (fun l => Merged le ((List.range (parts c)).map u) l) hm).mpr ⟨v, ⟨l, h2, h3⟩, h4⟩
      exact ⟨u, l', h1, a, b⟩
  · simp only [Option.getD_none, Outs]

theorem first_length {m : Nat} {l : List Row} {n : Nat} (h : m ≤ n) : (first (some m) l).take n = first (some m) l := by
  show (l.take m).take n = l.take m
  rw [List.take_take, Nat.min_eq_right h]

/-- A node with a fetch returns no more rows than that. -/
theorem enough_outs {n : Nat} {p : LPlan Row} (h : enough n p = true) {ctx : TaskCtx} {o : Outcome Row} (ho : Outs p ctx o)
    (q : Nat) : (o q).take n = o q := by
  unfold enough at h
  cases hf : fetchOf p with
  | none => rw [hf] at h; cases h
  | some m =>
    rw [hf] at h
    have hmn : m ≤ n := by simpa using h
    have zero : ∀ {o : Outcome Row} {l}, o 0 = first (some m) l ∧ (∀ q > 0, o q = []) → (o q).take n = o q := by
      rintro o l ⟨h0, hq⟩
      by_cases hq0 : q = 0
      · subst hq0; rw [h0]; exact first_length hmn
      · rw [hq q (by omega), List.take_nil]
    cases p with
    | op fetch can ps ctxOf rel cs =>
      cases hf
      obtain ⟨os, raw, _, _, h3⟩ := ho
      rw [h3]; exact first_length hmn
    | exchange => cases hf
    | netCoalesce => cases hf
    | projection => cases hf
    | globalLimit skip fetch c =>
      cases hf
      obtain ⟨u, _, h3⟩ := ho
      exact zero h3
    | localLimit k c =>
      cases hf
      obtain ⟨u, _, h3⟩ := ho
      rw [h3]; exact first_length (l := u q) hmn
    | coalesce fetch c =>
      cases hf
      obtain ⟨u, l, _, _, h3⟩ := ho
      exact zero h3
    | spm le fetch c =>
      cases hf
      obtain ⟨u, l, _, _, h3⟩ := ho
      exact zero h3

theorem limit_outs {n : Nat} {p : LPlan Row} (ctx : TaskCtx) (o : Outcome Row) :
    Outs (if enough n p then p else limitTo n p) ctx o ↔ ∃ u, Outs p ctx u ∧ ∀ q, o q = (u q).take n := by
  cases h : enough n p with
  | false => simp only [Bool.false_eq_true, if_false]; exact limitTo_outs h ctx o
  | true =>
    simp only [if_true]
    constructor
    · intro ho
      exact ⟨o, ho, fun q => (enough_outs h ho q).symm⟩
    · rintro ⟨u, hu, ho⟩
      have : o = u := funext fun q => by rw [ho, enough_outs h hu]
      rwa [this]

/-- What the input stage may return after the limit was applied: the first rows, per partition, of what it may return
without. -/
theorem applyFetch_outs (n : Nat) (p : LPlan Row) (ctx : TaskCtx) (o : Outcome Row) :
    Outs (applyFetch n p) ctx o ↔ ∃ u, Outs p ctx u ∧ ∀ q, o q = (u q).take n := by
  cases p with
  | projection f c =>
    have he : applyFetch n (.projection f c) = .projection f (if enough n c then c else limitTo n c) := by
      unfold applyFetch
      simp only
      split <;> rfl
    rw [he]
    simp only [Outs]
    constructor
    · rintro ⟨u, hu, ho⟩
      obtain ⟨v, hv, e⟩ := (limit_outs ctx u).mp hu
      exact ⟨fun q => (v q).map f, ⟨v, hv, fun _ => rfl⟩, fun q => by rw [ho, e, List.map_take]⟩
    · rintro ⟨u, ⟨v, hv, e⟩, ho⟩
      refine ⟨fun q => (v q).take n, (limit_outs ctx _).mpr ⟨v, hv, fun _ => rfl⟩, fun q => ?_⟩
      rw [ho, e, List.map_take]
  | exchange ps tasks rel c => exact limit_outs (n := n) (p := .exchange ps tasks rel c) ctx o
  | netCoalesce ps tasks c => exact limit_outs (n := n) (p := .netCoalesce ps tasks c) ctx o
  | op => exact limit_outs ctx o
  | globalLimit => exact limit_outs ctx o
  | localLimit => exact limit_outs ctx o
  | coalesce => exact limit_outs ctx o
  | spm => exact limit_outs ctx o

theorem limitTo_parts (n : Nat) (p : LPlan Row) : parts (limitTo n p) = parts p := by
  unfold limitTo withFetch
  split <;> simp [parts]

theorem applyFetch_parts (n : Nat) (p : LPlan Row) : parts (applyFetch n p) = parts p := by
  unfold applyFetch
  split
  · split
    · rfl
    · simp [parts, limitTo_parts]
  · split
    · rfl
    · exact limitTo_parts n _

/-- What a coalesce may return after the limit was applied to its input stage. -/
theorem pushChild_outs (n ps tasks : Nat) (c : LPlan Row) (ctx : TaskCtx) (o : Outcome Row) :
    Outs (.netCoalesce ps tasks (applyFetch n c)) ctx o
      ↔ ∃ u, Outs (.netCoalesce ps tasks c) ctx u ∧ ∀ q, o q = (u q).take n := by
  simp only [Outs]
  constructor
  · rintro ⟨os, h1, h2⟩
    have : ∀ t, ∃ u, t < tasks → Outs c ⟨t, tasks⟩ u ∧ ∀ q, os t q = (u q).take n := by
      intro t
      by_cases ht : t < tasks
      · obtain ⟨u, hu⟩ := (applyFetch_outs n c _ _).mp (h1 t ht)
        exact ⟨u, fun _ => hu⟩
      · exact ⟨fun _ => [], fun h => absurd h ht⟩
    choose us hus using this
    refine ⟨fun q => coalesced ps tasks ctx us q, ⟨us, fun t ht => (hus t ht).1, fun _ => rfl⟩, fun q => ?_⟩
    rw [h2]
    exact coalesced_congr (f := fun l => l.take n) (by simp) (fun t ht => (hus t ht).2) q
  · rintro ⟨u, ⟨os, h1, h2⟩, ho⟩
    refine ⟨fun t q => (os t q).take n, fun t ht => (applyFetch_outs n c _ _).mpr ⟨os t, h1 t ht, fun _ => rfl⟩, fun q => ?_⟩
    rw [ho, h2]
    exact (coalesced_congr (f := fun l => l.take n) (by simp) (fun t ht q => rfl) q).symm

/-! ### Congruence -/

/-- Two plans may return the same. -/
def Eqv (p p' : LPlan Row) : Prop := parts p = parts p' ∧ ∀ ctx o, Outs p ctx o ↔ Outs p' ctx o

theorem Eqv.refl (p : LPlan Row) : Eqv p p := ⟨rfl, fun _ _ => Iff.rfl⟩
theorem Eqv.trans {p p' p'' : LPlan Row} (h : Eqv p p') (h' : Eqv p' p'') : Eqv p p'' :=
  ⟨h.1.trans h'.1, fun ctx o => (h.2 ctx o).trans (h'.2 ctx o)⟩

theorem partsAll_eq (cs : List (LPlan Row)) : partsAll cs = cs.map parts := by
  induction cs with
  | nil => simp [partsAll]
  | cons c cs ih => simp [partsAll, ih]

theorem OutsAll_map {f : LPlan Row → LPlan Row} : ∀ (cs : List (LPlan Row)) (_ : ∀ c ∈ cs, Eqv (f c) c)
    (ctxs : Nat → Option TaskCtx) (os : List (Outcome Row)), OutsAll (cs.map f) ctxs os ↔ OutsAll cs ctxs os
  | [], _, _, _ => Iff.rfl
  | c :: cs, h, ctxs, os => by
    simp only [List.map_cons, OutsAll]
    have hc := h c (by simp)
    have ih := OutsAll_map cs (fun c hc => h c (by simp [hc])) (fun i => ctxs (i + 1))
    constructor
    · rintro ⟨o, rest, e, h1, h2⟩
      refine ⟨o, rest, e, ?_, (ih rest).mp h2⟩
      cases hx : ctxs 0 with
      | none => rw [hx] at h1; exact h1
      | some ctx => rw [hx] at h1; exact (hc.2 ctx o).mp h1
    · rintro ⟨o, rest, e, h1, h2⟩
      refine ⟨o, rest, e, ?_, (ih rest).mpr h2⟩
      cases hx : ctxs 0 with
      | none => rw [hx] at h1; exact h1
      | some ctx => rw [hx] at h1; exact (hc.2 ctx o).mpr h1

def children : LPlan Row → List (LPlan Row)
  | .op _ _ _ _ _ cs => cs
  | .exchange _ _ _ c | .netCoalesce _ _ c | .globalLimit _ _ c | .localLimit _ c | .coalesce _ c | .spm _ _ c
  | .projection _ c => [c]

/-- Rewriting the children of a node to plans that may return the same. -/
theorem mapChildren_eqv {f : LPlan Row → LPlan Row} (p : LPlan Row) (h : ∀ c ∈ children p, Eqv (f c) c) :
    Eqv (mapChildren f p) p := by
  cases p with
  | op fetch can ps ctxOf rel cs =>
    refine ⟨?_, fun ctx o => ?_⟩
    · simp only [mapChildren, parts, partsAll_eq, List.map_map]
      congr 1
      exact List.map_congr_left fun c hc => (h c hc).1
    · simp only [mapChildren, Outs]
      exact exists_congr fun os => exists_congr fun raw => and_congr_left fun _ => OutsAll_map cs h _ os
  | exchange ps tasks rel c =>
    have hc := h c (by simp [children])
    refine ⟨rfl, fun ctx o => ?_⟩
    simp only [mapChildren, Outs]
    exact exists_congr fun os => and_congr_left fun _ => forall_congr' fun t => forall_congr' fun _ => hc.2 _ _
  | netCoalesce ps tasks c =>
    have hc := h c (by simp [children])
    refine ⟨rfl, fun ctx o => ?_⟩
    simp only [mapChildren, Outs]
    exact exists_congr fun os => and_congr_left fun _ => forall_congr' fun t => forall_congr' fun _ => hc.2 _ _
  | globalLimit skip fetch c =>
    have hc := h c (by simp [children])
    refine ⟨rfl, fun ctx o => ?_⟩
    simp only [mapChildren, Outs]
    exact exists_congr fun u => and_congr_left fun _ => hc.2 _ _
  | localLimit n c =>
    have hc := h c (by simp [children])
    refine ⟨hc.1, fun ctx o => ?_⟩
    simp only [mapChildren, Outs]
    exact exists_congr fun u => and_congr_left fun _ => hc.2 _ _
  | coalesce fetch c =>
    have hc := h c (by simp [children])
    refine ⟨rfl, fun ctx o => ?_⟩
    simp only [mapChildren, Outs, hc.1]
    exact exists_congr fun u => exists_congr fun l => and_congr_left fun _ => hc.2 _ _
  | spm le fetch c =>
    have hc := h c (by simp [children])
    refine ⟨rfl, fun ctx o => ?_⟩
    simp only [mapChildren, Outs, hc.1]
    exact exists_congr fun u => exists_congr fun l => and_congr_left fun _ => hc.2 _ _
  | projection g c =>
    have hc := h c (by simp [children])
    refine ⟨hc.1, fun ctx o => ?_⟩
    simp only [mapChildren, Outs]
    exact exists_congr fun u => and_congr_left fun _ => hc.2 _ _

end DD.Limit
