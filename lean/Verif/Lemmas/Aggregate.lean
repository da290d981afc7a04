/-
Aggregation in steps agrees with aggregation at once.
-/
import Verif.Spec.Aggregate
import Verif.Lemmas.PlanRows

namespace DD.Tree

theorem SameInputs.one {Row : Type} {E : RowEq Row} {as bs : List (List Row)} (h : SameInputs [E] as bs) :
    ∃ a b, as = [a] ∧ bs = [b] ∧ E.eqv a b := by
  cases as with
  | nil => cases bs <;> exact h.elim
  | cons a as =>
    cases bs with
    | nil => exact h.elim
    | cons b bs =>
      cases as with
      | nil => cases bs with
        | nil => exact ⟨a, b, rfl, rfl, h.1⟩
        | cons => exact h.2.elim
      | cons => exact h.2.elim

end DD.Tree

namespace DD.Tree.Agg
variable {Row K S : Type} [DecidableEq K] (A : Agg Row K S)

theorem combine_none (a : Option S) : A.combine a none = a := by cases a <;> rfl

theorem combine_comm (a b : Option S) : A.combine a b = A.combine b a := by
  cases a <;> cases b <;> simp [combine, A.comm]

theorem combine_assoc (a b c : Option S) : A.combine (A.combine a b) c = A.combine a (A.combine b c) := by
  cases a <;> cases b <;> cases c <;> simp [combine, A.assoc]

theorem total_append (f : Row → S) (k : K) (a b : List Row) :
    A.total f k (a ++ b) = A.combine (A.total f k a) (A.total f k b) := by
  induction a with
  | nil => rfl
  | cons r a ih =>
    rw [List.cons_append, total, total, ih]
    split
    · rw [combine_assoc]
    · rfl

theorem total_perm (f : Row → S) (k : K) {a b : List Row} (h : a.Perm b) : A.total f k a = A.total f k b := by
  induction h with
  | nil => rfl
  | cons r _ ih => rw [total, total, ih]
  | swap r s l =>
    simp only [total]
    split <;> split <;> try rfl
    rw [← combine_assoc, ← combine_assoc, A.combine_comm (some (f s))]
  | trans _ _ ih1 ih2 => exact ih1.trans ih2

theorem total_eq_none (f : Row → S) (k : K) (l : List Row) : A.total f k l = none ↔ k ∉ l.map A.key := by
  induction l with
  | nil => simp [total]
  | cons r l ih =>
    rw [total]
    split
    case isTrue h =>
      simp only [List.map_cons, List.mem_cons, h, true_or, not_true, iff_false]
      cases A.total f k l <;> simp [combine]
    case isFalse h =>
      rw [ih]
      simp [Ne.symm h]

theorem groups_congr {f f' : Row → S} (out : K → S → Row) {l l' : List Row}
    (h : ∀ k, A.total f k l = A.total f' k l') : (A.groups f out l).Perm (A.groups f' out l') := by
  unfold groups
  have hk : (l.map A.key).dedup.Perm (l'.map A.key).dedup := by
    rw [List.perm_ext_iff_of_nodup (List.nodup_dedup _) (List.nodup_dedup _)]
    intro k
    rw [List.mem_dedup, List.mem_dedup]
    have := (A.total_eq_none f k l).symm.trans ((by rw [h k]) : _ ↔ _ = none) |>.trans (A.total_eq_none f' k l')
    exact Decidable.not_iff_not.mp this
  rw [show (fun k => (A.total f k l).map (out k)) = fun k => (A.total f' k l').map (out k) from funext fun k => by rw [h k]]
  exact hk.filterMap _

theorem total_rows (k : K) (t : K → Option S) (ks : List K) (hn : ks.Nodup) :
    A.total A.st k (ks.filterMap fun k' => (t k').map (A.row k')) = if k ∈ ks then t k else none := by
  induction ks with
  | nil => rfl
  | cons k' ks ih =>
    rw [List.nodup_cons] at hn
    rw [List.filterMap_cons]
    cases ht : t k' with
    | none =>
      simp only [Option.map_none]
      rw [ih hn.2]
      by_cases hk : k = k'
      · subst hk; simp [hn.1, ht]
      · simp [hk]
    | some s =>
      simp only [Option.map_some]
      rw [total, A.key_row, A.st_row, ih hn.2]
      by_cases hk : k' = k
      · subst hk; simp [hn.1, ht, combine]
      · simp [hk, Ne.symm hk]

/-- State rows carry the states. -/
theorem total_groups (f : Row → S) (k : K) (l : List Row) : A.total A.st k (A.groups f A.row l) = A.total f k l := by
  unfold groups
  rw [A.total_rows k (fun k => A.total f k l) _ (List.nodup_dedup _)]
  split
  · rfl
  · rename_i h; rw [List.mem_dedup] at h; exact ((A.total_eq_none f k l).mpr h).symm

/-- Lists of state rows with the same state for every group. -/
def sameStates : RowEq Row where
  eqv a b := ∀ k, A.total A.st k a = A.total A.st k b
  ofPerm h k := A.total_perm _ k h
  symm h k := (h k).symm
  trans h g k := (h k).trans (g k)
  append h g k := by rw [total_append, total_append, h, g]

theorem partial_homFn : HomFn .perm A.sameStates fun as => A.partialAgg (as.getD 0 []) where
  nil k := rfl
  append a b k := by
    show A.total A.st k (A.groups A.lift A.row (a ++ b)) = A.total A.st k (A.groups A.lift A.row a ++ A.groups A.lift A.row b)
    rw [total_append, total_groups, total_groups, total_groups, total_append]
  congr a b h k := by
    show A.total A.st k (A.groups A.lift A.row a) = A.total A.st k (A.groups A.lift A.row b)
    rw [total_groups, total_groups]
    exact A.total_perm _ k h

theorem partial_hom : Hom .perm A.sameStates (.det fun as => A.partialAgg (as.getD 0 [])) := A.partial_homFn.hom

theorem reduce_hom : HomFn A.sameStates A.sameStates fun as => A.reduceAgg (as.getD 0 []) where
  nil k := rfl
  append a b k := by
    show A.total A.st k (A.groups A.st A.row (a ++ b)) = A.total A.st k (A.groups A.st A.row a ++ A.groups A.st A.row b)
    rw [total_append, total_groups, total_groups, total_groups, total_append]
  congr a b h k := by
    show A.total A.st k (A.groups A.st A.row a) = A.total A.st k (A.groups A.st A.row b)
    rw [total_groups, total_groups]
    exact h k

theorem partial_reduceOk : ReduceOk A.sameStates (some (.det fun as => A.reduceAgg (as.getD 0 []))) := by
  rintro r ⟨⟩
  exact ⟨A.reduce_hom.hom, by rintro a _ rfl k; exact A.total_groups _ _ _⟩

/-- The rows of one hash bucket contain whole groups. -/
theorem total_hashPart (f : Row → S) (hk : K → Nat) (n b : Nat) (k : K) (l : List Row) :
    A.total f k (hashPart (fun r => hk (A.key r)) n b l) = if hk k % n = b then A.total f k l else none := by
  unfold hashPart
  induction l with
  | nil => simp [total]
  | cons r l ih =>
    rw [List.filter_cons, total]
    by_cases h1 : hk (A.key r) % n = b
    · simp only [h1, beq_self_eq_true, if_true]
      rw [total, ih]
      by_cases h2 : A.key r = k
      · subst h2; simp [h1]
      · simp [h2]
    · simp only [h1, beq_iff_eq, if_false]
      rw [ih]
      by_cases h2 : A.key r = k
      · subst h2; simp [h1]
      · simp [h2]

theorem groups_buckets (f : Row → S) (out : K → S → Row) (hk : K → Nat) (n : Nat) (hn : 0 < n) (l : List Row) :
    (A.groups f out l).Perm
      ((List.range n).flatMap fun b => A.groups f out (hashPart (fun r => hk (A.key r)) n b l)) := by
  unfold groups
  have keys : ∀ b k, k ∈ ((hashPart (fun r => hk (A.key r)) n b l).map A.key).dedup ↔ hk k % n = b ∧ k ∈ l.map A.key := by
    intro b k
    rw [List.mem_dedup]
    simp only [hashPart, List.mem_map, List.mem_filter, beq_iff_eq]
    constructor
    · rintro ⟨r, ⟨h1, h2⟩, rfl⟩; exact ⟨h2, r, h1, rfl⟩
    · rintro ⟨h2, r, h1, rfl⟩; exact ⟨r, ⟨h1, h2⟩, rfl⟩
  have perm : (l.map A.key).dedup.Perm
      ((List.range n).flatMap fun b => ((hashPart (fun r => hk (A.key r)) n b l).map A.key).dedup) := by
    rw [List.perm_ext_iff_of_nodup (List.nodup_dedup _)]
    · intro k
      rw [List.mem_dedup, List.mem_flatMap]
      constructor
      · intro h; exact ⟨hk k % n, List.mem_range.mpr (Nat.mod_lt _ hn), (keys _ _).mpr ⟨rfl, h⟩⟩
      · rintro ⟨b, _, h⟩; exact ((keys _ _).mp h).2
    · rw [List.nodup_flatMap]
      refine ⟨fun b _ => List.nodup_dedup _, ?_⟩
      refine List.Pairwise.imp_of_mem ?_ List.nodup_range
      intro b c _ _ hbc k h1 h2
      exact hbc (((keys _ _).mp h1).1.symm.trans ((keys _ _).mp h2).1)
  refine (perm.filterMap _).trans ?_
  rw [List.filterMap_flatMap]
  refine List.Perm.of_eq ?_
  refine DD.flatMap_congr' ?_
  intro b _
  refine List.filterMap_congr ?_
  intro k hkm
  rw [A.total_hashPart, if_pos ((keys _ _).mp hkm).1]

theorem final_keyedFn (hk : K → Nat) :
    KeyedFn [A.sameStates] .perm [fun r => hk (A.key r)] fun as => A.finalAgg (as.getD 0 []) where
  congr as bs h := by
    obtain ⟨a, b, rfl, rfl, e⟩ := SameInputs.one h
    exact A.groups_congr _ e
  buckets n hn as hl := by
    obtain ⟨a, rfl⟩ : ∃ a, as = [a] := by
      match as, hl with
      | [a], _ => exact ⟨a, rfl⟩
    exact A.groups_buckets A.st A.fin hk n hn a

theorem final_keyed (hk : K → Nat) :
    Keyed [A.sameStates] .perm [fun r => hk (A.key r)] (.det fun as => A.finalAgg (as.getD 0 [])) := (A.final_keyedFn hk).keyed

/-- Finishing partial states is the whole aggregation. -/
theorem final_partial (l : List Row) : (A.finalAgg (A.partialAgg l)).Perm (A.single l) :=
  A.groups_congr _ fun k => A.total_groups _ k l

end DD.Tree.Agg

namespace DD.Tree.GlobalAgg
variable {Row S : Type} (A : GlobalAgg Row S)

theorem total_append (f : Row → S) (a b : List Row) :
    A.total f (a ++ b) = A.merge (A.total f a) (A.total f b) := by
  induction a with
  | nil => exact (A.zero_merge _).symm
  | cons r a ih =>
    show A.merge (f r) (A.total f (a ++ b)) = A.merge (A.merge (f r) (A.total f a)) _
    rw [ih, A.assoc]

theorem total_perm (f : Row → S) {a b : List Row} (h : a.Perm b) : A.total f a = A.total f b := by
  induction h with
  | nil => rfl
  | cons r _ ih => show A.merge _ (A.total f _) = A.merge _ (A.total f _); rw [ih]
  | swap r s l =>
    show A.merge (f s) (A.merge (f r) _) = A.merge (f r) (A.merge (f s) _)
    rw [← A.assoc, ← A.assoc, A.comm (f s)]
  | trans _ _ ih1 ih2 => exact ih1.trans ih2

theorem total_row (s : S) : A.total A.st [A.row s] = s := by
  show A.merge (A.st (A.row s)) A.zero = s
  rw [A.st_row, A.comm, A.zero_merge]

/-- Lists of state rows that merge to the same state. -/
def sameState : RowEq Row where
  eqv a b := A.total A.st a = A.total A.st b
  ofPerm h := A.total_perm _ h
  symm h := h.symm
  trans h g := h.trans g
  append h g := by rw [total_append, total_append, h, g]

theorem partial_homFn : HomFn .perm A.sameState fun as => A.partialAgg (as.getD 0 []) where
  nil := A.total_row _
  append a b := by
    show A.total A.st [A.row (A.total A.lift (a ++ b))]
      = A.total A.st ([A.row (A.total A.lift a)] ++ [A.row (A.total A.lift b)])
    rw [A.total_append A.st, total_row, total_row, total_row, total_append]
  congr a b h := by
    show A.total A.st [A.row (A.total A.lift a)] = A.total A.st [A.row (A.total A.lift b)]
    rw [A.total_perm _ h]

theorem partial_hom : Hom .perm A.sameState (.det fun as => A.partialAgg (as.getD 0 [])) := A.partial_homFn.hom

theorem partial_reduceOk : ReduceOk A.sameState (some (.det fun as => A.reduceAgg (as.getD 0 []))) := by
  rintro r ⟨⟩
  refine ⟨HomFn.hom ⟨A.total_row _, ?_, ?_⟩, by rintro a _ rfl; exact A.total_row _⟩
  · intro a b
    show A.total A.st [A.row (A.total A.st (a ++ b))] = A.total A.st ([A.row (A.total A.st a)] ++ [A.row (A.total A.st b)])
    rw [total_row, A.total_append A.st [_] [_], total_row, total_row, total_append]
  · intro a b h
    show A.total A.st [A.row (A.total A.st a)] = A.total A.st [A.row (A.total A.st b)]
    rw [show A.total A.st a = A.total A.st b from h]

theorem final_whole : Whole [A.sameState] .perm (.det fun as => A.finalAgg (as.getD 0 [])) := by
  refine .of_fn ?_
  intro as bs h
  obtain ⟨a, b, rfl, rfl, e⟩ := SameInputs.one h
  show ([A.fin (A.total A.st a)] : List Row).Perm [A.fin (A.total A.st b)]
  rw [show A.total A.st a = A.total A.st b from e]

theorem final_partial (l : List Row) : A.finalAgg (A.partialAgg l) = A.single l := by
  show [A.fin (A.total A.st [A.row (A.total A.lift l)])] = _
  rw [total_row]; rfl

end DD.Tree.GlobalAgg
