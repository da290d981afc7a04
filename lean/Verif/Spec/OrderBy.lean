/-
`ORDER BY` and `ORDER BY ... LIMIT`: what they should return, and the operators DataFusion plans for them.
-/
import Verif.Spec.Order

namespace DD.Tree

variable {Row : Type}

/-- `l` are the rows `a`, sorted. Rows that compare equal may come in any order. -/
def IsSorted (le : Row → Row → Bool) (a l : List Row) : Prop := l.Perm a ∧ l.Pairwise fun x y => le x y = true

/-- `l` is a prefix of `n` rows of the rows `a`, sorted. -/
def IsFirst (le : Row → Row → Bool) (n : Nat) (a l : List Row) : Prop := ∃ s, IsSorted le a s ∧ l = s.take n

theorem IsSorted.mergeSort {le : Row → Row → Bool} (h : TotalOrder le) (a : List Row) : IsSorted le a (a.mergeSort le) :=
  ⟨List.mergeSort_perm a le, List.pairwise_mergeSort (fun x y z => h.2 x y z) (fun x y => by
    simpa [Bool.or_eq_true] using h.1 x y) a⟩

/-- `SortExec` of every partition (`preserve_partitioning`), DataFusion. -/
def sortOp (le : Row → Row → Bool) (h : TotalOrder le) : Op Row where
  exec := fun _ _ _ as => (as.getD 0 []).mergeSort le
  may := fun as x => x.Perm (as.getD 0 [])
  ok := fun _ _ _ _ => List.mergeSort_perm _ _
  order := some le
  sorted := fun _ _ _ as _ => (IsSorted.mergeSort h (as.getD 0 [])).2

/-- Rows `x` are left of `a` by an operator that drops a row only if there are `n` others it would sort after. -/
def Pruned (le : Row → Row → Bool) (n : Nat) (a x : List Row) : Prop :=
  ∃ dropped, (x ++ dropped).Perm a ∧ ∀ d ∈ dropped, n ≤ (x.filter fun r => le r d).length

theorem pruned_take {le : Row → Row → Bool} {a s : List Row} (n : Nat) (h : IsSorted le a s) : Pruned le n a (s.take n) := by
  refine ⟨s.drop n, by rw [List.take_append_drop]; exact h.1, ?_⟩
  intro d hd
  have hl : n ≤ (s.take n).length := by
    have : 0 < (s.drop n).length := List.length_pos_of_mem hd
    simp at this ⊢
    omega
  have hp := h.2
  rw [← List.take_append_drop n s, List.pairwise_append] at hp
  have : (s.take n).filter (fun r => le r d) = s.take n := List.filter_eq_self.mpr fun r hr => hp.2.2 r hr d hd
  rw [this]; exact hl

/-- `SortExec` of every partition with a fetch, DataFusion's `TopK`: the first `n` rows of each partition, sorted. -/
def topOp (le : Row → Row → Bool) (h : TotalOrder le) (n : Nat) : Op Row where
  exec := fun _ _ _ as => ((as.getD 0 []).mergeSort le).take n
  may := fun as x => Pruned le n (as.getD 0 []) x
  ok := fun _ _ _ as => pruned_take n (.mergeSort h _)
  order := some le
  sorted := fun _ _ _ as _ => (IsSorted.mergeSort h (as.getD 0 [])).2.sublist (List.take_sublist n _)

/-- The fetch of a `SortPreservingMergeExec`: the first `n` rows that arrive. They are the first ones because the rows arrive in
order. -/
def firstOp (le : Row → Row → Bool) (h : TotalOrder le) (n : Nat) : Op Row where
  exec := fun _ _ _ as => ((as.getD 0 []).mergeSort le).take n
  may := fun as x => IsFirst le n (as.getD 0 []) x
  ok := fun _ _ _ as => ⟨_, .mergeSort h _, rfl⟩
  needs := fun i => if i = 0 then some le else none
  order := some le
  stream := fun _ _ _ as => (as.getD 0 []).take n
  stream_ok := fun _ _ _ as hi => by
    rw [List.mergeSort_of_pairwise]
    exact hi 0
  sorted := fun _ _ _ as _ => (IsSorted.mergeSort h (as.getD 0 [])).2.sublist (List.take_sublist n _)

/-- `ORDER BY`: every partition is sorted, the partitions are merged. -/
def orderBy (le : Row → Row → Bool) (h : TotalOrder le) (c : Plan Row) : Plan Row :=
  fresh (.spm none le) [fresh (.op (sortOp le h) none) [c]]

/-- `ORDER BY ... LIMIT n`. -/
def orderByLimit (le : Row → Row → Bool) (h : TotalOrder le) (n : Nat) (c : Plan Row) : Plan Row :=
  fresh (.spm (some (firstOp le h n)) le) [fresh (.op (topOp le h n) none) [c]]

end DD.Tree
