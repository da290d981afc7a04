/-
Operators that choose: `LIMIT` and `ORDER BY ... LIMIT`. SQL leaves open which rows a limit returns, and which of
several equal rows the sorted one does.
-/
import Verif.Spec.Plan

namespace DD.Tree

variable {Row : Type}

/-- `x` may be the result of `LIMIT fetch OFFSET skip` on the table `a`. -/
def IsLimit (skip fetch : Nat) (a x : List Row) : Prop :=
  x.length = min fetch (a.length - skip) ∧ ∃ rest, (x ++ rest).Perm a

/-- `x` may be the result of `ORDER BY le LIMIT fetch OFFSET skip` on the table `a`: the rows before `x` are not greater, the
rows after it are not less, and there are `skip` rows before it. -/
def IsTop (le : Row → Row → Bool) (skip fetch : Nat) (a x : List Row) : Prop :=
  ∃ before after, (before ++ x ++ after).Perm a ∧ before.length = min skip a.length
    ∧ x.length = min fetch (a.length - skip)
    ∧ (∀ r ∈ before, ∀ s ∈ x ++ after, le r s = true) ∧ ∀ r ∈ x, ∀ s ∈ after, le r s = true

/-- What a limit to `n` rows in every partition (`LocalLimitExec`, a limit pushed into a scan) leaves of a table: at least
`n` rows, if there are as many. -/
def IsLocalLimit (n : Nat) (a x : List Row) : Prop := min n a.length ≤ x.length ∧ ∃ rest, (x ++ rest).Perm a

/-- What the `n` smallest rows of every partition (`SortExec` with a fetch and `preserve_partitioning`) leave of a table:
for every row left out there are `n` rows not greater than it. -/
def IsLocalTop (le : Row → Row → Bool) (n : Nat) (a x : List Row) : Prop :=
  ∃ rest, (x ++ rest).Perm a ∧ ∀ r ∈ rest, n ≤ (x.filter (le · r)).length

/-- An operator on one input that may return any `x` with `R a x`, and in each task and partition returns what `choose`
says. -/
def Op.choice (R : List Row → List Row → Prop) (choose : Bool → TaskCtx → Nat → List Row → List Row)
    (h : ∀ w ctx q a, R a (choose w ctx q a)) : Op Row where
  exec w ctx q as := choose w ctx q (as.getD 0 [])
  may as x := R (as.getD 0 []) x
  ok w ctx q as := h w ctx q _

end DD.Tree
