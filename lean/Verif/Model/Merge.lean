/-
Streams of rows that are read at the same time.

Models `futures::stream::select_all` and tokio's channels as `CoalescePartitionsExec`, `RepartitionExec` and the
boundaries use them, and DataFusion's `StreamingMergeBuilder`, which `SortPreservingMergeExec` and order-preserving
`RepartitionExec`s use. All of them are external; these are the contracts. Batches are not modelled: rows are taken one
by one, which allows more interleavings than batches do.
-/
import Verif.Model.Boundary

namespace DD.Limit

variable {Row : Type}

/-- `Merged R ls l`: `l` takes the rows of the lists `ls` one at a time, always the first one left of some list, and
always one that is `R`-below the first ones left of all other lists. With `R` always true, `l` is any interleaving.
`SortPreservingMergeExec` (DataFusion) and, with `R` always true, `futures::stream::select_all` (`/repo/src/execution_plans/network_shuffle.rs:247-250`). -/
inductive Merged (R : Row → Row → Prop) : List (List Row) → List Row → Prop where
  | done {ls} : (∀ l ∈ ls, l = []) → Merged R ls []
  | step {ls : List (List Row)} {i : Nat} {x t l} : ls[i]? = some (x :: t) →
      (∀ (j : Nat) y t', ls[j]? = some (y :: t') → R x y) → Merged R (ls.set i t) l → Merged R ls (x :: l)

/-- Streams are interleaved in any way. `futures::stream::select_all` (`/repo/src/execution_plans/network_shuffle.rs:247-250`). -/
def Interleaved (ls : List (List Row)) (l : List Row) : Prop := Merged (fun _ _ => True) ls l

end DD.Limit
