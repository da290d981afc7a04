/-
A consumer that decides which of its partitions to read by what it has got of the others.
-/
import Verif.Model.Demux

namespace DD.Demux

variable {α Row : Type}

/-- Which partitions a consumer asks for, given what it has got of each of them and which of them have ended. -/
abbrev Demand (α : Type) := (Nat → List (Except Err α)) → (Nat → Bool) → Nat → Prop

/-- The rows of the batches that were received. -/
def rowsIn (l : List (Except Err (List Row))) : List Row := l.flatMap fun
  | .ok b => b
  | .error _ => []

/-- A merge of `n` sorted partitions that reads ahead at most `k` batches of a partition (`SortPreservingMergeExec`, external: it holds one
batch of every partition, and DataFusion's `spawn_buffered` another one or two). If all it has of partition `j` comes before all it has
of partition `i`, and `j` has not ended, then it cannot have returned any row of `i`, so it still holds all batches of `i`, and asks
for another one only if they are at most `k`. -/
def MergeDemand (lt : Row → Row → Prop) (n k : Nat) (d : Demand (List Row)) : Prop :=
  ∀ outs ended, ∀ i < n, ∀ j < n, i ≠ j → ended j = false → (∀ x ∈ rowsIn (outs j), ∀ y ∈ rowsIn (outs i), lt x y) → d outs ended i →
    (outs i).length ≤ k

/-- The consumer polls only what it asks for, and drops nothing. -/
def Obeys (c : Cfg α) (d : Demand α) : State α → List Step → Prop
  | _, [] => True
  | s, st :: rest => (match st with
      | .task => True
      | .poll i => d (fun j => (s.chans j).out) (fun j => (s.chans j).eos) i
      | _ => False) ∧ Obeys c d (step c s st) rest

/-- The messages for partition `i` among `ws`: their sizes and their batches. -/
def messagesFor (c : Cfg α) (i : Nat) (ws : List (Wire α)) : List (Nat × α) := ws.filterMap fun
  | .msg p size a => if p = c.start + i then some (size, a) else none
  | _ => none

/-- The bytes of all messages of a response. -/
def sizes (ws : List (Wire α)) : Nat := (ws.map fun
  | .msg _ size _ => size
  | _ => 0).sum

end DD.Demux
