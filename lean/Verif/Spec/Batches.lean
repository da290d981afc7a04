/-
What it means that batches arrive.
-/
import Mathlib.Data.List.Forall2
import Verif.Model.Batches

namespace DD.Batches

mutual
/-- The values of a column, row by row. -/
def Col.values : Col → List Val
  | .plain vals => vals
  | .dict keys values => keys.map fun k => .atom (match k with
    | some k => values.getD k none
    | none => none)
  | .view slots bufs => slots.map fun s => .atom (s.map (Slot.read bufs))
  | .struct rows fields => (List.range rows).map fun i => .row (rowAll i fields)
  | .list ranges elements => ranges.map fun r => match r with
    | some (start, len) => .seq ((elements.values.drop start).take len)
    | none => .atom none
  | .union rows types => rows.map fun r => .case r.1 ((rowAll r.2 types).getD r.1 (.atom none))
def rowAll (i : Nat) : List Col → List Val
  | [] => []
  | c :: cs => c.values.getD i (.atom none) :: rowAll i cs
end

/-- The rows of a batch. -/
def Batch.values (b : Batch) : List (List Val) := (List.range b.rows).map fun i => rowAll i b.cols

/-- What arrow guarantees of the columns of a batch: keys are indexes of values, views lie in their buffers. -/
def Col.Valid : Col → Prop
  | .dict keys values => ∀ k, some k ∈ keys → k < values.length
  | .view slots bufs => ∀ i o l, some (.ref i o l) ∈ slots → o + l ≤ (bufs.getD i []).length
  | _ => True

def Batch.Valid (b : Batch) : Prop := ∀ c ∈ b.cols, c.Valid

/-- `b'` is the batch `b` to its reader: as many rows, and the same values in every column. -/
def Same (b' b : Batch) : Prop := b'.rows = b.rows ∧ b'.cols.map Col.values = b.cols.map Col.values

/-- `bs'` are the batches `bs`, in order. -/
def AllSame (bs' bs : List Batch) : Prop := List.Forall₂ Same bs' bs

/-- The batches a reader gets to see of a stream: up to the first error, and not those without rows. -/
def visible : List (Except Err Batch) → List Batch
  | [] => []
  | .error _ :: _ => []
  | .ok b :: rest => if b.rows = 0 then visible rest else b :: visible rest

/-- The error a stream ends with. -/
def failure : List (Except Err Batch) → Option Err
  | [] => none
  | .error e :: _ => some e
  | .ok _ :: rest => failure rest

/-- The rows of a stream up to its first error. -/
def rowsOf : List (Except Err Batch) → List (List Val)
  | [] => []
  | .error _ :: _ => []
  | .ok b :: rest => b.values ++ rowsOf rest

mutual
/-- How many bytes a value has. -/
def Val.bytes : Val → Nat
  | .atom none => 0
  | .atom (some a) => a.length
  | .row fields => bytesAll fields
  | .seq vals => bytesAll vals
  | .case _ v => v.bytes
def bytesAll : List Val → Nat
  | [] => 0
  | v :: vs => v.bytes + bytesAll vs
end

/-- How many bytes of plain values an array on the wire has: not more than its size. -/
def bodyBytes : Body → Nat
  | .plain vals => (vals.map Val.bytes).sum
  | _ => 0

/-- A lower bound for the size of a message. -/
def Msg.bytes {Sch : Type} : Msg Sch → Nat
  | .batch _ cols => (cols.map bodyBytes).sum
  | _ => 0

end DD.Batches
