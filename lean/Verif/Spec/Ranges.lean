/-
What a text file contains, and what cutting it into byte ranges means. Independent of the model.
-/
import Mathlib.Algebra.Ring.Parity
import Mathlib.Data.List.Basic

namespace DD.Ranges.Spec

/-- The number of quotation marks of a text. -/
def quotes (t : List Char) : Nat := t.count '"'

/-- Every quoted value of the text is closed. -/
def WellFormed (t : List Char) : Prop := Even (quotes t)

/-- The position `n` of the text lies inside a quoted value. -/
def InsideValue (t : List Char) (n : Nat) : Prop := Odd (quotes (t.take n))

/-- A line of the text begins at `n`, or the text ends there. -/
def LineStart (t : List Char) (n : Nat) : Prop := n = 0 ∨ n = t.length ∨ (0 < n ∧ t[n - 1]? = some '\n')

/-- `n` is the first line start at or after `pos`. -/
def NextLine (t : List Char) (pos n : Nat) : Prop :=
  pos ≤ n ∧ LineStart t n ∧ ∀ m, pos ≤ m → LineStart t m → n ≤ m

/-- No quoted value of the text contains a line break. -/
def OneLinePerRow (t : List Char) : Prop := ∀ n, t[n]? = some '\n' → ¬ InsideValue t n

/-- The rows of a text, from left to right: `q` tells whether the reader is inside a quoted value and `cur` is
the row read so far. A line break ends the row unless it is inside a quoted value. -/
def rowsFrom : Bool → List Char → List Char → List (List Char)
  | _, cur, [] => if cur = [] then [] else [cur]
  | q, cur, c :: cs =>
    if c = '"' then rowsFrom (!q) (cur ++ [c]) cs
    else if c = '\n' ∧ q = false then cur :: rowsFrom false [] cs
    else rowsFrom q (cur ++ [c]) cs

/-- The rows of a whole text file. -/
def rows (t : List Char) : List (List Char) := rowsFrom false [] t

/-- The ranges follow each other from `lo` to `size`. -/
def Tiles (size : Nat) : Nat → List (Nat × Nat) → Prop
  | lo, [] => lo = size
  | lo, (a, b) :: rest => a = lo ∧ a ≤ b ∧ b ≤ size ∧ Tiles size b rest

end DD.Ranges.Spec
