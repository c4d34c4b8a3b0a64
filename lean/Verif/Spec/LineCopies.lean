import Verif.Spec.Lines

/-!
# What the copies of lines are measured by
-/

namespace Toon

/-- The characters of source lines. -/
def charCount (source : List Str) : Nat := (source.map List.length).sum

/-- The characters of the lines that are not blank, of each line with its indentation and without it. -/
def heldChars (source : List Str) : Nat :=
  ((source.filter fun raw => !decide (BlankLine raw)).map fun raw => raw.length + (raw.dropWhile (· == ' ')).length).sum

/-- The different numbers in a list, each once. -/
def different : List Nat → List Nat
  | [] => []
  | d :: ds => if d ∈ ds then different ds else d :: different ds

/-- How often the unit of indentation fits into the spaces in front of a line. -/
def unitsBefore (indent : Nat) (raw : Str) : Nat := (raw.takeWhile (· == ' ')).length / indent

/-- How many levels of indentation occur in a source: the different numbers of units in front of the lines that are not blank, none
not counted. -/
def levels (indent : Nat) (source : List Str) : Nat :=
  (different (((source.filter fun raw => !decide (BlankLine raw)).map (unitsBefore indent)).filter (0 < ·))).length

/-- `n` objects inside each other, and then a line `last` at the margin:
```
a:
  a:
    a:
last
```
-/
def nestedThen (indent n : Nat) (last : Str) : List Str :=
  (List.range n).map (fun i => List.replicate (indent * i) ' ' ++ ['a', ':']) ++ [last]

end Toon
