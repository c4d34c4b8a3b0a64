import Verif.Spec.Lines

/-!
# What the number of steps is measured by

Lines of the source, blank or not.
-/

namespace Toon

/-- How many lines are not blank. -/
def fullLines (source : List Str) : Nat := source.countP fun line => !decide (BlankLine line)

/-- How many lines are blank. -/
def blankLines (source : List Str) : Nat := source.countP fun line => decide (BlankLine line)

/-- `n` times the two lines
```
a[1]:
  - x
```
and `b` empty lines. -/
def manyArrays (indent n b : Nat) : List Str :=
  (List.replicate n [['a', '[', '1', ']', ':'], List.replicate indent ' ' ++ ['-', ' ', 'x']]).flatten ++ List.replicate b []

end Toon
