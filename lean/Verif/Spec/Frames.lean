import Verif.Spec.Grammar

/-!
# What the number of nested calls is measured by

Lines of the source and their indentation.
-/

namespace Toon

/-- `levels` contains every amount of indentation, in whole units and greater than zero, that occurs on a line that is not
blank. -/
def CoversLevels (indent : Nat) (source : List Str) (levels : List Nat) : Prop :=
  ∀ spaces content, List.replicate spaces ' ' ++ content ∈ source → content.head? ≠ some ' ' → ¬ BlankLine content →
    0 < spaces / indent → spaces / indent ∈ levels

/-- The lines
```
a[1]:
  - a[1]:
      - a[1]:
          - a[0]:
```
with `k` lines after the first. -/
def staircase (indent k : Nat) : List Str :=
  (List.range (k + 1)).map fun i =>
    List.replicate (indent * (2 * i - 1)) ' ' ++ (if i = 0 then [] else ['-', ' ']) ++ ['a', '['] ++
      (if i < k then ['1'] else ['0']) ++ [']', ':']

end Toon
