import Verif.Model.Basic

/-! # File names -/

namespace Toon

/-- The path names a file `stem.ext` (with a stem, and `ext` without further dot), possibly followed by
components that are empty or a dot. -/
def HasExtension (path ext : Str) : Prop :=
  ∃ (dir stem : Str) (trail : List Str), path = dir ++ ((stem ++ '.' :: ext) ++ (trail.map fun c => '/' :: c).flatten) ∧
    (dir = [] ∨ ∃ d, dir = d ++ ['/']) ∧ stem ≠ [] ∧ '/' ∉ stem ∧ '/' ∉ ext ∧ '.' ∉ ext ∧
    stem ++ '.' :: ext ≠ "..".toList ∧ ∀ c ∈ trail, c = [] ∨ c = ['.']

/-- The spellings of the delimiter option and what they stand for. -/
def delimiterSpellings : List (Str × Char) :=
  [(",".toList, ','), ("comma".toList, ','), ("|".toList, '|'), ("pipe".toList, '|'),
   ("\\t".toList, '\t'), ("\t".toList, '\t'), ("tab".toList, '\t')]

end Toon
