import Verif.Spec.Cells

/-!
# Rows and items of one-level arrays
-/

namespace Toon

/-- The two lists have the same length and are related element by element. -/
inductive Pointwise {α β : Type} (R : α → β → Prop) : List α → List β → Prop
  | nil : Pointwise R [] []
  | cons {a : α} {b : β} {as : List α} {bs : List β} : R a b → Pointwise R as bs → Pointwise R (a :: as) (b :: bs)

section
variable {F : Type} [F64 F]

/-- One entry per column: the primitives from left to right, null where they run out. -/
def padRow : List Str → List (Prim F) → List (Str × Json F)
  | [], _ => []
  | c :: cs, [] => (c, .prim .null) :: padRow cs []
  | c :: cs, p :: ps => (c, .prim p) :: padRow cs ps

/-- The value of a table row; with `exact`, there must be one cell per column. -/
def RowMeans (exact : Bool) (cols : List Str) (d : Char) (row : Str) (v : Json F) : Prop :=
  ∃ cells prims, Cells d row cells ∧ Pointwise TokenMeans cells prims ∧
    (exact = true → cells.length = cols.length) ∧ v = .obj (padRow cols prims)

/-- The value of a list item of one line: an empty object when nothing follows the hyphen, otherwise a
primitive. -/
inductive ItemMeans : Str → Json F → Prop
  | hyphen : ItemMeans ['-'] (.obj [])
  | blank {t : Str} : BlankLine t → ItemMeans ('-' :: ' ' :: t) (.obj [])
  | prim {t : Str} {p : Prim F} : ¬ BlankLine t → TokenMeans (trim t) p → ItemMeans ('-' :: ' ' :: t) (.prim p)

end

/-- The lines are blank, or indented by one level and starting with a visible character there. -/
def OneLevel (indent : Nat) (body : List Str) : Prop :=
  ∀ line ∈ body, BlankLine line ∨ IndentedLine indent 1 line

/-- The contents of the lines that are not blank. -/
def contents (indent : Nat) (body : List Str) : List Str := (deleteBlank body).map (·.drop indent)

/-- Blank lines only before the first and after the last other line. -/
def BlanksOutside (body : List Str) : Prop :=
  ∃ before middle after, body = before ++ middle ++ after ∧ (∀ l ∈ before, BlankLine l) ∧
    (∀ l ∈ middle, ¬ BlankLine l) ∧ ∀ l ∈ after, BlankLine l

end Toon
