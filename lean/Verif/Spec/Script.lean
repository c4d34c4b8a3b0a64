import Verif.Spec.Grammar
import Verif.Spec.Layout

/-!
# Texts in any spelling

A script is a text that somebody other than the encoder wrote: strings may be quoted though they need not be,
numbers may have any form, there may be spaces around the values, the columns and the keys, and every array has its
own delimiter.  `Script.written` is the text, `Script.value` the value it shows.
-/

namespace Toon

/-- A text with spaces around it. -/
structure Padded where
  before : Nat
  text : Str
  after : Nat

def Padded.written (w : Padded) : Str := List.replicate w.before ' ' ++ w.text ++ List.replicate w.after ' '

/-- Not empty, on one line, and without white space around it. -/
def Visible (text : Str) : Prop :=
  text ≠ [] ∧ '\n' ∉ text ∧ (∀ c, text.head? = some c → isWs c = false) ∧ ∀ c, text.getLast? = some c → isWs c = false

/-- May stand between delimiters: a quoted literal, or a text without quotes and without the delimiter. -/
def CellText (d : Char) (text : Str) : Prop :=
  (∃ body s, text = '"' :: body ++ ['"'] ∧ QuotedDenotes body s) ∨ ('"' ∉ text ∧ d ∉ text)

/-- A key and its spelling. -/
structure Key where
  text : Str
  name : Str

/-- A quoted literal, or plain text with spaces after it. -/
inductive Key.Right : Key → Prop
  | quoted {body name : Str} : QuotedDenotes body name → '\n' ∉ body → Key.Right ⟨'"' :: body ++ ['"'], name⟩
  | bare {name : Str} (spaces : Nat) : Visible name → name.head? ≠ some '-' → '"' ∉ name → ':' ∉ name → '[' ∉ name →
      Key.Right ⟨name ++ List.replicate spaces ' ', name⟩

/-- The name of a column and its spelling. -/
structure Column where
  word : Padded
  name : Str

def Column.Right (d : Char) (c : Column) : Prop :=
  Visible c.word.text ∧ CellText d c.word.text ∧ '}' ∉ c.word.text ∧ ∃ quoted, NameMeans c.word.text ⟨c.name, quoted⟩

section
variable {F : Type} [F64 F]

/-- A primitive and its spelling. -/
structure Word (F : Type) where
  word : Padded
  prim : Prim F

/-- The spelling stands for the primitive. -/
def Word.Right (w : Word F) : Prop := Visible w.word.text ∧ TokenMeans w.word.text w.prim

/-- A text in any spelling.  Arrays have a delimiter and the text between the brackets. -/
inductive Script (F : Type) where
  | prim (w : Word F)
  | inline (d : Char) (len : Str) (cells : List (Word F))
  | table (d : Char) (len : Str) (cols : List Column) (rows : List (List (Word F)))
  | list (d : Char) (len : Str) (items : List (Script F))
  | object (entries : List (Key × Script F))

/-- The cells of a row. -/
def rowWords (d : Char) (row : List (Word F)) : Str := separated d (row.map fun w => w.word.written)

/-- What stands after the key, or in place of it. -/
def Script.text : Script F → Str
  | .prim w => ':' :: w.word.written
  | .inline d len cells => '[' :: len ++ ']' :: ':' :: rowWords d cells
  | .table d len cols _ => '[' :: len ++ ']' :: '{' :: separated d (cols.map fun c => c.word.written) ++ ['}', ':']
  | .list _ len _ => '[' :: len ++ [']', ':']
  | .object _ => [':']

mutual
/-- The lines below the line of the key. -/
def Script.rowsBelow (depth : Nat) : Script F → List Row
  | .prim _ => []
  | .inline _ _ _ => []
  | .table d _ _ rows => rows.map fun row => (depth, rowWords d row)
  | .list _ _ items => Script.itemsRows depth items
  | .object es => Script.entriesRows depth es
def Script.entriesRows (depth : Nat) : List (Key × Script F) → List Row
  | [] => []
  | (k, v) :: es => (depth, k.text ++ v.text) :: v.rowsBelow (depth + 1) ++ Script.entriesRows depth es
def Script.itemRows (depth : Nat) : Script F → List Row
  | .prim w => [(depth, '-' :: ' ' :: w.word.written)]
  | .inline d len cells => [(depth, '-' :: ' ' :: (Script.inline d len cells).text)]
  | .table d len cols rows => (depth, '-' :: ' ' :: (Script.table d len cols rows).text) :: rows.map fun row => (depth + 1, rowWords d row)
  | .list d len items => (depth, '-' :: ' ' :: (Script.list d len items).text) :: Script.itemsRows (depth + 1) items
  | .object [] => [(depth, ['-'])]
  | .object ((k, v) :: es) =>
    (depth, '-' :: ' ' :: (k.text ++ v.text)) :: v.rowsBelow (depth + 2) ++ Script.entriesRows (depth + 1) es
def Script.itemsRows (depth : Nat) : List (Script F) → List Row
  | [] => []
  | v :: vs => v.itemRows depth ++ Script.itemsRows depth vs
end

/-- The lines of a whole document. -/
def Script.documentRows : Script F → List Row
  | .prim w => [(0, w.word.written)]
  | .object es => Script.entriesRows 0 es
  | v => (0, v.text) :: v.rowsBelow 1

/-- The text: its lines, indented, separated by newlines. -/
def Script.written (indent : Nat) (v : Script F) : Str := separated '\n' (v.documentRows.map (rowText indent))

mutual
/-- The value. -/
def Script.value : Script F → Json F
  | .prim w => .prim w.prim
  | .inline _ _ cells => .arr (cells.map fun w => .prim w.prim)
  | .table _ _ cols rows => .arr (rows.map fun row => .obj ((cols.zip row).map fun c => (c.1.name, .prim c.2.prim)))
  | .list _ _ items => .arr (Script.values items)
  | .object es => .obj (Script.valueEntries es)
def Script.values : List (Script F) → List (Json F)
  | [] => []
  | v :: vs => v.value :: Script.values vs
def Script.valueEntries : List (Key × Script F) → List (Str × Json F)
  | [] => []
  | (k, v) :: es => (k.name, v.value) :: Script.valueEntries es
end

/-- The cells of a row or of an array on one line. -/
def RightCells (d : Char) (cells : List (Word F)) : Prop := ∀ w ∈ cells, w.Right ∧ CellText d w.word.text

mutual
/-- The lengths are true, rows have a cell for each column and begin with it, spellings stand for what they are
said to stand for; a primitive under a key that is not quoted does not contain both a bracket and a colon; an
element of a list without quotes does not contain a colon. -/
def Script.Right : Script F → Prop
  | .prim w => w.Right
  | .inline d len cells => LengthMeans len cells.length d ∧ cells.length ≤ 100000000 ∧ RightCells d cells
  | .table d len cols rows => LengthMeans len rows.length d ∧ rows.length ≤ 100000000 ∧ cols ≠ [] ∧
      (∀ c ∈ cols, c.Right d) ∧
      ∀ row ∈ rows, row.length = cols.length ∧ (∀ w, row.head? = some w → w.word.before = 0) ∧ RightCells d row
  | .list d len items => LengthMeans len items.length d ∧ items.length ≤ 100000000 ∧ Script.RightItems items
  | .object es => Script.RightEntries es
def Script.RightItems : List (Script F) → Prop
  | [] => True
  | v :: vs => (∀ w, v = .prim w → w.word.text.head? = some '"' ∨ ':' ∉ w.word.text) ∧ v.Right ∧ Script.RightItems vs
def Script.RightEntries : List (Key × Script F) → Prop
  | [] => True
  | (k, v) :: es => k.Right ∧ (∀ w, v = .prim w → k.text.head? = some '"' ∨ '[' ∉ w.word.text ∨ ':' ∉ w.word.text) ∧
      v.Right ∧ Script.RightEntries es
end

/-- The whole document is right; a primitive alone begins its line and, without quotes, has no colon. -/
def Script.RightDocument (v : Script F) : Prop :=
  v.Right ∧ ∀ w, v = .prim w → w.word.before = 0 ∧ (w.word.text.head? = some '"' ∨ ':' ∉ w.word.text)

end

end Toon
