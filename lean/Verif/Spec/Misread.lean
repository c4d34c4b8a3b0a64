import Verif.Spec.Grammar
import Verif.Spec.Layout

/-!
# What becomes of a value that is written and read again

For every value, also those that do not come back.  A string that looks like the header of an array under a key
written without quotes makes the line of its entry the header of an array; nothing else is misread.
-/

namespace Toon

section
variable {F : Type} [F64 F]

/-- A string under a key whose line is taken for the header of an array. -/
def LooksLikeHeader (k s : Str) : Prop := bareKey k = true ∧ headerLike s = true

/-- What the line `k: "s"` stands for as the header of an array with its elements on the same line. -/
def MisreadAs (strict : Bool) (k s : Str) (e : Str × Json F) : Prop :=
  ∃ (h : Header) (text : Str) (cells : List Str) (prims : List (Prim F)),
    HeaderMeans (k ++ ':' :: ' ' :: quotedText s) h ∧ h.key = some e.1 ∧ h.inline = some text ∧
    Cells h.delim text cells ∧ Pointwise TokenMeans cells prims ∧ (strict = true → cells.length = h.length) ∧
    e.2 = .arr (prims.map .prim)

/-- An object with its entries in the order of the columns. -/
def inColumns (cols : List Str) : Json F → Json F
  | .obj es => .obj (cols.map fun c => (c, (lookupKey c es).getD (.prim .null)))
  | v => v

mutual
/-- `ReadsBack strict tbl v w`: the value `v`, when it is written and read, becomes `w`.  `tbl` says that an array of
similar objects is written as a table, as it is unless it is an element of a list. -/
def ReadsBack (strict : Bool) : Bool → Json F → Json F → Prop
  | _, .prim p, w => w = .prim p
  | tbl, .arr items, w => items.length ≤ 100000000 ∧
      ((tbl = true ∧ ∃ cols, IsTable items cols ∧ (∀ c ∈ cols, '}' ∉ c) ∧ w = .arr (items.map (inColumns cols))) ∨
        (¬ (tbl = true ∧ ∃ cols, IsTable items cols) ∧ ∃ ws, w = .arr ws ∧ ReadsBackItems strict items ws))
  | _, .obj es, w => ∃ es', w = .obj es' ∧ ReadsBackEntries strict es es'
def ReadsBackItems (strict : Bool) : List (Json F) → List (Json F) → Prop
  | [], ws => ws = []
  | v :: vs, ws => ∃ w ws', ws = w :: ws' ∧ ReadsBack strict false v w ∧ ReadsBackItems strict vs ws'
def ReadsBackEntries (strict : Bool) : List (Str × Json F) → List (Str × Json F) → Prop
  | [], es' => es' = []
  | (k, v) :: es, es' => ∃ e rest, es' = e :: rest ∧
      ((∃ s, v = .prim (.str s) ∧ LooksLikeHeader k s ∧ MisreadAs strict k s e) ∨
        ((∀ s, v = .prim (.str s) → ¬ LooksLikeHeader k s) ∧ e.1 = k ∧ ReadsBack strict true v e.2)) ∧
      ReadsBackEntries strict es rest
end

end

end Toon
