import Verif.Spec.Cells
import Verif.Spec.Paths
import Verif.Spec.Arrays

/-!
# The written form of a value

In three parts, none of them using a function of the encoder: the text of tokens and headers; the lines of
a layout (a value for which it has been chosen how each array is written, and which keys are joined); and the
choice of the layout, as a relation.
-/

namespace Toon

/-! ## Tokens -/

/-- A character between quotes. -/
def escapedChar (c : Char) : Str :=
  match legalEscapes.find? (fun e => e.2 == c) with
  | some (x, _) => ['\\', x]
  | none => [c]

/-- A string between quotes. -/
def quotedText (s : Str) : Str := '"' :: s.flatMap escapedChar ++ ['"']

/-- A key: bare if it can be, otherwise between quotes. -/
def keyTextOf (k : Str) : Str := if bareKey k = true then k else quotedText k

section
variable {F : Type} [F64 F]

open Classical in
/-- A primitive: the usual words, decimal notation for numbers (null for what is not a number), strings bare
if they are plain text. -/
noncomputable def tokenText (d : Char) : Prim F → Str
  | .null => "null".toList
  | .bool true => "true".toList
  | .bool false => "false".toList
  | .num x => if F64.isZero x = true then "0".toList else if F64.isFinite x = true then F64.display x else "null".toList
  | .str s => if PlainText s d then s else quotedText s

/-- Words separated by the delimiter. -/
def separated (d : Char) : List Str → Str
  | [] => []
  | [w] => w
  | w :: ws => w ++ d :: separated d ws

/-- A row of primitives. -/
noncomputable def cellsText (d : Char) (ps : List (Prim F)) : Str := separated d (ps.map (tokenText d))

/-- `[n]`, with the delimiter inside the brackets unless it is a comma. -/
def lengthMark (d : Char) (n : Nat) : Str := '[' :: (toString n).toList ++ (if d = ',' then [] else [d]) ++ [']']

/-! ## Lines -/

/-- A value for which the way of writing has been chosen: arrays on one line, as tables, or as lists. -/
inductive Layout (F : Type) where
  | prim (p : Prim F)
  | inline (ps : List (Prim F))
  | table (cols : List Str) (rows : List (List (Prim F)))
  | list (items : List (Layout F))
  | object (entries : List (Str × Layout F))

/-- A line: how many levels it is indented, and its text. -/
abbrev Row := Nat × Str

/-- An array on one line; nothing after the colon when it is empty. -/
noncomputable def inlineText (d : Char) (ps : List (Prim F)) : Str :=
  lengthMark d ps.length ++ ':' :: (if ps.isEmpty then [] else ' ' :: cellsText d ps)

/-- The head of a table. -/
def tableText (d : Char) (cols : List Str) (n : Nat) : Str :=
  lengthMark d n ++ '{' :: separated d (cols.map keyTextOf) ++ ['}', ':']

mutual
/-- The value of an entry: `head` is what stands before it on its line, `depth` the level of that line and
`inner` the level of the lines below. -/
noncomputable def Layout.entryRows (d : Char) (head : Str) (depth inner : Nat) : Layout F → List Row
  | .prim p => [(depth, head ++ ':' :: ' ' :: tokenText d p)]
  | .inline ps => [(depth, head ++ inlineText d ps)]
  | .table cols rows => (depth, head ++ tableText d cols rows.length) :: rows.map fun row => (inner, cellsText d row)
  | .list items => (depth, head ++ lengthMark d items.length ++ [':']) :: Layout.itemsRows d inner items
  | .object es => (depth, head ++ [':']) :: Layout.entriesRows d inner es
/-- The entries of an object, each at the same level, what belongs to an entry one level deeper. -/
noncomputable def Layout.entriesRows (d : Char) (depth : Nat) : List (Str × Layout F) → List Row
  | [] => []
  | (k, v) :: es => v.entryRows d (keyTextOf k) depth (depth + 1) ++ Layout.entriesRows d depth es
/-- An element of a list, behind a hyphen.  The first entry of an object stands on the line of the hyphen,
the others one level deeper than the hyphen, and what belongs to the first entry two levels deeper. -/
noncomputable def Layout.itemRows (d : Char) (depth : Nat) : Layout F → List Row
  | .prim p => [(depth, '-' :: ' ' :: tokenText d p)]
  | .inline ps => [(depth, '-' :: ' ' :: inlineText d ps)]
  | .table cols rows => (depth, '-' :: ' ' :: tableText d cols rows.length) :: rows.map fun row => (depth + 1, cellsText d row)
  | .list items => (depth, '-' :: ' ' :: (lengthMark d items.length ++ [':'])) :: Layout.itemsRows d (depth + 1) items
  | .object [] => [(depth, ['-'])]
  | .object ((k, v) :: es) =>
    v.entryRows d ('-' :: ' ' :: keyTextOf k) depth (depth + 2) ++ Layout.entriesRows d (depth + 1) es
noncomputable def Layout.itemsRows (d : Char) (depth : Nat) : List (Layout F) → List Row
  | [] => []
  | v :: vs => v.itemRows d depth ++ Layout.itemsRows d depth vs
end

/-- The lines of a whole document: the entries of an object, a token, or an array without a key. -/
noncomputable def Layout.documentRows (d : Char) : Layout F → List Row
  | .prim p => [(0, tokenText d p)]
  | .object es => Layout.entriesRows d 0 es
  | v => v.entryRows d [] 0 1

/-- A line with its indentation. -/
def rowText (indent : Nat) (r : Row) : Str := List.replicate (indent * r.1) ' ' ++ r.2

end

/-! ## The choice of the layout -/

section
variable {F : Type}

/-- `v` consists of objects of one entry each with the keys `ks`, ending in `leaf`; with the key in front of
it the chain has at most `fd` keys, and it is as long as it can be. -/
def LongestChain (fd : Nat) (v : Json F) (ks : List Str) (leaf : Json F) : Prop :=
  v = nested ks leaf ∧ ks.length + 1 ≤ fd ∧ (ks.length + 1 = fd ∨ ∀ k w, leaf ≠ .obj [(k, w)])

/-- The entry `k, v` may be folded: there is a chain of two or more keys, all of them identifiers; the joined
key is not a key of the same object, and the whole path is not in `taken`. -/
def Foldable (siblings taken path : List Str) (fd : Nat) (k : Str) (v : Json F) (ks : List Str) (leaf : Json F) : Prop :=
  LongestChain fd v ks leaf ∧ ks ≠ [] ∧ (∀ s ∈ k :: ks, identifier s = true) ∧
    dotted (k :: ks) ∉ siblings ∧ dotted (path ++ k :: ks) ∉ taken

/-- The cells of a table, row by row. -/
def TableCells (cols : List Str) (items : List (Json F)) (rows : List (List (Prim F))) : Prop :=
  Pointwise (fun item row => ∃ es, item = .obj es ∧ Pointwise (fun c p => lookupKey c es = some (.prim p)) cols row) items rows

/-- All elements are primitives, those of the list. -/
def ArePrims (items : List (Json F)) (ps : List (Prim F)) : Prop := items = ps.map .prim

mutual
/-- A value under a key (or at the root).  `taken` are the dotted keys of the root object, `path` the keys
that lead to the value, `fd` how many keys may still be joined. -/
inductive ValueLayout (fold : Bool) (maxFold : Nat) : (taken path : List Str) → (fd : Nat) → Json F → Layout F → Prop
  | prim {taken path fd} (p : Prim F) : ValueLayout fold maxFold taken path fd (.prim p) (.prim p)
  | inline {taken path fd} {items : List (Json F)} {ps : List (Prim F)} : ArePrims items ps →
      ValueLayout fold maxFold taken path fd (.arr items) (.inline ps)
  | table {taken path fd} {items : List (Json F)} {cols : List Str} {rows : List (List (Prim F))} :
      IsTable items cols → TableCells cols items rows →
      ValueLayout fold maxFold taken path fd (.arr items) (.table cols rows)
  | list {taken path fd} {items : List (Json F)} {ls : List (Layout F)} :
      (¬ ∃ ps, ArePrims items ps) → (¬ ∃ cols, IsTable items cols) → ItemsLayout fold maxFold items ls →
      ValueLayout fold maxFold taken path fd (.arr items) (.list ls)
  | object {taken path fd} {es : List (Str × Json F)} {ls : List (Str × Layout F)} :
      EntriesLayout fold maxFold (es.map Prod.fst) taken path fd es ls →
      ValueLayout fold maxFold taken path fd (.obj es) (.object ls)
/-- The entries of an object with the keys `siblings`: each one folded if folding is on and it may be. -/
inductive EntriesLayout (fold : Bool) (maxFold : Nat) :
    (siblings taken path : List Str) → (fd : Nat) → List (Str × Json F) → List (Str × Layout F) → Prop
  | nil {siblings taken path fd} : EntriesLayout fold maxFold siblings taken path fd [] []
  | folded {siblings taken path fd} {k : Str} {v : Json F} {ks : List Str} {leaf : Json F} {l : Layout F}
      {es : List (Str × Json F)} {ls : List (Str × Layout F)} :
      fold = true → Foldable siblings taken path fd k v ks leaf →
      ValueLayout fold maxFold taken (path ++ k :: ks) (fd - (k :: ks).length) leaf l →
      EntriesLayout fold maxFold siblings taken path fd es ls →
      EntriesLayout fold maxFold siblings taken path fd ((k, v) :: es) ((dotted (k :: ks), l) :: ls)
  | plain {siblings taken path fd} {k : Str} {v : Json F} {l : Layout F}
      {es : List (Str × Json F)} {ls : List (Str × Layout F)} :
      (fold = true → ¬ ∃ ks leaf, Foldable siblings taken path fd k v ks leaf) →
      ValueLayout fold maxFold taken (path ++ [k]) fd v l →
      EntriesLayout fold maxFold siblings taken path fd es ls →
      EntriesLayout fold maxFold siblings taken path fd ((k, v) :: es) ((k, l) :: ls)
/-- An element of a list: never a table.  In an object, the first entry is not folded, and the others do
not count it among their siblings; folding starts afresh. -/
inductive ItemLayout (fold : Bool) (maxFold : Nat) : Json F → Layout F → Prop
  | prim (p : Prim F) : ItemLayout fold maxFold (.prim p) (.prim p)
  | inline {items : List (Json F)} {ps : List (Prim F)} : ArePrims items ps →
      ItemLayout fold maxFold (.arr items) (.inline ps)
  | list {items : List (Json F)} {ls : List (Layout F)} :
      (¬ ∃ ps, ArePrims items ps) → ItemsLayout fold maxFold items ls → ItemLayout fold maxFold (.arr items) (.list ls)
  | empty : ItemLayout fold maxFold (.obj []) (.object [])
  | object {k : Str} {v : Json F} {l : Layout F} {es : List (Str × Json F)} {ls : List (Str × Layout F)} :
      ValueLayout fold maxFold [] [] maxFold v l → EntriesLayout fold maxFold (es.map Prod.fst) [] [] maxFold es ls →
      ItemLayout fold maxFold (.obj ((k, v) :: es)) (.object ((k, l) :: ls))
inductive ItemsLayout (fold : Bool) (maxFold : Nat) : List (Json F) → List (Layout F) → Prop
  | nil : ItemsLayout fold maxFold [] []
  | cons {v : Json F} {l : Layout F} {vs : List (Json F)} {ls : List (Layout F)} : ItemLayout fold maxFold v l →
      ItemsLayout fold maxFold vs ls → ItemsLayout fold maxFold (v :: vs) (l :: ls)
end

/-- The dotted keys of the root object. -/
def dottedKeys : Json F → List Str
  | .obj es => (es.map Prod.fst).filter fun k => decide ('.' ∈ k)
  | _ => []

/-- The layout of a whole value. -/
def DocumentLayout (fold : Bool) (maxFold : Nat) (v : Json F) (l : Layout F) : Prop :=
  ValueLayout fold maxFold (dottedKeys v) [] maxFold v l

end

end Toon
