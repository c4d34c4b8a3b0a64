import Verif.Spec.Misread
import Verif.Spec.Events

/-!
# What a layout is read as

The rules of `Spec/Misread.lean` for a value whose written form has been chosen (`Spec/Layout.lean`), so that keys may have been
joined, with the tree that is read: it keeps which keys were in quotes, on which path expansion depends.
-/

namespace Toon

section
variable {F : Type} [F64 F]

/-- What the line `k: "s"` stands for as the header of an array with its elements on the same line: the entry that is read. -/
def MisreadTree (strict : Bool) (k s : Str) (e : Str × Bool × ETree F) : Prop :=
  ∃ (h : Header) (text : Str) (cells : List Str) (prims : List (Prim F)),
    HeaderMeans (k ++ ':' :: ' ' :: quotedText s) h ∧ h.key = some e.1 ∧ h.inline = some text ∧
    Cells h.delim text cells ∧ Pointwise TokenMeans cells prims ∧ (strict = true → cells.length = h.length) ∧
    e.2.1 = h.keyQuoted ∧ e.2.2 = .arr h.length (prims.map .prim)

mutual
/-- `l.Means strict t`: the lines of the layout `l` are read as the tree `t`. -/
def Layout.Means (strict : Bool) : Layout F → ETree F → Prop
  | .prim p, t => t = .prim p
  | .inline ps, t => ps.length ≤ 100000000 ∧ t = .arr ps.length (ps.map .prim)
  | .table cols rows, t => rows.length ≤ 100000000 ∧ (∀ c ∈ cols, '}' ∉ c) ∧
      t = .arr rows.length (rows.map fun row => .obj ((cols.zip row).map fun c => (c.1, !bareKey c.1, .prim c.2)))
  | .list items, t => items.length ≤ 100000000 ∧ ∃ ts, t = .arr items.length ts ∧ Layout.MeansItems strict items ts
  | .object es, t => ∃ ts, t = .obj ts ∧ Layout.MeansEntries strict es ts
def Layout.MeansItems (strict : Bool) : List (Layout F) → List (ETree F) → Prop
  | [], ts => ts = []
  | l :: ls, ts => ∃ t ts', ts = t :: ts' ∧ l.Means strict t ∧ Layout.MeansItems strict ls ts'
/-- An entry whose line is taken for the header of an array is that array; every other entry has the key under which it is
written, with quotes unless it is written without. -/
def Layout.MeansEntries (strict : Bool) : List (Str × Layout F) → List (Str × Bool × ETree F) → Prop
  | [], ts => ts = []
  | (k, l) :: es, ts => ∃ e rest, ts = e :: rest ∧
      ((∃ s, l = .prim (.str s) ∧ LooksLikeHeader k s ∧ MisreadTree strict k s e) ∨
        ((∀ s, l = .prim (.str s) → ¬ LooksLikeHeader k s) ∧ e.1 = k ∧ e.2.1 = !bareKey k ∧ l.Means strict e.2.2)) ∧
      Layout.MeansEntries strict es rest
end

/-- Somewhere inside the objects of the value, not inside its arrays, the primitive `p` stands under the key `k`. -/
inductive FieldIn {F : Type} (k : Str) (p : Prim F) : Json F → Prop
  | here {es : List (Str × Json F)} : (k, .prim p) ∈ es → FieldIn k p (.obj es)
  | inside {es : List (Str × Json F)} {k' : Str} {v : Json F} : (k', v) ∈ es → FieldIn k p v → FieldIn k p (.obj es)

end

end Toon
