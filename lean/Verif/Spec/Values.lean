import Verif.Spec.HeaderLike

/-!
# Conditions on JSON values, and equality up to the order of keys

Stated on the data type of JSON values alone, without any function of the model.
-/

namespace Toon

variable {F : Type}

/-- The three delimiters of the format. -/
def GoodDelim (d : Char) : Prop := d = ',' ∨ d = '|' ∨ d = '\t'

instance (d : Char) : Decidable (GoodDelim d) := inferInstanceAs (Decidable (_ ∨ _ ∨ _))

/-- A key of the form `[A-Za-z_][A-Za-z0-9_.]*`: written without quotes. -/
def bareKey (k : Str) : Bool :=
  match k with
  | [] => false
  | c :: rest =>
    (c.isAlpha || c == '_') && rest.all fun ch => ch.isAlphanum || ch == '_' || ch == '.'

/-- The first value stored under a key. -/
def lookupKey (k : Str) : List (Str × Json F) → Option (Json F)
  | [] => none
  | (k', v) :: rest => if k' = k then some v else lookupKey k rest

/-- The array is a table with the given columns: every element is an object with as many entries
as there are columns and a primitive under every column; the columns are the keys of the first
element, and there is at least one. -/
def IsTable (items : List (Json F)) (cols : List Str) : Prop :=
  cols ≠ [] ∧ (∃ es rest, items = .obj es :: rest ∧ es.map Prod.fst = cols) ∧
  ∀ item ∈ items, ∃ es, item = .obj es ∧ es.length = cols.length ∧
    ∀ c ∈ cols, ∃ p, lookupKey c es = some (.prim p)

/-! ## Numbers -/

mutual
/-- Every primitive of a JSON value satisfies `P`. -/
def AllPrims (P : Prim F → Prop) : Json F → Prop
  | .prim p => P p
  | .arr items => AllPrimsItems P items
  | .obj es => AllPrimsEntries P es
def AllPrimsItems (P : Prim F → Prop) : List (Json F) → Prop
  | [] => True
  | v :: vs => AllPrims P v ∧ AllPrimsItems P vs
def AllPrimsEntries (P : Prim F → Prop) : List (Str × Json F) → Prop
  | [] => True
  | (_, v) :: es => AllPrims P v ∧ AllPrimsEntries P es
end

/-- A primitive that JSON text can represent and that has one representation: not NaN, not infinite,
not negative zero. -/
def PlainPrim [F64 F] : Prim F → Prop
  | .num x => F64.isFinite x = true ∧ ¬(F64.isZero x = true ∧ F64.isNeg x = true)
  | _ => True

/-- No number inside the value is NaN, infinite or negative zero. -/
def PlainNumbers [F64 F] (v : Json F) : Prop := AllPrims PlainPrim v

mutual
/-- A JSON value with another function applied to each primitive; shape and keys stay. -/
def Json.mapPrims (f : Prim F → Prim F) : Json F → Json F
  | .prim p => .prim (f p)
  | .arr items => .arr (Json.mapPrimsItems f items)
  | .obj es => .obj (Json.mapPrimsEntries f es)
def Json.mapPrimsItems (f : Prim F → Prim F) : List (Json F) → List (Json F)
  | [] => []
  | v :: vs => v.mapPrims f :: Json.mapPrimsItems f vs
def Json.mapPrimsEntries (f : Prim F → Prim F) : List (Str × Json F) → List (Str × Json F)
  | [] => []
  | (k, v) :: es => (k, v.mapPrims f) :: Json.mapPrimsEntries f es
end

/-! ## Distinct keys -/

mutual
/-- No object inside the value has the same key twice. -/
def DistinctKeys : Json F → Prop
  | .prim _ => True
  | .arr items => DistinctKeysItems items
  | .obj es => (es.map Prod.fst).Nodup ∧ DistinctKeysEntries es
def DistinctKeysItems : List (Json F) → Prop
  | [] => True
  | v :: vs => DistinctKeys v ∧ DistinctKeysItems vs
def DistinctKeysEntries : List (Str × Json F) → Prop
  | [] => True
  | (_, v) :: es => DistinctKeys v ∧ DistinctKeysEntries es
end

/-! ## Values without the known defects -/

mutual
/-- The value avoids the three cases in which written text is not read back:

* an array of more than 100 000 000 elements,
* a table column whose name contains `}`,
* a header-like string directly under an unquoted key; the cells of a table are exempt, they are
  written without their keys.

`tbl` says whether an array at this place may be written as a table (it may not be when it is an
element of another array). -/
def Writable (tbl : Bool) : Json F → Prop
  | .prim _ => True
  | .arr items => items.length ≤ 100000000 ∧
      (tbl = true → ∀ cols, IsTable items cols → ∀ c ∈ cols, '}' ∉ c) ∧
      ((tbl = true ∧ ∃ cols, IsTable items cols) ∨ WritableItems items)
  | .obj es => WritableEntries es
def WritableItems : List (Json F) → Prop
  | [] => True
  | v :: vs => Writable false v ∧ WritableItems vs
def WritableEntries : List (Str × Json F) → Prop
  | [] => True
  | (k, v) :: es =>
    (∀ s, v = .prim (.str s) → bareKey k = true → headerLike s = false) ∧
    Writable true v ∧ WritableEntries es
end

mutual
/-- Every array has fewer than 2^64 elements (the length of an array in memory is a 64-bit number). -/
def Sized : Json F → Prop
  | .prim _ => True
  | .arr items => items.length < 2 ^ 64 ∧ SizedItems items
  | .obj es => SizedEntries es
def SizedItems : List (Json F) → Prop
  | [] => True
  | v :: vs => Sized v ∧ SizedItems vs
def SizedEntries : List (Str × Json F) → Prop
  | [] => True
  | (_, v) :: es => Sized v ∧ SizedEntries es
end

mutual
/-- Every array has at most 100 000 000 elements; when not `strict`, an array of primitives may have more. -/
def Declarable (strict : Bool) : Json F → Prop
  | .prim _ => True
  | .arr items => (items.length ≤ 100000000 ∨ strict = false ∧ ∀ v ∈ items, ∃ p, v = .prim p) ∧
      DeclarableItems strict items
  | .obj es => DeclarableEntries strict es
def DeclarableItems (strict : Bool) : List (Json F) → Prop
  | [] => True
  | v :: vs => Declarable strict v ∧ DeclarableItems strict vs
def DeclarableEntries (strict : Bool) : List (Str × Json F) → Prop
  | [] => True
  | (_, v) :: es => Declarable strict v ∧ DeclarableEntries strict es
end

mutual
/-- In every table all rows list their keys in the order of the columns. -/
def Aligned (tbl : Bool) : Json F → Prop
  | .prim _ => True
  | .arr items =>
      (tbl = true → ∀ cols, IsTable items cols → ∀ es, .obj es ∈ items → es.map Prod.fst = cols) ∧
      AlignedItems items
  | .obj es => AlignedEntries es
def AlignedItems : List (Json F) → Prop
  | [] => True
  | v :: vs => Aligned false v ∧ AlignedItems vs
def AlignedEntries : List (Str × Json F) → Prop
  | [] => True
  | (_, v) :: es => Aligned true v ∧ AlignedEntries es
end

/-! ## Nesting -/

mutual
/-- The nesting depth: 0 for a primitive, one more than the deepest part for a container. -/
def height : Json F → Nat
  | .prim _ => 0
  | .arr items => heightItems items + 1
  | .obj es => heightEntries es + 1
def heightItems : List (Json F) → Nat
  | [] => 0
  | v :: vs => max (height v) (heightItems vs)
def heightEntries : List (Str × Json F) → Nat
  | [] => 0
  | (_, v) :: es => max (height v) (heightEntries es)
end

/-! ## Equality up to the order of keys -/

/-- Equality of JSON values up to the order of the entries of objects (at any depth). -/
inductive Json.Equiv : Json F → Json F → Prop
  | refl (v : Json F) : Json.Equiv v v
  | trans {a b c : Json F} : Json.Equiv a b → Json.Equiv b c → Json.Equiv a c
  /-- an element of an array -/
  | arr (pre post : List (Json F)) {a b : Json F} : Json.Equiv a b →
      Json.Equiv (.arr (pre ++ a :: post)) (.arr (pre ++ b :: post))
  /-- a value of an object -/
  | obj (pre post : List (Str × Json F)) (k : Str) {a b : Json F} : Json.Equiv a b →
      Json.Equiv (.obj (pre ++ (k, a) :: post)) (.obj (pre ++ (k, b) :: post))
  /-- the order of the entries -/
  | perm {es es' : List (Str × Json F)} : es.Perm es' → Json.Equiv (.obj es) (.obj es')

@[inherit_doc] scoped infix:50 " ≃ " => Json.Equiv

end Toon
