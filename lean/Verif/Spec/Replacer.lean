import Verif.Model.Replacer
import Verif.Spec.Values

/-!
# Vocabulary for the replacer: calls, children, logging
-/

namespace Toon

variable {S F : Type}

/-- The arguments of one call of a replacer. -/
structure CallArgs (F : Type) where
  key : Str
  value : Json F
  path : List PathSeg

/-- One call of a replacer: the arguments and the reply. -/
structure Call (F : Type) extends CallArgs F where
  reply : Option (Json F)

/-- The same replacer, also recording its calls in order. -/
def logged (r : Replacer S F) : Replacer (S × List (Call F)) F := fun k v p s =>
  ((r k v p s.1).1, ((r k v p s.1).2, s.2 ++ [⟨⟨k, v, p⟩, (r k v p s.1).1⟩]))

/-- A replacer without state. -/
def stateless (r : Str → Json F → List PathSeg → Option (Json F)) : Replacer Unit F :=
  fun k v p s => (r k v p, s)

/-- The calls due for the direct parts of a value found at `path`: one for each entry of an object,
with its key, and one for each element of an array, with its index as key. -/
def dueCalls (path : List PathSeg) : Json F → List (CallArgs F)
  | .prim _ => []
  | .obj es => es.map fun e => ⟨e.1, e.2, path ++ [.key e.1]⟩
  | .arr items => items.zipIdx.map fun e => ⟨(toString e.2).toList, e.1, path ++ [.index e.2]⟩

/-- The calls due after a call: those for the parts of the replacement; none if the part was
dropped. -/
def dueAfter [F64 F] (c : Call F) : List (CallArgs F) :=
  match c.reply with
  | some w => dueCalls c.path (normalize w)
  | none => []

/-- Two lists have the same length and their elements are related one by one. -/
inductive Pairwise2 {α β : Type} (R : α → β → Prop) : List α → List β → Prop
  | nil : Pairwise2 R [] []
  | cons {a b as bs} : R a b → Pairwise2 R as bs → Pairwise2 R (a :: as) (b :: bs)

/-- The transformation of the parts of `v`, found at `path`, ends with the value `out`. -/
def Transforms [F64 F] (r : Str → Json F → List PathSeg → Option (Json F)) (path : List PathSeg)
    (v out : Json F) : Prop :=
  ∃ fuel, transformChildren (stateless r) fuel path v () = some (out, ())

/-- A value that is a container with at least one part. -/
def HasParts : Json F → Prop
  | .prim _ => False
  | .arr items => items ≠ []
  | .obj es => es ≠ []

end Toon
