import Verif.Model.Message
import Verif.Model.Cli
import Verif.Model.Float64

/-!
# Running the model on the repository's own test cases

The modules in this directory are tests of the model, not theorems: they say that the model gives, on the inputs of
the repository's test suite, the answers that suite expects of the program.  Numbers are the doubles of
`Verif/Model/Float64.lean`.
-/

namespace Toon.Tests

/-- A string. -/
def s (x : String) : Json B64 := .prim (.str x.toList)

/-- A number; a negative zero in an expected value stands for zero, since the fixtures compare numerically. -/
def n (x : String) : Json B64 :=
  match B64.parse x.toList with
  | some y => .prim (.num (if y.units = 0 then B64.zeroB false else y))
  | none => .prim .null

mutual

/-- Equality of values, the order of keys included. -/
def same : Json B64 → Json B64 → Bool
  | .prim p, .prim q => p == q
  | .arr as, .arr bs => sameItems as bs
  | .obj as, .obj bs => sameEntries as bs
  | _, _ => false

def sameItems : List (Json B64) → List (Json B64) → Bool
  | [], [] => true
  | a :: as, b :: bs => same a b && sameItems as bs
  | _, _ => false

def sameEntries : List (Str × Json B64) → List (Str × Json B64) → Bool
  | [], [] => true
  | (k, a) :: as, (l, b) :: bs => k == l && same a b && sameEntries as bs
  | _, _ => false

end

/-- Decoding the text gives the value. -/
def reads (o : DecOpts) (input : String) (v : Json B64) : Bool :=
  match decode (F := B64) o input.toList with
  | .ok r => same r v
  | .error _ => false

/-- Decoding the text fails. -/
def fails (o : DecOpts) (input : String) : Bool :=
  match decode (F := B64) o input.toList with
  | .ok _ => false
  | .error _ => true

/-- Decoding the text fails with the message. -/
def says (o : DecOpts) (input : String) (message : String) : Bool :=
  match decode (F := B64) o input.toList with
  | .ok _ => false
  | .error e => e.text == some message.toList

/-- Encoding the value gives the text. -/
def writes (o : EncOpts) (v : Json B64) (expected : String) : Bool := encode o v == expected.toList

end Toon.Tests
