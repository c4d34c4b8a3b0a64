import Verif.Spec.Resources
import Verif.Spec.Incremental
import Verif.Model.AsyncEncode

/-!
# What a stream holds

Specification for C81.
-/

namespace Toon

variable {F : Type}

/-- The event opens an array or object. -/
def Ev.opens : Ev F → Bool
  | .startObj => true
  | .startArr _ => true
  | _ => false

/-- The event closes an array or object. -/
def Ev.closes : Ev F → Bool
  | .endObj => true
  | .endArr => true
  | _ => false

/-- The event is the first one of a value. -/
def Ev.begins : Ev F → Bool
  | .prim _ => true
  | e => e.opens

/-- The values a frame has not handed out yet. -/
def EncFrame.held : EncFrame F → Nat
  | .object entries pending => nodesEntries entries + (pending.map nodes).getD 0
  | .array items _ _ => nodesItems items

def framesHeld : List (EncFrame F) → Nat
  | [] => 0
  | f :: fs => f.held + framesHeld fs

/-- The values the stream has not handed out yet. -/
def EventStream.held (st : EventStream F) : Nat := (st.root.map nodes).getD 0 + framesHeld st.stack

/-- The line is blank or a plain entry. -/
def PlainLine (F : Type) [F64 F] (indent : Nat) (strict : Bool) (raw : Str) : Prop :=
  BlankLine raw ∨ ∃ entry : Str × Bool × Prim F, PlainEntry indent strict raw entry

/-- The numbers of the blank lines, counted from `n`. -/
def blankNumbers (n : Nat) : List Str → List Nat
  | [] => []
  | line :: lines => if BlankLine line then n :: blankNumbers (n + 1) lines else blankNumbers (n + 1) lines

end Toon
