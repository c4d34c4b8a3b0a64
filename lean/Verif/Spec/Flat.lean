import Verif.Model.AsyncEncode
import Verif.Spec.Lines

/-! # Flat documents -/

namespace Toon

/-- The line is a key as the encoder writes keys, a colon and some text, and decoded alone it is
an object with one entry, a primitive. -/
def FlatLine (F : Type) [F64 F] (indent : Nat) (strict : Bool) (line : Str) : Prop :=
  ∃ key text, line = encodeKey key ++ ':' :: text ∧
    ∃ quoted p, decodeStream (F := F) indent strict [line] = .ok [.startObj, .key key quoted, .prim p, .endObj]

/-- Polling gives the listed items in order, then `None` for ever. -/
def Polls {St Item : Type} (poll : St → Option Item × St) (st : St) (items : List Item) : Prop :=
  ∀ n, pollN poll n st = (List.range n).map fun i => items[i]?

end Toon
