import Verif.Model.Wasm

/-!
# Options as documented

`/repo/README.md` and `/repo/src/wasm.rs:69-73, 118-121`: indent 2, delimiter `,`, key folding off, unlimited flatten
depth; strict, no path expansion.
-/

namespace Toon

/-- The option as given, or the documented value. -/
def orElse {α : Type} (given : Option α) (documented : α) : Option α :=
  match given with
  | some x => some x
  | none => some documented

/-- Every option spelled out; `unlimited` stands for the unlimited flatten depth. -/
def spelledEncode (o : EncodeOptions) (unlimited : Nat) : EncodeOptions where
  indent := orElse o.indent 2
  delimiter := orElse o.delimiter ','
  keyFolding := orElse o.keyFolding false
  flattenDepth := orElse o.flattenDepth unlimited

def spelledDecode (o : DecodeOptions) : DecodeOptions where
  indent := orElse o.indent 2
  strict := orElse o.strict true
  expandPaths := orElse o.expandPaths false

/-- Property values of the JavaScript options that are understood. -/
def Understood {F : Type} (name : Str) (v : JsValue F) : Prop :=
  (name = "indent".toList ∨ name = "flattenDepth".toList) ∧ (∃ x, v = .num x) ∨
  name = "delimiter".toList ∧ (∃ c s, v = .str (c :: s)) ∨
  (name = "keyFolding".toList ∨ name = "expandPaths".toList) ∧ (v = .str "off".toList ∨ v = .str "safe".toList) ∨
  name = "strict".toList ∧ (∃ b, v = .bool b)

end Toon
