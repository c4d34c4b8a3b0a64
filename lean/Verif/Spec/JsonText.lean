import Verif.Spec.Tokens

/-!
# JSON text (RFC 8259)

`JsonDoc rd v s`: the text `s` is a JSON text and `v` is the value it denotes.  Written from the grammar
of RFC 8259 alone; nothing of the model is used except the type of values.  What number a numeric
token denotes is a parameter `rd` (RFC 8259 leaves range and precision to the reader);
`exactNumber` is the correctly rounded reading.
-/

namespace Toon

/-- `ws = *( %x20 / %x09 / %x0A / %x0D )` -/
def JsonWs (w : Str) : Prop := ∀ c ∈ w, c = ' ' ∨ c = '\t' ∨ c = '\n' ∨ c = '\r'

/-- The two-character escapes: the character after the backslash and the character denoted. -/
def jsonShortEscapes : List (Char × Char) :=
  [('"', '"'), ('\\', '\\'), ('/', '/'), ('b', Char.ofNat 0x08), ('f', Char.ofNat 0x0c), ('n', '\n'),
   ('r', '\r'), ('t', '\t')]

/-- The value of a hexadecimal digit (either case). -/
def hexVal (c : Char) : Option Nat :=
  if c.isDigit then some (c.toNat - 48)
  else if 'a' ≤ c ∧ c ≤ 'f' then some (c.toNat - 87)
  else if 'A' ≤ c ∧ c ≤ 'F' then some (c.toNat - 55)
  else none

/-- The value of four hexadecimal digits. -/
def hexVal4 (a b c d : Char) : Option Nat :=
  match hexVal a, hexVal b, hexVal c, hexVal d with
  | some a, some b, some c, some d => some (((a * 16 + b) * 16 + c) * 16 + d)
  | _, _, _, _ => none

/-- `JsonChars e s`: the text `e` may stand between two quotes and denotes the string `s`. -/
inductive JsonChars : Str → Str → Prop
  | nil : JsonChars [] []
  /-- `unescaped = %x20-21 / %x23-5B / %x5D-10FFFF` -/
  | plain {c : Char} {e s : Str} : 0x20 ≤ c.toNat → c ≠ '"' → c ≠ '\\' → JsonChars e s →
      JsonChars (c :: e) (c :: s)
  | short {x c : Char} {e s : Str} : (x, c) ∈ jsonShortEscapes → JsonChars e s →
      JsonChars ('\\' :: x :: e) (c :: s)
  /-- `\uXXXX`, a character of the basic plane -/
  | basic {a b c d : Char} {n : Nat} {e s : Str} : hexVal4 a b c d = some n → ¬ (0xD800 ≤ n ∧ n ≤ 0xDFFF) →
      JsonChars e s → JsonChars ('\\' :: 'u' :: a :: b :: c :: d :: e) (Char.ofNat n :: s)
  /-- `\uXXXX\uXXXX`, a surrogate pair -/
  | pair {a b c d a' b' c' d' : Char} {hi lo : Nat} {e s : Str} :
      hexVal4 a b c d = some hi → 0xD800 ≤ hi → hi ≤ 0xDBFF →
      hexVal4 a' b' c' d' = some lo → 0xDC00 ≤ lo → lo ≤ 0xDFFF → JsonChars e s →
      JsonChars ('\\' :: 'u' :: a :: b :: c :: d :: '\\' :: 'u' :: a' :: b' :: c' :: d' :: e)
        (Char.ofNat (0x10000 + (hi - 0xD800) * 0x400 + (lo - 0xDC00)) :: s)

variable {F : Type} [F64 F]

/-- The correctly rounded reading of a numeric token; a number out of range denotes nothing. -/
def exactNumber (t : Str) : Option F :=
  match F64.parse (F := F) t with
  | some x => if F64.isFinite x = true then some x else none
  | none => none

section
variable (rd : Str → Option F)

mutual
/-- `IsJson rd v t`: the text `t`, without surrounding white space, is a JSON value denoting `v`.  An
object denotes its members in the order of the text, duplicate names included. -/
inductive IsJson : Json F → Str → Prop
  | null : IsJson (.prim .null) ['n', 'u', 'l', 'l']
  | true : IsJson (.prim (.bool true)) ['t', 'r', 'u', 'e']
  | false : IsJson (.prim (.bool false)) ['f', 'a', 'l', 's', 'e']
  | num {t : Str} {x : F} : NumGrammar t → rd t = some x → IsJson (.prim (.num x)) t
  | str {e s : Str} : JsonChars e s → IsJson (.prim (.str s)) ('"' :: (e ++ ['"']))
  | arr0 {w : Str} : JsonWs w → IsJson (.arr []) ('[' :: (w ++ [']']))
  | arr {vs : List (Json F)} {t : Str} : IsItems vs t → IsJson (.arr vs) ('[' :: (t ++ [']']))
  | obj0 {w : Str} : JsonWs w → IsJson (.obj []) ('{' :: (w ++ ['}']))
  | obj {es : List (Str × Json F)} {t : Str} : IsMembers es t → IsJson (.obj es) ('{' :: (t ++ ['}']))
/-- Elements separated by commas, with the white space around them. -/
inductive IsItems : List (Json F) → Str → Prop
  | one {w w' t : Str} {v : Json F} : JsonWs w → IsJson v t → JsonWs w' → IsItems [v] (w ++ (t ++ w'))
  | cons {w w' t r : Str} {v : Json F} {vs : List (Json F)} : JsonWs w → IsJson v t → JsonWs w' → IsItems vs r →
      IsItems (v :: vs) (w ++ (t ++ (w' ++ ',' :: r)))
/-- Members separated by commas, with the white space around them. -/
inductive IsMembers : List (Str × Json F) → Str → Prop
  | one {w₁ w₂ w₃ w₄ e k t : Str} {v : Json F} : JsonWs w₁ → JsonChars e k → JsonWs w₂ → JsonWs w₃ → IsJson v t →
      JsonWs w₄ → IsMembers [(k, v)] (w₁ ++ '"' :: (e ++ '"' :: (w₂ ++ ':' :: (w₃ ++ (t ++ w₄)))))
  | cons {w₁ w₂ w₃ w₄ e k t r : Str} {v : Json F} {es : List (Str × Json F)} : JsonWs w₁ → JsonChars e k →
      JsonWs w₂ → JsonWs w₃ → IsJson v t → JsonWs w₄ → IsMembers es r →
      IsMembers ((k, v) :: es) (w₁ ++ '"' :: (e ++ '"' :: (w₂ ++ ':' :: (w₃ ++ (t ++ (w₄ ++ ',' :: r))))))
end

/-- `JSON-text = ws value ws` -/
def JsonDoc (v : Json F) (s : Str) : Prop := ∃ w t w', s = w ++ (t ++ w') ∧ JsonWs w ∧ IsJson rd v t ∧ JsonWs w'

end

mutual
/-- The value with every NaN and infinite number replaced by `null`. -/
def finiteOrNull : Json F → Json F
  | .prim (.num x) => if F64.isFinite x = true then .prim (.num x) else .prim .null
  | .prim p => .prim p
  | .arr items => .arr (finiteOrNullItems items)
  | .obj es => .obj (finiteOrNullEntries es)
def finiteOrNullItems : List (Json F) → List (Json F)
  | [] => []
  | v :: vs => finiteOrNull v :: finiteOrNullItems vs
def finiteOrNullEntries : List (Str × Json F) → List (Str × Json F)
  | [] => []
  | (k, v) :: es => (k, finiteOrNull v) :: finiteOrNullEntries es
end

/-- No number is NaN or infinite. -/
def FinitePrim : Prim F → Prop
  | .num x => F64.isFinite x = true
  | _ => True

/-! ## Layout -/

/-- A line break and the indentation of the given depth; nothing when `indent` is 0. -/
def jsonBreak (indent depth : Nat) : Str :=
  if indent = 0 then [] else '\n' :: List.replicate (depth * indent) ' '

/-- Texts separated by commas. -/
def commaSep : List Str → Str
  | [] => []
  | [t] => t
  | t :: ts => t ++ ',' :: commaSep ts

mutual
/-- The layout of a JSON value, given how strings and numbers are written: on one line when `indent`
is 0, otherwise every element and member on its own line, indented by `indent` per level. -/
def jsonLayout (str : Str → Str) (num : F → Str) (indent depth : Nat) : Json F → Str
  | .prim .null => "null".toList
  | .prim (.bool b) => if b then "true".toList else "false".toList
  | .prim (.num x) => num x
  | .prim (.str s) => str s
  | .arr [] => "[]".toList
  | .arr (v :: vs) => '[' :: commaSep (jsonLayoutItems str num indent (depth + 1) (v :: vs)) ++
      jsonBreak indent depth ++ [']']
  | .obj [] => "{}".toList
  | .obj (e :: es) => '{' :: commaSep (jsonLayoutMembers str num indent (depth + 1) (e :: es)) ++
      jsonBreak indent depth ++ ['}']
def jsonLayoutItems (str : Str → Str) (num : F → Str) (indent depth : Nat) : List (Json F) → List Str
  | [] => []
  | v :: vs => (jsonBreak indent depth ++ jsonLayout str num indent depth v) :: jsonLayoutItems str num indent depth vs
def jsonLayoutMembers (str : Str → Str) (num : F → Str) (indent depth : Nat) : List (Str × Json F) → List Str
  | [] => []
  | (k, v) :: es => (jsonBreak indent depth ++ str k ++ ':' :: (if indent = 0 then [] else [' ']) ++
      jsonLayout str num indent depth v) :: jsonLayoutMembers str num indent depth es
end

/-! ## Strings -/

mutual
/-- Every string and every key inside the value satisfies `P`. -/
def AllStrings (P : Str → Prop) : Json F → Prop
  | .prim (.str s) => P s
  | .prim _ => True
  | .arr items => AllStringsItems P items
  | .obj es => AllStringsEntries P es
def AllStringsItems (P : Str → Prop) : List (Json F) → Prop
  | [] => True
  | v :: vs => AllStrings P v ∧ AllStringsItems P vs
def AllStringsEntries (P : Str → Prop) : List (Str × Json F) → Prop
  | [] => True
  | (k, v) :: es => P k ∧ AllStrings P v ∧ AllStringsEntries P es
end

/-- Not backspace, not form feed, not U+007F to U+009F: the characters that the two printers of the
command line tool escape differently. -/
def PlainJsonChar (c : Char) : Prop := c.toNat ≠ 0x08 ∧ c.toNat ≠ 0x0c ∧ ¬ (0x7f ≤ c.toNat ∧ c.toNat ≤ 0x9f)

end Toon
