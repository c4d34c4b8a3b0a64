import Verif.Spec.JsonText
import Verif.Model.Parser

/-!
# Reading JSON text

`serde_json::from_str::<serde_json::Value>` (`/repo/src/cli/conversion.rs:21-22`) belongs to an
external crate; its syntax is modelled by a recursive-descent reader for RFC 8259.
The value of a numeric token is a parameter `rd` (without its feature `float_roundtrip`, which the
project does not enable, the crate may be off by one unit in the last place).
The crate's recursion limit and its map (duplicate members are kept here) are modelled in
`Model/Host.lean`.
-/

namespace Toon

/-- White space of JSON. -/
def isJsonWs (c : Char) : Bool := c = ' ' || c = '\t' || c = '\n' || c = '\r'

def skipJsonWs (s : Str) : Str := s.dropWhile isJsonWs

/-- The character denoted by a two-character escape. -/
def jsonShortEscape (x : Char) : Option Char :=
  if x = '"' then some '"'
  else if x = '\\' then some '\\'
  else if x = '/' then some '/'
  else if x = 'b' then some (Char.ofNat 0x08)
  else if x = 'f' then some (Char.ofNat 0x0c)
  else if x = 'n' then some '\n'
  else if x = 'r' then some '\r'
  else if x = 't' then some '\t'
  else none

/-- The rest of a string after its opening quote: the string and the text after the closing quote. -/
def readChars : Str → Option (Str × Str)
  | [] => none
  | c :: r =>
    if c = '"' then some ([], r)
    else if c = '\\' then
      match r with
      | [] => none
      | x :: r =>
        if x = 'u' then
          match r with
          | a :: b :: c :: d :: r =>
            match hexVal4 a b c d with
            | none => none
            | some n =>
              if 0xD800 ≤ n ∧ n ≤ 0xDFFF then
                match r with
                | q :: u :: a' :: b' :: c' :: d' :: r =>
                  if q = '\\' ∧ u = 'u' then
                    match hexVal4 a' b' c' d' with
                    | none => none
                    | some m =>
                      if n ≤ 0xDBFF ∧ 0xDC00 ≤ m ∧ m ≤ 0xDFFF then
                        match readChars r with
                        | some (s, t) => some (Char.ofNat (0x10000 + (n - 0xD800) * 0x400 + (m - 0xDC00)) :: s, t)
                        | none => none
                      else none
                  else none
                | _ => none
              else
                match readChars r with
                | some (s, t) => some (Char.ofNat n :: s, t)
                | none => none
          | _ => none
        else
          match jsonShortEscape x with
          | none => none
          | some y =>
            match readChars r with
            | some (s, t) => some (y :: s, t)
            | none => none
    else if c.toNat < 0x20 then none
    else
      match readChars r with
      | some (s, t) => some (c :: s, t)
      | none => none

/-- Characters of numbers. -/
def isJsonNumChar (c : Char) : Bool := c.isDigit || c = '-' || c = '+' || c = '.' || c = 'e' || c = 'E'

section
variable {F : Type} (rd : Str → Option F)

/-- A number at the start of the text. -/
def readNumber (s : Str) : Option (Json F × Str) :=
  if isNumericSyntax (s.takeWhile isJsonNumChar) then
    match rd (s.takeWhile isJsonNumChar) with
    | some x => some (.prim (.num x), s.dropWhile isJsonNumChar)
    | none => none
  else none

mutual
/-- A value at the start of the text (white space already skipped). -/
def readValue : Nat → Str → Option (Json F × Str)
  | 0, _ => none
  | _ + 1, [] => none
  | n + 1, c :: r =>
    if c = '{' then
      match skipJsonWs r with
      | [] => none
      | d :: r' =>
        if d = '}' then some (.obj [], r')
        else
          match readMembers n (d :: r') with
          | some (es, t) => some (.obj es, t)
          | none => none
    else if c = '[' then
      match skipJsonWs r with
      | [] => none
      | d :: r' =>
        if d = ']' then some (.arr [], r')
        else
          match readItems n (d :: r') with
          | some (vs, t) => some (.arr vs, t)
          | none => none
    else if c = '"' then
      match readChars r with
      | some (s, t) => some (.prim (.str s), t)
      | none => none
    else if c = 'n' then
      if r.take 3 = ['u', 'l', 'l'] then some (.prim .null, r.drop 3) else none
    else if c = 't' then
      if r.take 3 = ['r', 'u', 'e'] then some (.prim (.bool true), r.drop 3) else none
    else if c = 'f' then
      if r.take 4 = ['a', 'l', 's', 'e'] then some (.prim (.bool false), r.drop 4) else none
    else readNumber rd (c :: r)
/-- Elements up to the closing bracket. -/
def readItems : Nat → Str → Option (List (Json F) × Str)
  | 0, _ => none
  | n + 1, s =>
    match readValue n s with
    | none => none
    | some (v, r) =>
      match skipJsonWs r with
      | [] => none
      | d :: r' =>
        if d = ']' then some ([v], r')
        else if d = ',' then
          match readItems n (skipJsonWs r') with
          | some (vs, t) => some (v :: vs, t)
          | none => none
        else none
/-- Members up to the closing brace. -/
def readMembers : Nat → Str → Option (List (Str × Json F) × Str)
  | 0, _ => none
  | _ + 1, [] => none
  | n + 1, c :: s =>
    if c = '"' then
      match readChars s with
      | none => none
      | some (k, r) =>
        match skipJsonWs r with
        | [] => none
        | d :: r =>
          if d = ':' then
            match readValue n (skipJsonWs r) with
            | none => none
            | some (v, r) =>
              match skipJsonWs r with
              | [] => none
              | d :: r' =>
                if d = '}' then some ([(k, v)], r')
                else if d = ',' then
                  match readMembers n (skipJsonWs r') with
                  | some (es, t) => some ((k, v) :: es, t)
                  | none => none
                else none
          else none
    else none
end

/-- A whole JSON text. -/
def readJson (s : Str) : Option (Json F) :=
  match readValue rd (2 * s.length + 2) (skipJsonWs s) with
  | some (v, r) => if (skipJsonWs r).isEmpty then some v else none
  | none => none

end

end Toon
