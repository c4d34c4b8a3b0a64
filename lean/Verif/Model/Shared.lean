import Verif.Model.Str

/-!
# `/repo/src/shared/`: literals, escaping, quoting decisions
-/

namespace Toon

/-- `/repo/src/shared/literal_utils.rs:3-6` `is_boolean_or_null_literal`. -/
def isBoolOrNull (s : Str) : Bool :=
  s == "true".toList || s == "false".toList || s == "null".toList

/-- The loop `while i < len && bytes[i].is_ascii_digit() { i += 1 }`: the digits and the rest. -/
def spanDigits (s : Str) : Str × Str := (s.takeWhile Char.isDigit, s.dropWhile Char.isDigit)

/-- Common tail of the two numeric scanners, `/repo/src/shared/literal_utils.rs:43-74` and
`113-142`: optional fraction with at least one digit, optional exponent with at least one
digit, end of input. -/
def numTail (s : Str) : Bool :=
  -- optional fraction
  let afterFrac : Option Str := match s with
    | '.' :: r => if (spanDigits r).1.isEmpty then none else some (spanDigits r).2
    | _ => some s
  match afterFrac with
  | none => false
  | some r =>
    -- optional exponent
    match r with
    | [] => true
    | c :: r1 =>
      if c == 'e' || c == 'E' then
        let r2 := match r1 with
          | '+' :: r2 => r2
          | '-' :: r2 => r2
          | _ => r1
        !(spanDigits r2).1.isEmpty && (spanDigits r2).2.isEmpty
      else false

/-- Optional leading minus sign (`literal_utils.rs:18-26`, `93-98`); `none` when nothing
follows it. -/
def stripMinus : Str → Option Str
  | [] => none
  | '-' :: [] => none
  | '-' :: r => some r
  | s => some s

/-- `/repo/src/shared/literal_utils.rs:8-82` `is_numeric_like`. -/
def isNumericLike (value : Str) : Bool :=
  match stripMinus (trim value) with
  | none => false
  | some body =>
    let ds := (spanDigits body).1
    if ds.isEmpty then false
    else if ds.length > 1 && ds.head? == some '0' then true
    else numTail (spanDigits body).2

/-- The grammar part of `/repo/src/shared/literal_utils.rs:84-142` `is_numeric_literal`, on the
trimmed text. -/
def isNumericSyntax (trimmed : Str) : Bool :=
  match stripMinus trimmed with
  | none => false
  | some body =>
    match body with
    | [] => false
    | c :: r =>
      if c == '0' then
        match r with
        | [] => numTail r
        | d :: _ => if d.isDigit then false else numTail r
      else if c.isDigit then numTail (spanDigits body).2
      else false

/-- `/repo/src/shared/literal_utils.rs:84-145` `is_numeric_literal`. -/
def isNumericLiteral (F : Type) [F64 F] (value : Str) : Bool :=
  let trimmed := trim value
  isNumericSyntax trimmed &&
    match (F64.parse trimmed : Option F) with
    | some x => F64.isFinite x
    | none => false

/-- `/repo/src/shared/string_utils.rs:3-32` `escape_string`, per character. -/
def escapeChar (c : Char) : Str :=
  if c = '\\' then ['\\', '\\']
  else if c = '"' then ['\\', '"']
  else if c = '\n' then ['\\', 'n']
  else if c = '\r' then ['\\', 'r']
  else if c = '\t' then ['\\', 't']
  else [c]

/-- `/repo/src/shared/string_utils.rs:3-32` `escape_string`. -/
def escapeString (s : Str) : Str := s.flatMap escapeChar

/-- The `match next` of `/repo/src/shared/string_utils.rs:49-58`. -/
def unescapeChar (c : Char) : Option Char :=
  if c = 'n' then some '\n'
  else if c = 't' then some '\t'
  else if c = 'r' then some '\r'
  else if c = '\\' then some '\\'
  else if c = '"' then some '"'
  else none

/-- `/repo/src/shared/string_utils.rs:40-65` `unescape_string`. -/
def unescapeString : Str → Except Err Str
  | [] => .ok []
  | ch :: rest =>
    if ch = '\\' then
      match rest with
      | [] => .error (.badEscape none)
      | next :: rest' =>
        match unescapeChar next with
        | none => .error (.badEscape (some next))
        | some c =>
          match unescapeString rest' with
          | .error e => .error e
          | .ok out => .ok (c :: out)
    else
      match unescapeString rest with
      | .error e => .error e
      | .ok out => .ok (ch :: out)

/-- The loop of `/repo/src/shared/string_utils.rs:75-86`; `i` is the position of the head of
the list in the whole text. -/
def closingQuoteAux : Str → Nat → Option Nat
  | [], _ => none
  | c :: rest, i =>
    if c = '\\' then
      match rest with
      | [] => none
      | _ :: rest' => closingQuoteAux rest' (i + 2)
    else if c = '"' then some i
    else closingQuoteAux rest (i + 1)

/-- `/repo/src/shared/string_utils.rs:67-87` `find_closing_quote`. -/
def findClosingQuote (content : Str) (start : Nat) : Option Nat :=
  match content.drop start with
  | [] => none
  | _ :: rest => closingQuoteAux rest (start + 1)

/-- The loop of `/repo/src/shared/string_utils.rs:101-119`. -/
def unquotedCharAux (target : Char) : Str → Nat → Bool → Option Nat
  | [], _, _ => none
  | c :: rest, i, inQ =>
    if inQ && c = '\\' then
      match rest with
      | [] => none
      | _ :: rest' => unquotedCharAux target rest' (i + 2) inQ
    else if c = '"' then unquotedCharAux target rest (i + 1) (!inQ)
    else if c = target && !inQ then some i
    else unquotedCharAux target rest (i + 1) inQ

/-- `/repo/src/shared/string_utils.rs:89-120` `find_unquoted_char` with `start = 0` (the only
use).  Non-ASCII targets give `None` (line 94). -/
def findUnquotedChar (content : Str) (target : Char) : Option Nat :=
  if target.toNat < 128 then unquotedCharAux target content 0 false else none

/-- First character of an identifier, `/repo/src/shared/validation.rs:11`, `32`. -/
def isIdStart (c : Char) : Bool := c.isAlpha || c == '_'

/-- `/repo/src/shared/validation.rs:4-23` `is_valid_unquoted_key`. -/
def isValidUnquotedKey : Str → Bool
  | [] => false
  | c :: rest => isIdStart c && rest.all (fun ch => ch.isAlphanum || ch == '_' || ch == '.')

/-- `/repo/src/shared/validation.rs:25-44` `is_identifier_segment`. -/
def isIdentifierSegment : Str → Bool
  | [] => false
  | c :: rest => isIdStart c && rest.all (fun ch => ch.isAlphanum || ch == '_')

/-- `/repo/src/shared/validation.rs:46-85` `is_safe_unquoted`. -/
def isSafeUnquoted (value : Str) (delim : Char) : Bool :=
  if value.isEmpty then false
  else if trim value != value then false
  else if isBoolOrNull value || isNumericLike value then false
  else if value.contains ':' then false
  else if value.contains '"' || value.contains '\\' then false
  else if value.contains '[' || value.contains ']' || value.contains '{' || value.contains '}'
    then false
  else if value.contains '\n' || value.contains '\r' || value.contains '\t' then false
  else if value.contains delim then false
  else if value.head? == some '-' then false
  else true

end Toon
