import Verif.Model.Basic

/-!
# Standard-library string operations used by the code
-/

namespace Toon

/-- `char::is_whitespace` (Rust std): the Unicode `White_Space` property. -/
def isWs (c : Char) : Bool :=
  let n := c.toNat
  (9 ≤ n && n ≤ 13) || n == 32 || n == 0x85 || n == 0xA0 || n == 0x1680 ||
  (0x2000 ≤ n && n ≤ 0x200A) || n == 0x2028 || n == 0x2029 || n == 0x202F ||
  n == 0x205F || n == 0x3000

/-- `str::trim_start`. -/
def trimStart (s : Str) : Str := s.dropWhile isWs

/-- `str::trim_end`. -/
def trimEnd (s : Str) : Str := (s.reverse.dropWhile isWs).reverse

/-- `str::trim`. -/
def trim (s : Str) : Str := trimEnd (trimStart s)

/-- `str::find(c)`: position of the first occurrence. -/
def findChar (c : Char) : Str → Option Nat
  | [] => none
  | x :: xs => if x = c then some 0 else (findChar c xs).map (· + 1)

/-- `s[from..].find(c).map(|i| from + i)`: position of the first occurrence at or after
`start`, as an absolute position. -/
def findFrom (c : Char) (s : Str) (start : Nat) : Option Nat :=
  (findChar c (s.drop start)).map (start + ·)

/-- `&s[a..b]`. -/
def slice (s : Str) (a b : Nat) : Str := (s.drop a).take (b - a)

/-- `str::split(c)`. -/
def splitOn (c : Char) : Str → List Str
  | [] => [[]]
  | x :: xs =>
    if x = c then [] :: splitOn c xs
    else match splitOn c xs with
      | [] => [[x]]
      | w :: ws => (x :: w) :: ws

/-- `[String]::join(sep)` for a one-character separator. -/
def joinWith (c : Char) : List Str → Str
  | [] => []
  | [w] => w
  | w :: ws => w ++ c :: joinWith c ws

/-- The decimal digit character of `d < 10`. -/
def digitChar (d : Nat) : Char := Char.ofNat (48 + d)

/-- `usize::to_string` / `{length}`: decimal digits without leading zeros.
`fuel` bounds the number of digits; `natDigits` passes enough. -/
def natDigitsAux : Nat → Nat → Str → Str
  | 0, _, acc => acc
  | fuel + 1, n, acc =>
    if n < 10 then digitChar n :: acc
    else natDigitsAux fuel (n / 10) (digitChar (n % 10) :: acc)

/-- `usize::to_string` / `{length}`. -/
def natDigits (n : Nat) : Str := natDigitsAux (n + 1) n []

/-- Value of a string of decimal digits, most significant first. -/
def digitsVal (ds : Str) : Nat := ds.foldl (fun acc c => acc * 10 + (c.toNat - 48)) 0

/-- `str::parse::<usize>().ok()` on a 64-bit target: an optional `+`, at least one decimal
digit, nothing else, value below 2^64. -/
def parseUsize (s : Str) : Option Nat :=
  let ds := match s with
    | '+' :: rest => rest
    | _ => s
  if ds.isEmpty then none
  else if ds.all Char.isDigit then
    if digitsVal ds < 2 ^ 64 then some (digitsVal ds) else none
  else none

end Toon
