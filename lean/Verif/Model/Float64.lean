import Verif.Model.Str

/-!
# A concrete model of `f64`: IEEE-754 binary64 with exact rational arithmetic

Used to show that the float laws assumed by the theorems are consistent, and to execute the
model.  `display` is the shortest decimal that reads back to the same number (the documented
behaviour of Rust's `f64` `Display`), written without exponent; `parse` rounds the exact decimal
value to nearest, ties to even (the documented behaviour of Rust's `str::parse::<f64>`), for
the texts of the form `-?digits(.digits)?([eE][+-]?digits)?` (the code never parses others
except after having checked that syntax).
-/

namespace Toon

/-- The three fields of a binary64 number. -/
structure B64 where
  neg : Bool
  ex : Fin 2048
  mant : Fin (2 ^ 52)
deriving DecidableEq, Repr

namespace B64

/-- Exponent field 2047 is infinity or NaN. -/
def isFin (x : B64) : Bool := x.ex.val != 2047

/-- Integer significand of a finite number. -/
def sig (x : B64) : Nat := if x.ex.val = 0 then x.mant.val else 2 ^ 52 + x.mant.val

/-- Binary exponent of a finite number, relative to `2^-1074`. -/
def shift (x : B64) : Nat := x.ex.val - 1

/-- Magnitude in units of `2^-1074`. -/
def units (x : B64) : Nat := x.sig * 2 ^ x.shift

def zeroB (neg : Bool) : B64 := ⟨neg, 0, 0⟩
def infB (neg : Bool) : B64 := ⟨neg, 2047, 0⟩

/-- Round half to even of `n / d` (`d > 0`). -/
def roundDiv (n d : Nat) : Nat :=
  let q := n / d
  let r := n % d
  if 2 * r < d then q
  else if 2 * r > d then q + 1
  else if q % 2 = 0 then q else q + 1

/-- The number with integer significand `q` (`q ≤ 2^53`) and binary exponent `k`. -/
def assemble (neg : Bool) (q k : Nat) : B64 :=
  if q < 2 ^ 52 then ⟨neg, 0, Fin.ofNat _ q⟩
  else if q < 2 ^ 53 then
    if k + 1 < 2047 then ⟨neg, Fin.ofNat _ (k + 1), Fin.ofNat _ (q - 2 ^ 52)⟩ else infB neg
  else
    if k + 2 < 2047 then ⟨neg, Fin.ofNat _ (k + 2), 0⟩ else infB neg

/-- Nearest number to `n / d` units (of `2^-1074`). -/
def ofUnits (neg : Bool) (n d : Nat) : B64 :=
  let t := n / d
  let k := if t < 2 ^ 53 then 0 else Nat.log2 t - 52
  assemble neg (roundDiv n (d * 2 ^ k)) k

/-- Nearest number to `D * 10^p`.  The two shortcuts for huge and tiny values only avoid
computing astronomically large powers. -/
def ofDecimal (neg : Bool) (D : Nat) (p : Int) : B64 :=
  if D = 0 then zeroB neg
  else
    match p with
    | .ofNat p =>
      if p > 400 then infB neg
      else ofUnits neg (D * 10 ^ p * 2 ^ 1074) 1
    | .negSucc p =>
      if p > 400 + 4 * Nat.log2 D + 1200 then zeroB neg
      else ofUnits neg (D * 2 ^ 1074) (10 ^ (p + 1))

/-- Reading an exponent part `([eE][+-]?digits)?`. -/
def parseExp : Str → Option Int
  | [] => some 0
  | c :: r =>
    if c == 'e' || c == 'E' then
      match r with
      | '+' :: ds => if !ds.isEmpty && ds.all Char.isDigit then some (digitsVal ds) else none
      | '-' :: ds => if !ds.isEmpty && ds.all Char.isDigit then some (-(digitsVal ds : Int)) else none
      | ds => if !ds.isEmpty && ds.all Char.isDigit then some (digitsVal ds) else none
    else none

/-- Reading an unsigned decimal. -/
def parseAbs (neg : Bool) (s : Str) : Option B64 :=
  let ip := s.takeWhile Char.isDigit
  let r := s.dropWhile Char.isDigit
  if ip.isEmpty then none
  else
    match r with
    | '.' :: r' =>
      let fp := r'.takeWhile Char.isDigit
      let e := parseExp (r'.dropWhile Char.isDigit)
      if fp.isEmpty then none
      else e.map fun e => ofDecimal neg (digitsVal (ip ++ fp)) (e - fp.length)
    | _ => (parseExp r).map fun e => ofDecimal neg (digitsVal ip) e

/-- `str::parse::<f64>` on the relevant texts. -/
def parse (s : Str) : Option B64 :=
  match s with
  | '-' :: r => parseAbs true r
  | r => parseAbs false r

/-- Positional notation of `D * 10^p`. -/
def fmt (D : Nat) (p : Int) : Str :=
  match p with
  | .ofNat p => natDigits D ++ List.replicate p '0'
  | .negSucc p =>
    let ds := natDigits D
    let k := p + 1
    if ds.length ≤ k then '0' :: '.' :: List.replicate (k - ds.length) '0' ++ ds
    else ds.take (ds.length - k) ++ '.' :: ds.drop (ds.length - k)

/-- `floor(log10 (u * 2^-1074))`. -/
def log10 (u : Nat) : Int := ((natDigits (u * 10 ^ 400 / 2 ^ 1074)).length : Int) - 401

/-- `u * 2^-1074 / 10^e` as a quotient. -/
def inTens (u : Nat) : Int → Nat × Nat
  | .ofNat p => (u, 2 ^ 1074 * 10 ^ p)
  | .negSucc p => (u * 10 ^ (p + 1), 2 ^ 1074)

/-- Of the two neighbouring multiples of `10^e`, the nearer one if it reads back to `x`, else the other one if it does.
From the middle between them the upper one counts as nearer (Rust std, `flt2dec/strategy/dragon.rs`, `format_shortest`:
"rounding up when … both conditions were triggered and tie breaking requires rounding up"). -/
def pick (x : B64) (e : Int) : Option Nat :=
  let q := inTens x.units e
  let lo := q.1 / q.2
  let near := if 2 * (q.1 % q.2) < q.2 then lo else lo + 1
  let far := if 2 * (q.1 % q.2) < q.2 then lo + 1 else lo
  if ofDecimal x.neg near e = x then some near
  else if ofDecimal x.neg far e = x then some far
  else none

/-- The exact decimal expansion of `u * 2^-1074`. -/
def exactDecimal (u : Nat) : Nat × Int := (u * 5 ^ 1074, .negSucc 1073)

/-- The exponent of the last of `n` digits. -/
def lastPlace (u n : Nat) : Int := log10 u - (n - 1 : Int)

def orElse (D : Option Nat) (e : Int) (r : Nat × Int) : Nat × Int :=
  match D with
  | some D => (D, e)
  | none => r

/-- First number of digits, from `n` on, with which a decimal reads back.  Without fuel the exact decimal expansion: never
needed, 17 digits always suffice (`search_found`). -/
def search (x : B64) : Nat → Nat → Nat × Int
  | 0, _ => exactDecimal x.units
  | fuel + 1, n => orElse (pick x (lastPlace x.units n)) (lastPlace x.units n) (search x fuel (n + 1))

/-- Without a zero at the end: the search for one digit may find `10`. -/
def dropZero (r : Nat × Int) : Nat × Int := if r.1 % 10 = 0 then (r.1 / 10, r.2 + 1) else r

/-- The shortest decimal that reads back. -/
def shortest (x : B64) : Nat × Int := dropZero (search x 17 1)

/-- `f64::to_string`. -/
def display (x : B64) : Str :=
  if !x.isFin then (if x.mant.val = 0 then (if x.neg then "-inf".toList else "inf".toList) else "NaN".toList)
  else if x.units = 0 then (if x.neg then ['-', '0'] else ['0'])
  else (if x.neg then ['-'] else []) ++ fmt x.shortest.1 x.shortest.2

end B64

instance : F64 B64 where
  isFinite := B64.isFin
  isZero x := x.isFin && x.units == 0
  isNeg x := x.neg
  zero := B64.zeroB false
  display := B64.display
  parse := B64.parse

end Toon
