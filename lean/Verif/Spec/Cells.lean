import Verif.Spec.Tokens
import Verif.Spec.Lines

/-!
# Cells, quoted tokens and the quoting rule

Specifications without any function of the model (but `trim` and `isWs` of the text model).
-/

namespace Toon

/-- Where a reader stands with respect to quotes. -/
inductive QState where
  | out
  | inside
  | escaped
deriving DecidableEq, Repr

/-- One character: quotes open and close; inside quotes a backslash protects the next character. -/
def QState.step : QState → Char → QState
  | .out, c => if c = '"' then .inside else .out
  | .inside, c => if c = '"' then .out else if c = '\\' then .escaped else .inside
  | .escaped, _ => .inside

/-- Where a reader stands after a text. -/
def quoteState (s : Str) : QState := s.foldl QState.step .out

/-- No occurrence of `d` outside quotes. -/
def NoCut (d : Char) (piece : Str) : Prop := ∀ a b, piece = a ++ d :: b → quoteState a ≠ .out

/-- The text is cut at every occurrence of `d` outside quotes, and nowhere else. -/
inductive SplitsInto (d : Char) : Str → List Str → Prop
  | last {p : Str} : NoCut d p → SplitsInto d p [p]
  | cut {p rest : Str} {ps : List Str} : NoCut d p → quoteState p = .out → SplitsInto d rest ps →
      SplitsInto d (p ++ d :: rest) (p :: ps)

/-- The cells of a row: no cell for the empty text, otherwise the pieces without surrounding
whitespace. -/
def Cells (d : Char) (text : Str) (cells : List Str) : Prop :=
  (text = [] ∧ cells = []) ∨ (text ≠ [] ∧ ∃ ps, SplitsInto d text ps ∧ cells = ps.map trim)

/-- `QuotedDenotes body s`: the text `body` between quotes stands for `s`; no bare quote in it, and
every backslash starts a legal escape. -/
inductive QuotedDenotes : Str → Str → Prop
  | nil : QuotedDenotes [] []
  | plain {c : Char} {e s : Str} : c ≠ '\\' → c ≠ '"' → QuotedDenotes e s → QuotedDenotes (c :: e) (c :: s)
  | escape {c x : Char} {e s : Str} : (x, c) ∈ legalEscapes → QuotedDenotes e s →
      QuotedDenotes ('\\' :: x :: e) (c :: s)

/-- What a token without surrounding whitespace stands for. -/
inductive TokenMeans {F : Type} [F64 F] : Str → Prim F → Prop
  | empty : TokenMeans [] (.str [])
  | quoted {body s : Str} : QuotedDenotes body s → TokenMeans ('"' :: body ++ ['"']) (.str s)
  | true : TokenMeans "true".toList (.bool true)
  | false : TokenMeans "false".toList (.bool false)
  | null : TokenMeans "null".toList .null
  | number {t : Str} {y : F} : NumGrammar t → F64.parse t = some y → F64.isFinite y = true →
      TokenMeans t (.num (if F64.isZero y && F64.isNeg y then F64.zero else y))
  | bare {t : Str} : t ≠ [] → t.head? ≠ some '"' →
      t ≠ "true".toList → t ≠ "false".toList → t ≠ "null".toList →
      (NumGrammar t → ∀ y : F, F64.parse t = some y → F64.isFinite y = false) →
      TokenMeans t (.str t)

/-- Looks like a number: the numeric grammar, or an optional minus sign, a zero and another digit. -/
def NumberLike (s : Str) : Prop :=
  NumGrammar s ∨ ∃ sign c rest, s = sign ++ '0' :: c :: rest ∧ (sign = [] ∨ sign = ['-']) ∧ c.isDigit = true

/-- The strings that are written without quotes. -/
def PlainText (s : Str) (d : Char) : Prop :=
  s ≠ [] ∧ (∀ c, s.head? = some c → isWs c = false) ∧ (∀ c, s.getLast? = some c → isWs c = false) ∧
  s ≠ "true".toList ∧ s ≠ "false".toList ∧ s ≠ "null".toList ∧ ¬ NumberLike s ∧ s.head? ≠ some '-' ∧
  ∀ c ∈ s, c ∉ [':', '"', '\\', '[', ']', '{', '}', '\n', '\r', '\t', d]

end Toon
