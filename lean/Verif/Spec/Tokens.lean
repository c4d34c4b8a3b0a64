import Verif.Model.Basic

/-!
# Escapes and the numeric grammar

Specifications used by the token properties; no function of the model is used.
-/

namespace Toon

/-- The five legal escapes: the character after the backslash and the character it stands for. -/
def legalEscapes : List (Char × Char) :=
  [('\\', '\\'), ('"', '"'), ('n', '\n'), ('r', '\r'), ('t', '\t')]

/-- `Denotes e s`: the text `e`, read with backslash escapes, stands for the string `s`. -/
inductive Denotes : Str → Str → Prop
  | nil : Denotes [] []
  | plain {c : Char} {e s : Str} : c ≠ '\\' → Denotes e s → Denotes (c :: e) (c :: s)
  | escape {c x : Char} {e s : Str} : (x, c) ∈ legalEscapes → Denotes e s → Denotes ('\\' :: x :: e) (c :: s)

/-- Text that may stand between quotes: every backslash starts a legal escape, there is no other
quote, no newline, carriage return or tab. -/
inductive QuotedBody : Str → Prop
  | nil : QuotedBody []
  | plain {c : Char} {e : Str} : c ∉ ['\\', '"', '\n', '\r', '\t'] → QuotedBody e → QuotedBody (c :: e)
  | escape {x c : Char} {e : Str} : (x, c) ∈ legalEscapes → QuotedBody e → QuotedBody ('\\' :: x :: e)

/-- At least one decimal digit, and nothing else. -/
def Digits (ds : Str) : Prop := ds ≠ [] ∧ ∀ c ∈ ds, c.isDigit = true

/-- `-?(0|[1-9][0-9]*)(\.[0-9]+)?([eE][+-]?[0-9]+)?` -/
def NumGrammar (s : Str) : Prop :=
  ∃ sign int frac exp : Str, s = sign ++ (int ++ (frac ++ exp)) ∧
    (sign = [] ∨ sign = ['-']) ∧
    Digits int ∧ (int = ['0'] ∨ int.head? ≠ some '0') ∧
    (frac = [] ∨ ∃ ds, frac = '.' :: ds ∧ Digits ds) ∧
    (exp = [] ∨ ∃ e sg ds, exp = e :: (sg ++ ds) ∧ (e = 'e' ∨ e = 'E') ∧
      (sg = [] ∨ sg = ['+'] ∨ sg = ['-']) ∧ Digits ds)

end Toon
