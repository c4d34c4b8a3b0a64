import Verif.Spec.Faults

/-!
# What an error says about the text

For every error a plain statement about the source lines, in terms of the text the user sees.  `False`: the error is
never reported by decoding.
-/

namespace Toon

/-- Line `n` of the source, counted from 1. -/
def LineAt (source : List Str) (n : Nat) (raw : Str) : Prop := ∃ before after, source = before ++ raw :: after ∧ n = before.length + 1

/-- The text occurs in a line of the source. -/
def Appears (source : List Str) (t : Str) : Prop := ∃ raw ∈ source, t <:+: raw

/-- A line of the source, without its indentation and perhaps the hyphen of a list element. -/
def EndsLine (source : List Str) (content : Str) : Prop := ∃ raw ∈ source, content <:+ raw

/-- A line of the source is this array header (perhaps after the hyphen of a list element). -/
def HeaderIn (source : List Str) (h : Header) : Prop := ∃ content, EndsLine source content ∧ HeaderMeans content h

/-- What the error says. -/
def Complaint (strict expand : Bool) (indent : Nat) (source : List Str) : Err → Prop
  | .unterminatedString => ∃ text, Appears source ('"' :: text) ∧ NeverClosed text
  | .trailingChars => ∃ body rest, Appears source ('"' :: body ++ '"' :: rest) ∧ LiteralBody body ∧ rest ≠ []
  | .badEscape (some c) => Appears source ['\\', c] ∧ ∀ x, (c, x) ∉ legalEscapes
  | .missingColon => ∃ content, EndsLine source content ∧
      (':' ∉ content ∨ ∃ body rest, content = '"' :: body ++ '"' :: rest ∧ LiteralBody body ∧ rest.head? ≠ some ':')
  | .lengthCap n => 100000000 < n ∧ ∃ seg d, Appears source ('[' :: seg ++ [']']) ∧ LengthMeans seg n d
  | .tabsInIndent n => strict = true ∧ ∃ spaces content,
      LineAt source n (List.replicate spaces ' ' ++ '\t' :: content) ∧ ¬ BlankLine content
  | .badIndent n size found => strict = true ∧ size = indent ∧ found % size ≠ 0 ∧ ∃ content,
      LineAt source n (List.replicate found ' ' ++ content) ∧ content.head? ≠ some ' ' ∧ ¬ BlankLine content
  | .countMismatch n .inlineItems m => strict = true ∧ m ≠ n ∧ ∃ h text cells, HeaderIn source h ∧ h.length = n ∧
      h.inline = some text ∧ Cells h.delim text cells ∧ cells.length = m
  | .countMismatch n .rowValues m => strict = true ∧ m ≠ n ∧ ∃ h fields row cells, HeaderIn source h ∧
      h.fields = some fields ∧ fields.length = n ∧ EndsLine source row ∧ Cells h.delim row cells ∧ cells.length = m
  | .countMismatch n .rows m => strict = true ∧ m < n ∧ ∃ h fields, HeaderIn source h ∧ h.length = n ∧ h.inline = none ∧
      h.fields = some fields ∧ fields ≠ []
  | .countMismatch n .listItems m => strict = true ∧ m < n ∧ ∃ h, HeaderIn source h ∧ h.length = n ∧ h.inline = none ∧
      (h.fields = none ∨ h.fields = some [])
  | .extraItems n => strict = true ∧ ∃ h item, HeaderIn source h ∧ h.length = n ∧ h.inline = none ∧
      (h.fields = none ∨ h.fields = some []) ∧ EndsLine source item ∧ HyphenSpace item
  | .extraRows n => strict = true ∧ ∃ h fields row, HeaderIn source h ∧ h.length = n ∧ h.inline = none ∧
      h.fields = some fields ∧ fields ≠ [] ∧ EndsLine source row ∧ LooksLikeRow h.delim row
  | .blankLine n table => strict = true ∧ (∃ raw, LineAt source n raw ∧ BlankLine raw) ∧
      (∃ i j a b, i < n ∧ n < j ∧ LineAt source i a ∧ LineAt source j b ∧ ¬ BlankLine a ∧ ¬ BlankLine b) ∧
      ∃ h, HeaderIn source h ∧ h.inline = none ∧ (table = true ↔ ∃ c cs, h.fields = some (c :: cs))
  | .pathConflict _ => strict = true ∧ expand = true
  | .expandDepth => expand = true
  | _ => False

end Toon
