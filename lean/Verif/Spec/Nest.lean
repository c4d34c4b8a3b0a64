import Verif.Spec.Grammar
import Verif.Model.Encoder

/-!
# A text inside another

`encodeKey` is the text of a key: the key itself, or in quotes.
-/

namespace Toon

/-- Every line with `n` spaces before it. -/
def indentedBy (n : Nat) (text : Str) : Str :=
  joinWith '\n' ((splitOn '\n' text).map (List.replicate n ' ' ++ ·))

/-- The text, indented by one unit, after the line `key:`. -/
def underKey (indent : Nat) (k text : Str) : Str := encodeKey k ++ ':' :: '\n' :: indentedBy indent text

/-- The lines of the text as an element of a list: a hyphen before the first, the others indented by two units. -/
def elementLines (indent : Nat) (text : Str) : List Str :=
  match splitOn '\n' text with
  | [] => []
  | first :: others =>
    (List.replicate indent ' ' ++ '-' :: ' ' :: first) :: others.map (List.replicate (2 * indent) ' ' ++ ·)

/-- The texts as the elements of one list. -/
def listed (indent : Nat) (texts : List Str) : Str :=
  joinWith '\n' (('[' :: natDigits texts.length ++ "]:".toList) :: texts.flatMap (elementLines indent))

/-- The text begins with a visible character other than a bracket; its first line has a colon outside quotes; there are no
blank lines, and no further line begins with a hyphen and a space after less than one unit of indentation. -/
structure Listable (indent : Nat) (text : Str) : Prop where
  first : ∃ c rest, text = c :: rest ∧ isWs c = false ∧ c ≠ '['
  colon : ∀ line others, splitOn '\n' text = line :: others → ∃ a b, line = a ++ ':' :: b ∧ quoteState a = .out
  visible : ∀ line ∈ splitOn '\n' text, ¬ BlankLine line
  hyphen : ∀ line ∈ (splitOn '\n' text).tail, ¬ ∃ n t, n < indent ∧ line = List.replicate n ' ' ++ '-' :: ' ' :: t

end Toon
