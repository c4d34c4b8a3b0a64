import Verif.Spec.Grammar

/-!
# What is wrong with a document

The first fault of a document that stands for no tree, in reading order, and the error that describes it.  Everything
before the fault is as in the grammar (`Spec/Grammar.lean`).  Of the model only the data types are used, and `trim`.
-/

namespace Toon

/-! ## Lines -/

/-- The first line with a wrong indentation (strict mode): a tab, or spaces that are no multiple of the unit. -/
inductive ScanFails (indent : Nat) : List Str → Err → Prop
  | tab {before after : List Str} {spaces : Nat} {content : Str} {ls : List Line} {bs : List Nat} :
      ScansTo indent true 0 before ls bs → ¬ BlankLine content → content.head? = some '\t' →
      ScanFails indent (before ++ (List.replicate spaces ' ' ++ content) :: after) (.tabsInIndent (before.length + 1))
  | spaces {before after : List Str} {spaces : Nat} {content : Str} {ls : List Line} {bs : List Nat} :
      ScansTo indent true 0 before ls bs → ¬ BlankLine content → content.head? ≠ some ' ' → content.head? ≠ some '\t' →
      spaces % indent ≠ 0 →
      ScanFails indent (before ++ (List.replicate spaces ' ' ++ content) :: after) (.badIndent (before.length + 1) indent spaces)

/-! ## Parts of a line -/

/-- The quote that opens before the text is not closed in it. -/
def NeverClosed (text : Str) : Prop := ∀ a b, text = a ++ b → a.foldl QState.step .inside ≠ .out

/-- A quoted literal that is not closed, is followed by something, or contains a backslash before a character that it
cannot protect. -/
inductive LiteralFault : Str → Err → Prop
  | unclosed {text : Str} : NeverClosed text → LiteralFault ('"' :: text) .unterminatedString
  | followed {body rest : Str} : LiteralBody body → rest ≠ [] → LiteralFault ('"' :: body ++ '"' :: rest) .trailingChars
  | escape {a b s : Str} {c : Char} : LiteralBody (a ++ '\\' :: c :: b) → QuotedDenotes a s → (∀ x, (c, x) ∉ legalEscapes) →
      LiteralFault ('"' :: (a ++ '\\' :: c :: b) ++ ['"']) (.badEscape (some c))

/-- The first faulty token. -/
def TokenFault (F : Type) [F64 F] (cells : List Str) (e : Err) : Prop :=
  ∃ good bad more, ∃ prims : List (Prim F), cells = good ++ bad :: more ∧ Pointwise TokenMeans good prims ∧ LiteralFault bad e

/-- The first faulty column name. -/
def ColumnFault (cells : List Str) (e : Err) : Prop :=
  ∃ good bad more names, cells = good ++ bad :: more ∧ Pointwise NameMeans good names ∧ LiteralFault bad e

/-- A faulty array header. -/
inductive HeaderFault : Str → Err → Prop
  | unclosed {ws text : Str} : BlankLine ws → NeverClosed text → HeaderFault (ws ++ '"' :: text) .unterminatedString
  | key {content pre seg after : Str} {cols : Option Str} {e : Err} : HeaderShape content pre seg cols after →
      LiteralFault (trim pre) e → HeaderFault content e
  | length {content pre seg after : Str} {cols : Option Str} {k : Option Str} {q : Bool} {n : Nat} {d : Char} :
      HeaderShape content pre seg cols after → HeaderKey pre k q → LengthMeans seg n d → 100000000 < n →
      HeaderFault content (.lengthCap n)
  | columns {content pre seg cols after : Str} {k : Option Str} {q : Bool} {n : Nat} {d : Char} {cells : List Str} {e : Err} :
      HeaderShape content pre seg (some cols) after → HeaderKey pre k q → LengthMeans seg n d → n ≤ 100000000 →
      Cells d cols cells → ColumnFault cells e → HeaderFault content e

/-- A line that should be `key: value`, has no faulty header and no key. -/
inductive KeyFault : Str → Err → Prop
  | bare {content : Str} : content.head? ≠ some '"' → ':' ∉ content → KeyFault content .missingColon
  | literal {body rest : Str} {e : Err} : LiteralBody body → LiteralFault ('"' :: body ++ ['"']) e →
      KeyFault ('"' :: body ++ '"' :: rest) e
  | quoted {body rest k : Str} : QuotedDenotes body k → rest.head? ≠ some ':' →
      KeyFault ('"' :: body ++ '"' :: rest) .missingColon

/-! ## Arrays -/

/-- The first blank line between the first and the last of the lines. -/
def FirstBlankWithin (blanks : List Nat) (body : List Line) (b : Nat) : Prop :=
  ∃ first last before after, body.head? = some first ∧ body.getLast? = some last ∧ blanks = before ++ b :: after ∧
    first.num < b ∧ b < last.num ∧ ∀ x ∈ before, ¬ (first.num < x ∧ x < last.num)

section
variable (F : Type) [F64 F] (strict : Bool) (blanks : List Nat)

/-- A row with the wrong number of cells, or with a faulty one. -/
inductive RowFault (fields : List FieldName) (d : Char) : Str → Err → Prop
  | count {content : Str} {cells : List Str} : Cells d content cells → strict = true → cells.length ≠ fields.length →
      RowFault fields d content (.countMismatch fields.length .rowValues cells.length)
  | token {content : Str} {cells : List Str} {e : Err} : Cells d content cells →
      (strict = true → cells.length = fields.length) → TokenFault F cells e → RowFault fields d content e

/-! ## Documents -/

mutual

/-- A line that should be an entry, followed by the lines `rest`. -/
inductive EntryFails : Nat → Str → List Line → Err → Prop
  | header {depth : Nat} {content : Str} {rest : List Line} {e : Err} : HeaderFault content e → EntryFails depth content rest e
  | array {depth : Nat} {content k : Str} {rest : List Line} {h : Header} {e : Err} :
      HeaderMeans content h → h.key = some k → ArrayFails depth h rest e → EntryFails depth content rest e
  | key {depth : Nat} {content : Str} {rest : List Line} {e : Err} :
      NoKeyedHeader content → KeyFault content e → EntryFails depth content rest e
  | value {depth : Nat} {content k after : Str} {q : Bool} {rest : List Line} {e : Err} :
      NoKeyedHeader content → KeyLineMeans content k q after → LiteralFault (trim after) e →
      EntryFails depth content rest e
  | object {depth : Nat} {content k after : Str} {q : Bool} {line : Line} {rest : List Line} {e : Err} :
      NoKeyedHeader content → KeyLineMeans content k q after → BlankLine after → depth < line.depth →
      BlockFails false line.depth (line :: rest) e → EntryFails depth content (line :: rest) e

/-- The entries of an object, as in `BlockMeans`, up to a faulty one. -/
inductive BlockFails : Bool → Nat → List Line → Err → Prop
  | here {inList : Bool} {depth : Nat} {line : Line} {rest : List Line} {e : Err} :
      line.depth = depth → (inList = true → ¬ HyphenSpace line.content) → EntryFails depth line.content rest e →
      BlockFails inList depth (line :: rest) e
  | later {inList : Bool} {depth : Nat} {line : Line} {rest rest₁ : List Line} {entry : Str × Bool × ETree F} {e : Err} :
      line.depth = depth → (inList = true → ¬ HyphenSpace line.content) →
      EntryMeans strict blanks depth line.content rest entry rest₁ → BlockFails inList depth rest₁ e →
      BlockFails inList depth (line :: rest) e

/-- The array of a header at this depth: a faulty cell, row or element, or else (strict mode) a wrong number of them,
a blank line among them or a surplus one after them. -/
inductive ArrayFails : Nat → Header → List Line → Err → Prop
  | inlineToken {depth : Nat} {h : Header} {rest : List Line} {text : Str} {cells : List Str} {e : Err} :
      h.inline = some text → Cells h.delim text cells → TokenFault F cells e → ArrayFails depth h rest e
  | inlineCount {depth : Nat} {h : Header} {rest : List Line} {text : Str} {cells : List Str} {prims : List (Prim F)} :
      h.inline = some text → Cells h.delim text cells → Pointwise TokenMeans cells prims → strict = true →
      cells.length ≠ h.length → ArrayFails depth h rest (.countMismatch h.length .inlineItems cells.length)
  | row {depth : Nat} {h : Header} {body rest : List Line} {line : Line} {fields : List FieldName} {ts : List (ETree F)} {e : Err} :
      h.inline = none → h.fields = some fields → fields ≠ [] →
      (∀ line ∈ body, line.depth = depth + 1) → Pointwise (TableRow strict fields h.delim) body ts → body.length < h.length →
      line.depth = depth + 1 → RowFault F strict fields h.delim line.content e →
      ArrayFails depth h (body ++ line :: rest) e
  | rows {depth : Nat} {h : Header} {body rest : List Line} {fields : List FieldName} {ts : List (ETree F)} :
      h.inline = none → h.fields = some fields → fields ≠ [] →
      (∀ line ∈ body, line.depth = depth + 1) → Pointwise (TableRow strict fields h.delim) body ts → body.length < h.length →
      ¬ NextIs (depth + 1) (fun _ => True) rest → strict = true →
      ArrayFails depth h (body ++ rest) (.countMismatch h.length .rows body.length)
  | rowsBlank {depth b : Nat} {h : Header} {body rest : List Line} {fields : List FieldName} {ts : List (ETree F)} :
      h.inline = none → h.fields = some fields → fields ≠ [] →
      (∀ line ∈ body, line.depth = depth + 1) → Pointwise (TableRow strict fields h.delim) body ts → body.length = h.length →
      strict = true → FirstBlankWithin blanks body b → ArrayFails depth h (body ++ rest) (.blankLine b true)
  | rowsExtra {depth : Nat} {h : Header} {body rest : List Line} {fields : List FieldName} {ts : List (ETree F)} :
      h.inline = none → h.fields = some fields → fields ≠ [] →
      (∀ line ∈ body, line.depth = depth + 1) → Pointwise (TableRow strict fields h.delim) body ts → body.length = h.length →
      strict = true → NoBlankWithin blanks body →
      NextIs (depth + 1) (fun content => ¬ HyphenSpace content ∧ LooksLikeRow h.delim content) rest →
      ArrayFails depth h (body ++ rest) (.extraRows h.length)
  | item {depth : Nat} {h : Header} {rest : List Line} {e : Err} :
      h.inline = none → (h.fields = none ∨ h.fields = some []) → ItemsFail h.length (depth + 1) rest e →
      ArrayFails depth h rest e
  | items {depth : Nat} {h : Header} {rest rest' : List Line} {ts : List (ETree F)} :
      h.inline = none → (h.fields = none ∨ h.fields = some []) →
      ItemsMean strict blanks h.length (depth + 1) rest ts rest' → strict = true → ts.length ≠ h.length →
      ArrayFails depth h rest (.countMismatch h.length .listItems ts.length)
  | itemsBlank {depth b : Nat} {h : Header} {body rest : List Line} {ts : List (ETree F)} :
      h.inline = none → (h.fields = none ∨ h.fields = some []) →
      ItemsMean strict blanks h.length (depth + 1) (body ++ rest) ts rest → strict = true → ts.length = h.length →
      FirstBlankWithin blanks body b → ArrayFails depth h (body ++ rest) (.blankLine b false)
  | itemsExtra {depth : Nat} {h : Header} {body rest : List Line} {ts : List (ETree F)} :
      h.inline = none → (h.fields = none ∨ h.fields = some []) →
      ItemsMean strict blanks h.length (depth + 1) (body ++ rest) ts rest → strict = true → ts.length = h.length →
      NoBlankWithin blanks body → NextIs (depth + 1) HyphenSpace rest → ArrayFails depth h (body ++ rest) (.extraItems h.length)

/-- At most `n` list elements, as in `ItemsMean`, up to a faulty one. -/
inductive ItemsFail : Nat → Nat → List Line → Err → Prop
  | here {n depth : Nat} {line : Line} {rest : List Line} {e : Err} :
      line.depth = depth → ItemFails depth line.content rest e → ItemsFail (n + 1) depth (line :: rest) e
  | later {n depth : Nat} {line : Line} {rest rest₁ : List Line} {t : ETree F} {e : Err} :
      line.depth = depth → ItemMeans' strict blanks depth line.content rest t rest₁ → ItemsFail n depth rest₁ e →
      ItemsFail (n + 1) depth (line :: rest) e

/-- A list element: the line with the hyphen has this content and depth. -/
inductive ItemFails : Nat → Str → List Line → Err → Prop
  | header {depth : Nat} {after : Str} {rest : List Line} {e : Err} :
      HeaderFault after e → ItemFails depth ('-' :: ' ' :: after) rest e
  | array {depth : Nat} {after : Str} {rest : List Line} {h : Header} {e : Err} :
      VisibleFirst '[' after → HasColon after → HeaderMeans after h → ArrayFails depth h rest e →
      ItemFails depth ('-' :: ' ' :: after) rest e
  | entry {depth : Nat} {after : Str} {rest : List Line} {e : Err} :
      ¬ (VisibleFirst '[' after ∧ ∃ h, HeaderMeans after h) →
      (HasColon after ∨ ∃ h, HeaderMeans after h ∧ h.key ≠ none ∧ h.fields ≠ none) →
      EntryFails (depth + 1) after rest e → ItemFails depth ('-' :: ' ' :: after) rest e
  | block {depth : Nat} {after : Str} {rest rest₁ : List Line} {entry : Str × Bool × ETree F} {e : Err} :
      ¬ (VisibleFirst '[' after ∧ ∃ h, HeaderMeans after h) →
      (HasColon after ∨ ∃ h, HeaderMeans after h ∧ h.key ≠ none ∧ h.fields ≠ none) →
      EntryMeans strict blanks (depth + 1) after rest entry rest₁ → BlockFails true (depth + 1) rest₁ e →
      ItemFails depth ('-' :: ' ' :: after) rest e
  | token {depth : Nat} {after : Str} {rest : List Line} {e : Err} :
      ¬ HasColon after → (NoHeader after ∨ ∃ h, HeaderMeans after h ∧ (h.key = none ∨ h.fields = none)) →
      LiteralFault (trim after) e → ItemFails depth ('-' :: ' ' :: after) rest e

end

/-- A line that can only be a token: no colon, apart from those in a quoted literal at its beginning. -/
inductive LoneToken : Str → Prop
  | bare {content : Str} : content.head? ≠ some '"' → ':' ∉ content → LoneToken content
  | quoted {body rest : Str} : LiteralBody body → ':' ∉ rest → LoneToken ('"' :: body ++ '"' :: rest)
  | unclosed {text : Str} : NeverClosed text → LoneToken ('"' :: text)

/-- The document with these lines. -/
inductive DocumentFails : List Line → Err → Prop
  | header {line : Line} {rest : List Line} {e : Err} :
      VisibleFirst '[' line.content → HasColon line.content → HeaderFault line.content e → DocumentFails (line :: rest) e
  | array {line : Line} {rest : List Line} {h : Header} {e : Err} :
      VisibleFirst '[' line.content → HasColon line.content → HeaderMeans line.content h →
      ArrayFails F strict blanks 0 h rest e → DocumentFails (line :: rest) e
  | token {line : Line} {e : Err} : LoneToken line.content → LiteralFault (trim line.content) e → DocumentFails [line] e
  | entry {line : Line} {rest : List Line} {e : Err} :
      (VisibleFirst '[' line.content → HasColon line.content → NoHeader line.content) →
      (rest = [] → ¬ LoneToken line.content) →
      EntryFails F strict blanks 0 line.content rest e → DocumentFails (line :: rest) e
  | block {line : Line} {rest rest₁ : List Line} {entry : Str × Bool × ETree F} {e : Err} :
      (VisibleFirst '[' line.content → HasColon line.content → NoHeader line.content) →
      EntryMeans strict blanks 0 line.content rest entry rest₁ → BlockFails F strict blanks false 0 rest₁ e →
      DocumentFails (line :: rest) e

/-- The first fault of the source lines is described by the error `e`. -/
inductive TextFails (indent : Nat) : List Str → Err → Prop
  | scan {source : List Str} {e : Err} : strict = true → ScanFails indent source e → TextFails indent source e
  | document {source : List Str} {lines : List Line} {blanks : List Nat} {e : Err} :
      ScansTo indent strict 0 source lines blanks → DocumentFails F strict blanks lines e → TextFails indent source e

end

end Toon
