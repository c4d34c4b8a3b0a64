import Verif.Spec.Arrays
import Verif.Spec.Events
import Verif.Spec.HeaderLike
import Verif.Model.Parser
import Verif.Model.Scanner

/-!
# What a document means

The grammar of the documents the decoder accepts and the trees they stand for, as inductive relations on lines.
Of the model only the data types `Line` (depth, content, number) and `Header` are used, and `trim`.
-/

namespace Toon

/-! ## Lines -/

/-- Source lines, numbered from `n + 1`: the lines that are not blank, with the number of indentation units before
them, and the numbers of the blank lines.  When `strict`, the indentation is a whole number of units and no tab. -/
inductive ScansTo (indent : Nat) (strict : Bool) : Nat → List Str → List Line → List Nat → Prop
  | nil (n : Nat) : ScansTo indent strict n [] [] []
  | blank {n : Nat} {raw : Str} {rest : List Str} {ls : List Line} {bs : List Nat} : BlankLine raw →
      ScansTo indent strict (n + 1) rest ls bs → ScansTo indent strict n (raw :: rest) ls ((n + 1) :: bs)
  | line {n spaces : Nat} {content : Str} {rest : List Str} {ls : List Line} {bs : List Nat} :
      ¬ BlankLine content → content.head? ≠ some ' ' →
      (strict = true → content.head? ≠ some '\t' ∧ spaces % indent = 0) →
      ScansTo indent strict (n + 1) rest ls bs →
      ScansTo indent strict n ((List.replicate spaces ' ' ++ content) :: rest) (⟨spaces / indent, content, n + 1⟩ :: ls) bs

/-! ## Parts of a line -/

/-- The text between the quotes of a literal: every quote in it is protected by a backslash. -/
def LiteralBody (body : Str) : Prop :=
  body.foldl QState.step .inside = .inside ∧ ∀ a b, body = a ++ b → a.foldl QState.step .inside ≠ .out

/-- The first visible character is `c`. -/
def VisibleFirst (c : Char) (content : Str) : Prop := ∃ ws rest, BlankLine ws ∧ content = ws ++ c :: rest

/-- There is a colon outside quotes. -/
def HasColon (content : Str) : Prop := ∃ a b, content = a ++ ':' :: b ∧ quoteState a = .out

/-- `key: after`: a quoted literal directly followed by a colon, or the text before the first colon. -/
inductive KeyLineMeans : Str → Str → Bool → Str → Prop
  | quoted {body k after : Str} : QuotedDenotes body k → KeyLineMeans ('"' :: body ++ '"' :: ':' :: after) k true after
  | bare {a after : Str} : ':' ∉ a → (a ++ ':' :: after).head? ≠ some '"' →
      KeyLineMeans (a ++ ':' :: after) (trim a) false after

/-- What stands before the opening bracket of a header: a quoted literal if the line begins with a quote, otherwise
the text up to the first bracket. -/
inductive BeforeBracket : Str → Str → Str → Prop
  | quoted {ws body rest : Str} : BlankLine ws → LiteralBody body →
      BeforeBracket (ws ++ '"' :: body ++ '"' :: '[' :: rest) (ws ++ '"' :: body ++ ['"']) rest
  | bare {pre rest : Str} : ¬ VisibleFirst '"' (pre ++ '[' :: rest) → '[' ∉ pre →
      BeforeBracket (pre ++ '[' :: rest) pre rest

/-- What stands after the closing bracket of a header: a list of columns in braces, and the text after the colon.
Other characters between these parts are ignored. -/
inductive AfterBracket : Str → Option Str → Str → Prop
  | columns {u cols w after : Str} : '{' ∉ u → ':' ∉ u → '}' ∉ cols → ':' ∉ w →
      AfterBracket (u ++ '{' :: cols ++ '}' :: w ++ ':' :: after) (some cols) after
  | plain {u after : Str} : ':' ∉ u → '{' ∉ u → AfterBracket (u ++ ':' :: after) none after
  | unclosed {u u' after : Str} : '{' ∉ u → ':' ∉ u → ':' ∉ u' → '}' ∉ u' → '}' ∉ after →
      AfterBracket (u ++ '{' :: u' ++ ':' :: after) none after

/-- A line with a bracket, its contents, and the parts before and after. -/
def HeaderShape (content pre seg : Str) (cols : Option Str) (after : Str) : Prop :=
  ∃ rest, BeforeBracket content pre (seg ++ ']' :: rest) ∧ ']' ∉ seg ∧ AfterBracket rest cols after

/-- The key before the bracket and whether it is quoted. -/
inductive HeaderKey : Str → Option Str → Bool → Prop
  | none {pre : Str} : BlankLine pre → HeaderKey pre none false
  | quoted {pre body k : Str} : trim pre = '"' :: body ++ ['"'] → QuotedDenotes body k → HeaderKey pre (some k) true
  | bare {pre : Str} : trim pre ≠ [] → (trim pre).head? ≠ some '"' → HeaderKey pre (some (trim pre)) false

/-- The declared length and the delimiter: an optional plus sign, digits, and `|` or a tab if it is not a comma. -/
def LengthMeans (seg : Str) (n : Nat) (d : Char) : Prop :=
  ∃ plus digits mark : Str, seg = plus ++ digits ++ mark ∧ (plus = [] ∨ plus = ['+']) ∧ Digits digits ∧
    decimalValue digits 0 = n ∧ n < 2 ^ 64 ∧ (mark = [] ∧ d = ',' ∨ mark = ['|'] ∧ d = '|' ∨ mark = ['\t'] ∧ d = '\t')

/-- The name of a column. -/
inductive NameMeans : Str → FieldName → Prop
  | quoted {body k : Str} : QuotedDenotes body k → NameMeans ('"' :: body ++ ['"']) ⟨k, true⟩
  | bare {cell : Str} : cell.head? ≠ some '"' → NameMeans cell ⟨cell, false⟩

/-- The columns of a header. -/
inductive ColumnsMean (d : Char) : Option Str → Option (List FieldName) → Prop
  | none : ColumnsMean d none none
  | some {cols : Str} {cells : List Str} {names : List FieldName} : Cells d cols cells →
      Pointwise NameMeans cells names → ColumnsMean d (some cols) (some names)

/-- The line is the header of an array. -/
def HeaderMeans (content : Str) (h : Header) : Prop :=
  ∃ pre seg cols after, HeaderShape content pre seg cols after ∧ HeaderKey pre h.key h.keyQuoted ∧
    LengthMeans seg h.length h.delim ∧ h.length ≤ 100000000 ∧ ColumnsMean h.delim cols h.fields ∧
    (BlankLine after ∧ h.inline = none ∨ ¬ BlankLine after ∧ h.inline = some (trim after))

/-- The line is not the header of an array, nor a faulty one (a faulty header is an error). -/
def NoHeader (content : Str) : Prop :=
  (VisibleFirst '"' content → ∃ ws body rest, BlankLine ws ∧ LiteralBody body ∧ content = ws ++ '"' :: body ++ '"' :: rest) ∧
  ∀ pre seg cols after, HeaderShape content pre seg cols after →
    (∃ k q, HeaderKey pre k q) ∧ ¬ ∃ n d, LengthMeans seg n d

/-- The line is no header, or one without a key. -/
def NoKeyedHeader (content : Str) : Prop := NoHeader content ∨ ∃ h, HeaderMeans content h ∧ h.key = none

/-! ## Arrays -/

section
variable {F : Type} [F64 F]

/-- One entry per column: the primitives from left to right, null where they run out. -/
def padFields : List FieldName → List (Prim F) → List (Str × Bool × ETree F)
  | [], _ => []
  | c :: cs, [] => (c.name, c.quoted, .prim .null) :: padFields cs []
  | c :: cs, p :: ps => (c.name, c.quoted, .prim p) :: padFields cs ps

/-- The object a row stands for; when `strict`, there is one cell per column. -/
def TableRow (strict : Bool) (fields : List FieldName) (d : Char) (line : Line) (t : ETree F) : Prop :=
  ∃ cells prims, Cells d line.content cells ∧ Pointwise TokenMeans cells prims ∧
    (strict = true → cells.length = fields.length) ∧ t = .obj (padFields fields prims)

end

/-- No blank line between the first and the last of the lines. -/
def NoBlankWithin (blanks : List Nat) (body : List Line) : Prop :=
  ∀ first last, body.head? = some first → body.getLast? = some last → ∀ b ∈ blanks, ¬ (first.num < b ∧ b < last.num)

/-- The next line has this depth and this property. -/
def NextIs (depth : Nat) (p : Str → Prop) (rest : List Line) : Prop :=
  ∃ line more, rest = line :: more ∧ line.depth = depth ∧ p line.content

/-- Begins with a hyphen and a space. -/
def HyphenSpace (content : Str) : Prop := ∃ t, content = '-' :: ' ' :: t

/-- Looks like a row of a table rather than `key: value`: no colon outside quotes, or a delimiter before it. -/
def LooksLikeRow (d : Char) (content : Str) : Prop :=
  ¬ HasColon content ∨ ∃ a b, content = a ++ d :: b ∧ quoteState a = .out ∧ ¬ HasColon a

/-! ## Documents -/

section
variable {F : Type} [F64 F] (strict : Bool) (blanks : List Nat)

mutual

/-- `EntryMeans depth content rest e rest'`: a line at this depth with this content, followed by the lines `rest`, is
the entry `e` (key, whether it is quoted, value); the lines `rest'` are left. -/
inductive EntryMeans : Nat → Str → List Line → Str × Bool × ETree F → List Line → Prop
  | array {depth : Nat} {content : Str} {rest rest' : List Line} {h : Header} {k : Str} {t : ETree F} :
      HeaderMeans content h → h.key = some k → ArrayMeans depth h rest t rest' →
      EntryMeans depth content rest (k, h.keyQuoted, t) rest'
  | prim {depth : Nat} {content after k : Str} {q : Bool} {rest : List Line} {p : Prim F} :
      NoKeyedHeader content → KeyLineMeans content k q after → ¬ BlankLine after → TokenMeans (trim after) p →
      EntryMeans depth content rest (k, q, .prim p) rest
  | empty {depth : Nat} {content after k : Str} {q : Bool} {rest : List Line} :
      NoKeyedHeader content → KeyLineMeans content k q after → BlankLine after →
      (∀ line more, rest = line :: more → line.depth ≤ depth) →
      EntryMeans depth content rest (k, q, .obj []) rest
  | object {depth : Nat} {content after k : Str} {q : Bool} {line : Line} {rest rest' : List Line}
      {es : List (Str × Bool × ETree F)} :
      NoKeyedHeader content → KeyLineMeans content k q after → BlankLine after →
      depth < line.depth → BlockMeans false line.depth (line :: rest) es rest' →
      EntryMeans depth content (line :: rest) (k, q, .obj es) rest'

/-- The entries of an object, all at the same depth, as long as there are any.  In a list element (`inList`) a line
beginning with a hyphen ends the object. -/
inductive BlockMeans : Bool → Nat → List Line → List (Str × Bool × ETree F) → List Line → Prop
  | stop {inList : Bool} {depth : Nat} {rest : List Line} :
      ¬ NextIs depth (fun content => inList = true → ¬ HyphenSpace content) rest → BlockMeans inList depth rest [] rest
  | entry {inList : Bool} {depth : Nat} {line : Line} {rest rest₁ rest₂ : List Line} {e : Str × Bool × ETree F}
      {es : List (Str × Bool × ETree F)} :
      line.depth = depth → (inList = true → ¬ HyphenSpace line.content) →
      EntryMeans depth line.content rest e rest₁ → BlockMeans inList depth rest₁ es rest₂ →
      BlockMeans inList depth (line :: rest) (e :: es) rest₂

/-- The array a header at this depth stands for. -/
inductive ArrayMeans : Nat → Header → List Line → ETree F → List Line → Prop
  | inline {depth : Nat} {h : Header} {rest : List Line} {text : Str} {cells : List Str} {prims : List (Prim F)} :
      h.inline = some text → Cells h.delim text cells → Pointwise TokenMeans cells prims →
      (strict = true → cells.length = h.length) →
      ArrayMeans depth h rest (.arr h.length (prims.map .prim)) rest
  | table {depth : Nat} {h : Header} {body rest : List Line} {fields : List FieldName} {ts : List (ETree F)} :
      h.inline = none → h.fields = some fields → fields ≠ [] →
      (∀ line ∈ body, line.depth = depth + 1) → Pointwise (TableRow strict fields h.delim) body ts →
      body.length ≤ h.length → (body.length < h.length → ¬ NextIs (depth + 1) (fun _ => True) rest) →
      (strict = true → body.length = h.length ∧ NoBlankWithin blanks body ∧
        ¬ NextIs (depth + 1) (fun content => ¬ HyphenSpace content ∧ LooksLikeRow h.delim content) rest) →
      ArrayMeans depth h (body ++ rest) (.arr h.length ts) rest
  | list {depth : Nat} {h : Header} {body rest : List Line} {ts : List (ETree F)} :
      h.inline = none → (h.fields = none ∨ h.fields = some []) →
      ItemsMean h.length (depth + 1) (body ++ rest) ts rest →
      (strict = true → ts.length = h.length ∧ NoBlankWithin blanks body ∧ ¬ NextIs (depth + 1) HyphenSpace rest) →
      ArrayMeans depth h (body ++ rest) (.arr h.length ts) rest

/-- At most `n` list elements at this depth, as long as there are any. -/
inductive ItemsMean : Nat → Nat → List Line → List (ETree F) → List Line → Prop
  | stop {n depth : Nat} {rest : List Line} :
      (n = 0 ∨ ¬ NextIs depth (fun content => content = ['-'] ∨ HyphenSpace content) rest) →
      ItemsMean n depth rest [] rest
  | item {n depth : Nat} {line : Line} {rest rest₁ rest₂ : List Line} {t : ETree F} {ts : List (ETree F)} :
      line.depth = depth → ItemMeans' depth line.content rest t rest₁ → ItemsMean n depth rest₁ ts rest₂ →
      ItemsMean (n + 1) depth (line :: rest) (t :: ts) rest₂

/-- A list element: the line with the hyphen has this content and depth. -/
inductive ItemMeans' : Nat → Str → List Line → ETree F → List Line → Prop
  | hyphen {depth : Nat} {rest : List Line} : ItemMeans' depth ['-'] rest (.obj []) rest
  | blank {depth : Nat} {after : Str} {rest : List Line} : BlankLine after →
      ItemMeans' depth ('-' :: ' ' :: after) rest (.obj []) rest
  | array {depth : Nat} {after : Str} {rest rest' : List Line} {h : Header} {t : ETree F} :
      VisibleFirst '[' after → HasColon after → HeaderMeans after h → ArrayMeans depth h rest t rest' →
      ItemMeans' depth ('-' :: ' ' :: after) rest t rest'
  | object {depth : Nat} {after : Str} {rest rest₁ rest₂ : List Line} {e : Str × Bool × ETree F}
      {es : List (Str × Bool × ETree F)} :
      ¬ (VisibleFirst '[' after ∧ ∃ h, HeaderMeans after h) →
      (HasColon after ∨ ∃ h, HeaderMeans after h ∧ h.key ≠ none ∧ h.fields ≠ none) →
      EntryMeans (depth + 1) after rest e rest₁ → BlockMeans true (depth + 1) rest₁ es rest₂ →
      ItemMeans' depth ('-' :: ' ' :: after) rest (.obj (e :: es)) rest₂
  | prim {depth : Nat} {after : Str} {rest : List Line} {p : Prim F} :
      ¬ BlankLine after → ¬ HasColon after →
      (NoHeader after ∨ ∃ h, HeaderMeans after h ∧ (h.key = none ∨ h.fields = none)) → TokenMeans (trim after) p →
      ItemMeans' depth ('-' :: ' ' :: after) rest (.prim p) rest

end

/-- The document with these lines; the lines `rest'` are not read. -/
inductive DocumentMeans : List Line → ETree F → List Line → Prop
  | empty : DocumentMeans [] (.obj []) []
  | array {line : Line} {rest rest' : List Line} {h : Header} {t : ETree F} :
      VisibleFirst '[' line.content → HasColon line.content → HeaderMeans line.content h →
      ArrayMeans strict blanks 0 h rest t rest' → DocumentMeans (line :: rest) t rest'
  | prim {line : Line} {p : Prim F} :
      (line.content.head? = some '"' ∨ ':' ∉ line.content) → TokenMeans (trim line.content) p →
      DocumentMeans [line] (.prim p) []
  | object {line : Line} {rest rest₁ rest₂ : List Line} {e : Str × Bool × ETree F} {es : List (Str × Bool × ETree F)} :
      (VisibleFirst '[' line.content → HasColon line.content → NoHeader line.content) →
      EntryMeans strict blanks 0 line.content rest e rest₁ → BlockMeans strict blanks false 0 rest₁ es rest₂ →
      DocumentMeans (line :: rest) (.obj (e :: es)) rest₂

end

/-- The source lines are a document that stands for the tree `t`. -/
def TextMeans {F : Type} [F64 F] (indent : Nat) (strict : Bool) (source : List Str) (t : ETree F) : Prop :=
  ∃ lines blanks rest', ScansTo indent strict 0 source lines blanks ∧ DocumentMeans strict blanks lines t rest'

end Toon
