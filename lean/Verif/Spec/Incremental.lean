import Verif.Spec.Faults
import Verif.Spec.Flat

/-!
# What an incremental reading of a document yields, and when

The reader takes the lines one by one.  It tells entries `key: value` of one flat object as it goes; from the first
line that needs more than that it keeps the lines, and reads them as a document of their own when there are no more.
Of the model only the data types are used, and `trim`.
-/

namespace Toon

/-! ## Observing a stream -/

/-- What `n` polls show: each answer, and how many lines the stream has not yet taken from its source after it. -/
def observe {St Item : Type} (poll : St → Option Item × St) (unread : St → Nat) : Nat → St → List (Option Item × Nat)
  | 0, _ => []
  | n + 1, st => ((poll st).1, unread (poll st).2) :: observe poll unread n (poll st).2

/-- Polling shows the listed items, each with the number of unread lines, and then the same answer for ever. -/
def Observes {St Item : Type} (poll : St → Option Item × St) (unread : St → Nat) (st : St) (items : List (Item × Nat))
    (tail : Option Item × Nat) : Prop :=
  ∀ n, observe poll unread n st = (List.range n).map fun i => (items[i]?.map fun x => (some x.1, x.2)).getD tail

/-! ## One line -/

/-- Where the reader is: before the first line with text, in the flat object, keeping lines, or done. -/
inductive Stage where
  | start
  | object
  | buffering
  | finished
deriving DecidableEq, Repr

/-- The line without its indentation; when `strict`, the indentation is a whole number of units and no tab. -/
def Indented (indent : Nat) (strict : Bool) (raw content : Str) : Prop :=
  ∃ spaces, raw = List.replicate spaces ' ' ++ content ∧ ¬ BlankLine content ∧ content.head? ≠ some ' ' ∧
    (strict = true → content.head? ≠ some '\t' ∧ spaces % indent = 0)

/-- The indentation of line `num` is wrong. -/
inductive IndentFault (indent num : Nat) : Str → Err → Prop
  | tab {spaces : Nat} {content : Str} : ¬ BlankLine content → content.head? = some '\t' →
      IndentFault indent num (List.replicate spaces ' ' ++ content) (.tabsInIndent num)
  | spaces {spaces : Nat} {content : Str} : ¬ BlankLine content → content.head? ≠ some ' ' → content.head? ≠ some '\t' →
      spaces % indent ≠ 0 → IndentFault indent num (List.replicate spaces ' ' ++ content) (.badIndent num indent spaces)

/-- Only a line whose first visible character is a bracket, with a colon, may be an array header here: an array under a
key is not recognised. -/
def Bracketed (content : Str) : Prop := VisibleFirst '[' content ∧ HasColon content

/-- The first line opens an object: it is no list item, and there is a colon after the quoted literal it begins with, or
one outside quotes. -/
def EntryLike (content : Str) : Prop :=
  ¬ HyphenSpace content ∧
    ((∃ body rest, LiteralBody body ∧ content = '"' :: body ++ '"' :: rest ∧ ':' ∈ rest) ∨
      (content.head? ≠ some '"' ∧ HasColon content))

section
variable (F : Type) [F64 F]

/-- A line read as an entry: the fault, if there is one, the events and where the reader is afterwards. -/
inductive EntryYields : Str → Option Err → List (Ev F) → Stage → Prop
  | hyphen {content : Str} : HyphenSpace content → EntryYields content none [] .buffering
  | unclosed {text : Str} : NeverClosed text → EntryYields ('"' :: text) (some .unterminatedKey) [] .object
  | key {content : Str} {e : Err} : ¬ HyphenSpace content → KeyFault content e → EntryYields content (some e) [] .object
  | nested {content k after : Str} {q : Bool} : ¬ HyphenSpace content → KeyLineMeans content k q after → BlankLine after →
      EntryYields content none [] .buffering
  | value {content k after : Str} {q : Bool} {e : Err} : ¬ HyphenSpace content → KeyLineMeans content k q after →
      ¬ BlankLine after → LiteralFault (trim after) e → EntryYields content (some e) [.key k q] .object
  | entry {content k after : Str} {q : Bool} {p : Prim F} : ¬ HyphenSpace content → KeyLineMeans content k q after →
      ¬ BlankLine after → TokenMeans (trim after) p → EntryYields content none [.key k q, .prim p] .object

/-- The answers to the polls after a line: the fault comes before the events. -/
def answers (fault : Option Err) (evs : List (Ev F)) : List (Except Err (Ev F)) :=
  (fault.map .error).toList ++ evs.map .ok

/-- The line is kept exactly if the reader keeps lines from it on. -/
def keep (stage : Stage) (raw : Str) : List Str := if stage = .buffering then [raw] else []

/-- What line `num` yields at a stage, the stage after it, and the line again if it is kept.  A line with a wrong
indentation, and one that is a faulty header, is dropped. -/
inductive LineYields (indent : Nat) (strict : Bool) (num : Nat) :
    Stage → Str → List (Except Err (Ev F)) → Stage → List Str → Prop
  | blank {stage : Stage} {raw : Str} : stage ≠ .finished → BlankLine raw →
      LineYields indent strict num stage raw [] stage []
  | indentation {stage : Stage} {raw : Str} {e : Err} : stage ≠ .finished → strict = true → IndentFault indent num raw e →
      LineYields indent strict num stage raw [.error e] stage []
  | buffered {raw content : Str} : Indented indent strict raw content →
      LineYields indent strict num .buffering raw [] .buffering [raw]
  | header {stage : Stage} {raw content : Str} {h : Header} : stage = .start ∨ stage = .object →
      Indented indent strict raw content → Bracketed content → HeaderMeans content h →
      LineYields indent strict num stage raw [] .buffering [raw]
  | headerFault {stage : Stage} {raw content : Str} {e : Err} : stage = .start ∨ stage = .object →
      Indented indent strict raw content → Bracketed content → HeaderFault content e →
      LineYields indent strict num stage raw [.error e] stage []
  | first {raw content : Str} {fault : Option Err} {evs : List (Ev F)} {stage' : Stage} :
      Indented indent strict raw content → (Bracketed content → NoHeader content) → EntryLike content →
      EntryYields F content fault evs stage' →
      LineYields indent strict num .start raw (answers F fault (.startObj :: evs)) stage' (keep stage' raw)
  | next {raw content : Str} {fault : Option Err} {evs : List (Ev F)} {stage' : Stage} :
      Indented indent strict raw content → (Bracketed content → NoHeader content) →
      EntryYields F content fault evs stage' →
      LineYields indent strict num .object raw (answers F fault evs) stage' (keep stage' raw)
  | root {raw content : Str} {p : Prim F} : Indented indent strict raw content → (Bracketed content → NoHeader content) →
      ¬ EntryLike content → TokenMeans (trim content) p →
      LineYields indent strict num .start raw [.ok (.prim p)] .finished []
  | rootFault {raw content : Str} {e : Err} : Indented indent strict raw content → (Bracketed content → NoHeader content) →
      ¬ EntryLike content → LiteralFault (trim content) e →
      LineYields indent strict num .start raw [.error e] .finished []

/-! ## All lines -/

/-- The lines `pre`, with `after` more lines behind them, take the reader from one stage and kept lines to another and
yield the items.  `num` lines were read before. -/
inductive TakesLines (indent : Nat) (strict : Bool) (after : Nat) :
    Stage → List Str → Nat → List Str → List (Except Err (Ev F) × Nat) → Stage → List Str → Prop
  | nil (stage : Stage) (kept : List Str) (num : Nat) : TakesLines indent strict after stage kept num [] [] stage kept
  | cons {stage stage₁ stage₂ : Stage} {kept kept₁ kept₂ : List Str} {num : Nat} {raw : Str} {rest : List Str}
      {xs : List (Except Err (Ev F))} {items : List (Except Err (Ev F) × Nat)} :
      LineYields F indent strict (num + 1) stage raw xs stage₁ kept₁ →
      TakesLines indent strict after stage₁ (kept ++ kept₁) (num + 1) rest items stage₂ kept₂ →
      TakesLines indent strict after stage kept num (raw :: rest) (xs.map (·, rest.length + after) ++ items) stage₂ kept₂

/-- What is yielded when all lines are read: the events of the object that is still open, or of the kept lines as a
document of their own; if they are none, their fault for ever. -/
inductive Ends (indent : Nat) (strict : Bool) : Stage → List Str → List (Ev F) → Option Err → Prop
  | empty {kept : List Str} : Ends indent strict .start kept [.startObj, .endObj] none
  | object {kept : List Str} : Ends indent strict .object kept [.endObj] none
  | decoded {kept : List Str} {t : ETree F} : TextMeans indent strict kept t → Ends indent strict .buffering kept t.events none
  | rejected {kept : List Str} {e : Err} : TextFails F strict indent kept e → Ends indent strict .buffering kept [] (some e)

/-- A whole document: all lines are read, or the reader is done before and leaves the others unread. -/
inductive Streams (indent : Nat) (strict : Bool) :
    List Str → List (Except Err (Ev F) × Nat) → Option (Except Err (Ev F)) × Nat → Prop
  | all {lines kept : List Str} {items : List (Except Err (Ev F) × Nat)} {stage : Stage} {evs : List (Ev F)} {fault : Option Err} :
      TakesLines F indent strict 0 .start [] 0 lines items stage kept → Ends F indent strict stage kept evs fault →
      Streams indent strict lines (items ++ evs.map (.ok ·, 0)) (fault.map .error, 0)
  | stops {pre rest kept : List Str} {items : List (Except Err (Ev F) × Nat)} :
      TakesLines F indent strict rest.length .start [] 0 pre items .finished kept →
      Streams indent strict (pre ++ rest) items (none, rest.length)

end

/-! ## Plain entries -/

section
variable {F : Type} [F64 F]

/-- A line that is a plain entry of a flat object, at any indentation. -/
def PlainEntry (indent : Nat) (strict : Bool) (raw : Str) (entry : Str × Bool × Prim F) : Prop :=
  ∃ content after, Indented indent strict raw content ∧ (Bracketed content → NoHeader content) ∧ ¬ HyphenSpace content ∧
    KeyLineMeans content entry.1 entry.2.1 after ∧ ¬ BlankLine after ∧ TokenMeans (trim after) entry.2.2

/-- The events of plain entries, each with the number of lines after it. -/
def plainItems (after : Nat) : List (Str × Bool × Prim F) → List (Except Err (Ev F) × Nat)
  | [] => []
  | (k, q, p) :: es => (.ok (.key k q), es.length + after) :: (.ok (.prim p), es.length + after) :: plainItems after es

/-- The events of plain entries. -/
def plainEvents : List (Str × Bool × Prim F) → List (Ev F)
  | [] => []
  | (k, q, p) :: es => .key k q :: .prim p :: plainEvents es

/-- The documents, without their blank lines, that are read as a tree: an array, a primitive whatever follows it, or an
object of plain entries. -/
inductive StreamsTree (indent : Nat) (strict : Bool) : List Str → ETree F → Prop
  | empty : StreamsTree indent strict [] (.obj [])
  | array {lines : List Str} {n : Nat} {ts : List (ETree F)} : TextMeans indent strict lines (.arr n ts) →
      StreamsTree indent strict lines (.arr n ts)
  | prim {raw content : Str} {more : List Str} {p : Prim F} : Indented indent strict raw content →
      (Bracketed content → NoHeader content) → ¬ EntryLike content → TokenMeans (trim content) p →
      StreamsTree indent strict (raw :: more) (.prim p)
  | object {raw content : Str} {more : List Str} {entries : List (Str × Bool × Prim F)} :
      Pointwise (PlainEntry indent strict) (raw :: more) entries → Indented indent strict raw content → EntryLike content →
      StreamsTree indent strict (raw :: more) (.obj (entries.map fun e => (e.1, e.2.1, .prim e.2.2)))

end

end Toon
