import Verif.Lemmas.DraftLayout
import Verif.Props.Layout

/-!
# C82: an array element lost or added in transit is noticed

`Spec/Draft.lean` defines texts whose declared lengths may be wrong (drafts), their values, and what it means
that some elements of one array are missing.
-/

namespace Toon

section
variable {F : Type} [F64 F] [LawfulF64 F]

/-- C82.  A text whose declarations are true is read, strictly, as what it says. -/
theorem C82_value {indent : Nat} (hi : 0 < indent) {d : Char} (hd : GoodDelim d) (D : Draft F) (hl : D.Legible) (hh : D.Honest) :
    decode ⟨indent, true, false⟩ (D.written indent d) = .ok D.value :=
  decodeFromLines_plain rfl _ ((decodeStream_written_draft hi hd D hl).1 hh)

/-- C82.  A text with a false declaration, anywhere and at any depth, is refused in strict mode. -/
theorem C82_refused {indent : Nat} (hi : 0 < indent) {d : Char} (hd : GoodDelim d) (D : Draft F) (hl : D.Legible) (hh : ¬ D.Honest)
    (expand : Bool) : ∃ e, decode (F := F) ⟨indent, true, expand⟩ (D.written indent d) = .error e := by
  obtain ⟨e, he⟩ := (decodeStream_written_draft hi hd D hl).2 hh
  refine ⟨e, ?_⟩
  unfold decode decodeFromLines
  simp only [he, bind, Except.bind]

/-- C82.  Strict decoding accepts exactly the texts whose declarations are true. -/
theorem C82_accepted {indent : Nat} (hi : 0 < indent) {d : Char} (hd : GoodDelim d) (D : Draft F) (hl : D.Legible) :
    (∃ v : Json F, decode ⟨indent, true, false⟩ (D.written indent d) = .ok v) ↔ D.Honest := by
  constructor
  · rintro ⟨v, hv⟩
    apply Classical.byContradiction
    intro hh
    obtain ⟨e, he⟩ := C82_refused hi hd D hl hh false
    rw [he] at hv
    cases hv
  · exact fun hh => ⟨_, C82_value hi hd D hl hh⟩

/-- C82.  What the encoder writes is a text whose declarations are true. -/
theorem C82_written (opts : EncOpts) (v : Json F) (l : Layout F)
    (h : DocumentLayout opts.fold opts.flattenDepth (v.mapPrims Prim.plain) l) :
    encode opts v = l.draft.written opts.indent opts.delim := by
  rw [C56_text opts v l h, Draft.written, documentRows_layout]

theorem normalize_plain (v : Json F) : normalize v = v.mapPrims Prim.plain := by
  rw [normalize_map]
  congr 1
  funext p
  cases p with
  | num x => simp only [normPrim, Prim.plain]; cases F64.isFinite x <;> simp
  | _ => rfl

/-- C82.  It can be read, unless the value has one of the known defects (`Writable`). -/
theorem C82_honest (opts : EncOpts) (v : Json F) (hw : Writable true v) (l : Layout F)
    (h : DocumentLayout opts.fold opts.flattenDepth (v.mapPrims Prim.plain) l) : l.draft.Honest ∧ l.draft.Legible := by
  rw [← normalize_plain] at h
  exact value_sound _ h ((writable_normalize true v).mpr hw) ((normal_iff _).mp (normal_normalize v))

/-- C82.  Take any number of elements out of one array of what the encoder wrote, wherever it is and however it
is written: strict decoding refuses the rest. -/
theorem C82_lost (opts : EncOpts) (hi : 0 < opts.indent) (hd : GoodDelim opts.delim) (v : Json F) (hw : Writable true v) (l : Layout F)
    (h : DocumentLayout opts.fold opts.flattenDepth (v.mapPrims Prim.plain) l) (D : Draft F) (hD : l.draft.Loses D) (expand : Bool) :
    ∃ e, decode (F := F) ⟨opts.indent, true, expand⟩ (D.written opts.indent opts.delim) = .error e := by
  obtain ⟨h1, h2⟩ := C82_honest opts v hw l h
  exact C82_refused hi hd D (hD.legible h1 h2) (hD.dishonest h1) expand

/-- C82.  Add any number of elements to one array: strict decoding refuses the whole, if it is legible. -/
theorem C82_added (opts : EncOpts) (hi : 0 < opts.indent) (hd : GoodDelim opts.delim) (v : Json F) (hw : Writable true v) (l : Layout F)
    (h : DocumentLayout opts.fold opts.flattenDepth (v.mapPrims Prim.plain) l) (D : Draft F) (hD : D.Loses l.draft) (hl : D.Legible)
    (expand : Bool) : ∃ e, decode (F := F) ⟨opts.indent, true, expand⟩ (D.written opts.indent opts.delim) = .error e :=
  C82_refused hi hd D hl (hD.dishonest_more (C82_honest opts v hw l h).1) expand

end

/-! ## Where it fails -/

/-- An empty object after the last declared element of a list is not noticed, and nothing after it is read:
the entry `b` is lost. -/
theorem C82_empty_object_added : decode (F := B64) ⟨2, true, false⟩ "a[1]:\n  - x: y\n  -\nb: z".toList =
    .ok (.obj [("a".toList, .arr [.obj [("x".toList, .prim (.str "y".toList))]])]) := by
  decide +kernel

/-- In non-strict mode a loss is not noticed. -/
theorem C82_lax : decode (F := B64) ⟨2, false, false⟩ "a[2]: x".toList =
    .ok (.obj [("a".toList, .arr [.prim (.str "x".toList)])]) := by
  decide +kernel

/-- Nothing counts the entries of an object: the loss of one line moves an entry from one object to another. -/
theorem C82_entry_lost : decode (F := B64) ⟨2, true, false⟩ "a:\n  x: p\nb:\n  y: q".toList =
      .ok (.obj [("a".toList, .obj [("x".toList, .prim (.str "p".toList))]), ("b".toList, .obj [("y".toList, .prim (.str "q".toList))])]) ∧
    decode (F := B64) ⟨2, true, false⟩ "a:\n  x: p\n  y: q".toList =
      .ok (.obj [("a".toList, .obj [("x".toList, .prim (.str "p".toList)), ("y".toList, .prim (.str "q".toList))])]) := by
  constructor <;> decide +kernel

/-! ## Examples -/

namespace DraftExample

/-- The layout of the example of C56, with its declarations. -/
def whole : Draft B64 := LayoutExample.layout.draft

/-- The same without the second row of the table. -/
def noRow : Draft B64 := .object [
  ("a.b".toList, .prim (.num LayoutExample.one)),
  ("b.a".toList, .object [(LayoutExample.c, .prim (.num LayoutExample.one))]),
  (LayoutExample.c, .inline 0 []),
  ("i".toList, .inline 2 [.num LayoutExample.one, .str LayoutExample.d]),
  ("t".toList, .table 2 [LayoutExample.a, LayoutExample.d] [[.num LayoutExample.one, .num LayoutExample.one]]),
  ("l".toList, .list 2 [.object [(LayoutExample.a, .object [(LayoutExample.b, .prim (.num LayoutExample.one))]),
    (LayoutExample.c, .object [(LayoutExample.d, .prim (.num LayoutExample.one))]),
    ("b.a".toList, .prim (.num LayoutExample.one))], .list 1 [.inline 0 []]])]

theorem loses : whole.Loses noRow :=
  .entry (pre := [_, _, _, _]) (.table (by simp) (by simp))

theorem writable_of {tbl : Bool} {items : List (Json B64)} (hn : items.length ≤ 100000000)
    (hc : ∀ es rest, items = .obj es :: rest → ∀ c ∈ es.map Prod.fst, '}' ∉ c) (hw : WritableItems items) : Writable tbl (.arr items) := by
  refine ⟨hn, ?_, Or.inr hw⟩
  rintro _ cols ⟨_, ⟨es, rest, h1, rfl⟩, _⟩
  exact hc es rest h1

theorem writable : Writable true LayoutExample.value := by
  have num : ∀ tbl, Writable tbl LayoutExample.num := fun _ => trivial
  have not_str : ∀ k s, LayoutExample.num = .prim (.str s) → bareKey k = true → headerLike s = false := by
    intro k s h; cases h
  refine ⟨by simp, ⟨not_str _, num _, trivial⟩, by simp, ⟨by simp, ⟨not_str _, num _, trivial⟩, trivial⟩, by simp,
    writable_of (by simp) (by simp) trivial, by simp, writable_of (by simp) (by intro es rest h; cases h) ⟨num _, trivial, trivial⟩,
    by simp, writable_of (by simp) (by intro es rest h; cases h; decide)
      ⟨⟨not_str _, num _, not_str _, num _, trivial⟩, ⟨by simp, trivial, not_str _, num _, trivial⟩, trivial⟩,
    by simp, writable_of (by simp) (by intro es rest h; cases h; decide)
      ⟨⟨by simp, ⟨not_str _, num _, trivial⟩, by simp, ⟨not_str _, num _, trivial⟩, by simp, ⟨not_str _, num _, trivial⟩, trivial⟩,
        writable_of (by simp) (by intro es rest h; cases h) ⟨writable_of (by simp) (by simp) trivial, trivial⟩, trivial⟩,
    trivial⟩

theorem layout_of : DocumentLayout true 2 (LayoutExample.value.mapPrims Prim.plain) LayoutExample.layout := by
  have : LayoutExample.value.mapPrims Prim.plain = LayoutExample.value := by
    rw [show LayoutExample.value.mapPrims Prim.plain = normalize LayoutExample.value by decide +kernel]; decide +kernel
  rw [this]
  exact LayoutExample.layout_of

/-- What the encoder writes for the example, without one row, is refused. -/
example (expand : Bool) : ∃ e, decode (F := B64) ⟨2, true, expand⟩ (noRow.written 2 '|') = .error e :=
  C82_lost { indent := 2, delim := '|', fold := true, flattenDepth := 2 } (by decide) (by decide) LayoutExample.value writable
    LayoutExample.layout layout_of noRow loses expand

/-- That text, and the error. -/
example : decode (F := B64) ⟨2, true, false⟩
    ("a.b: 1\nb.a:\n  c: 1\nc[0|]:\ni[2|]: 1|d e\nt[2|]{a|\"d e\"}:\n  1|1\n" ++
      "l[2|]:\n  - a:\n      b: 1\n    c:\n      \"d e\": 1\n    b.a: 1\n  - [1|]:\n    - [0|]:").toList =
    .error (.countMismatch 2 .rows 1) := by
  decide +kernel

/-- An element too many, at the end and in the middle of a document. -/
example : decode (F := B64) ⟨2, true, false⟩ "a[1]: x,y".toList = .error (.countMismatch 1 .inlineItems 2) ∧
    decode (F := B64) ⟨2, true, false⟩ "a[1]:\n  - b: x\n  - c\nd: e".toList = .error (.extraItems 1) := by
  constructor <;> decide +kernel

end DraftExample

end Toon
