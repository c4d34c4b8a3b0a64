import Verif.Lemmas.Salvage
import Verif.Props.Draft
import Verif.Props.Grammar

/-!
# C83: what non-strict decoding makes of wrong lengths

`Spec/Salvage.lean` says what is read: missing elements are not missed, and at the first element too many, of a
table or a list, reading stops for good.
-/

namespace Toon

section
variable {F : Type} [F64 F] [LawfulF64 F]

/-- C83.  Non-strict decoding of a text with any declared lengths succeeds; the value is what was read until the first
element too many. -/
theorem C83_value {indent : Nat} (hi : 0 < indent) {d : Char} (hd : GoodDelim d) (D : Draft F) (hl : D.Readable) :
    decode ⟨indent, false, false⟩ (D.written indent d) = .ok D.salvaged := by
  obtain ⟨t, h1, h2⟩ := text_salvage hi hd D hl
  exact (C58_value ⟨indent, false, false⟩ rfl _ _).mpr ⟨t, h1, h2.symm⟩

/-- C83.  If nothing is surplus, the value is what the text shows. -/
theorem C83_missing {indent : Nat} (hi : 0 < indent) {d : Char} (hd : GoodDelim d) (D : Draft F) (hl : D.Readable) (hm : D.Modest) :
    decode ⟨indent, false, false⟩ (D.written indent d) = .ok D.value := by
  rw [C83_value hi hd D hl, (modest_value D hm).2]

/-- C83.  Take any number of elements out of one array of what the encoder wrote: non-strict decoding returns
exactly the rest, with everything else as it was. -/
theorem C83_lost (opts : EncOpts) (hi : 0 < opts.indent) (hd : GoodDelim opts.delim) (v : Json F) (hw : Writable true v) (l : Layout F)
    (h : DocumentLayout opts.fold opts.flattenDepth (v.mapPrims Prim.plain) l) (D : Draft F) (hD : l.draft.Loses D) :
    decode ⟨opts.indent, false, false⟩ (D.written opts.indent opts.delim) = .ok D.value := by
  obtain ⟨h1, h2⟩ := C82_honest opts v hw l h
  exact C83_missing hi hd D (hD.legible h1 h2).readable (hD.modest h1.modest)

/-- C83.  A text whose declarations are true is read in the same way in both modes. -/
theorem C83_honest {indent : Nat} (hi : 0 < indent) {d : Char} (hd : GoodDelim d) (D : Draft F) (hl : D.Legible) (hh : D.Honest) :
    decode (F := F) ⟨indent, false, false⟩ (D.written indent d) = decode ⟨indent, true, false⟩ (D.written indent d) := by
  rw [C83_missing hi hd D hl.readable hh.modest, C82_value hi hd D hl hh]

/-- C83.  After an entry with an element too many, nothing is read: the entries that follow are lost, without an error. -/
theorem C83_rest_lost {indent : Nat} (hi : 0 < indent) {d : Char} (hd : GoodDelim d) (pre post : List (Str × Draft F)) (k : Str)
    (v : Draft F) (hl : (Draft.object (pre ++ (k, v) :: post)).Readable) (hs : v.stops = true) :
    decode ⟨indent, false, false⟩ ((Draft.object (pre ++ (k, v) :: post)).written indent d) =
      .ok (Draft.object (pre ++ [(k, v)])).salvaged := by
  rw [C83_value hi hd _ hl]
  simp only [Draft.salvaged, salvagedEntries_stop pre post k v hs]

end

/-! ## Examples -/

namespace SalvageExample

/-- A list of two with one element declared, inside an object, between two entries. -/
def surplus : Draft B64 := .object [("a".toList, .object [("l".toList, .list 1 [.prim (.str "x".toList), .prim (.str "y".toList)]),
  ("m".toList, .prim (.bool true))]), ("b".toList, .prim (.bool true))]

theorem readable : surplus.Readable := by
  simp only [surplus, Draft.Readable, Draft.ReadableEntries, Draft.ReadableItems]
  refine ⟨by simp, ⟨by simp, ⟨by decide, ?_, ?_, trivial⟩, by simp, ?_, trivial⟩, by simp, ?_, trivial⟩ <;> trivial

/-- Both entries after the list are lost. -/
example : decode (F := B64) ⟨2, false, false⟩ (surplus.written 2 ',') =
    .ok (.obj [("a".toList, .obj [("l".toList, .arr [.prim (.str "x".toList)])])]) := by
  rw [C83_value (by decide) (by decide) surplus readable]
  rfl

/-- The same text, read in full. -/
example : decode (F := B64) ⟨2, false, false⟩ "a:\n  l[1]:\n    - x\n    - y\n  m: true\nb: true".toList =
    .ok (.obj [("a".toList, .obj [("l".toList, .arr [.prim (.str "x".toList)])])]) := by
  decide +kernel

/-- Short and long rows. -/
example : decode (F := B64) ⟨2, false, false⟩ "t[2]{a,b}:\n  x\n  x,y,z".toList =
    .ok (.obj [("t".toList, .arr [.obj [("a".toList, .prim (.str "x".toList)), ("b".toList, .prim .null)],
      .obj [("a".toList, .prim (.str "x".toList)), ("b".toList, .prim (.str "y".toList))]])]) := by
  decide +kernel

/-- What the encoder writes for the example of C56, without one row: the rest is read. -/
example : decode (F := B64) ⟨2, false, false⟩ (DraftExample.noRow.written 2 '|') = .ok DraftExample.noRow.value :=
  C83_lost { indent := 2, delim := '|', fold := true, flattenDepth := 2 } (by decide) (by decide) LayoutExample.value DraftExample.writable
    LayoutExample.layout DraftExample.layout_of DraftExample.noRow DraftExample.loses

end SalvageExample

end Toon
