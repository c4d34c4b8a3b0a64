import Verif.Props.Grammar
import Verif.Props.Events
import Verif.Props.Survive
import Verif.Lemmas.SafeText
import Verif.Lemmas.Declarable

/-!
# C74: which values have a text

`C73` says which values survive the encoder's choice of text.  Here the question is put to the format: is there any
text at all that is read as a given value?  There is, unless a number is NaN, infinite or negative zero or an array is
longer than a header may declare.  So the values lost by the encoder for other reasons (a brace in a column name, a
header-like string under an unquoted key, the same key twice) are lost by its choice of text.
-/

namespace Toon

section
variable {F : Type} [F64 F] [LawfulF64 F]

/-- C74.  A value is the result of decoding some text exactly if its numbers are finite and not negative zero and no
array has more than 100 000 000 elements; when not strict, arrays of primitives may have any length. -/
theorem C74_range (indent : Nat) (hi : 0 < indent) (strict : Bool) (v : Json F) :
    (∃ text, decode { indent := indent, strict := strict, expand := false } text = .ok v) ↔
      PlainNumbers v ∧ Declarable strict v := by
  constructor
  · rintro ⟨text, h⟩
    refine ⟨C20_plain_numbers _ _ _ h, ?_⟩
    obtain ⟨t, ⟨lines, blanks, rest', _, hd⟩, rfl⟩ := (C58_value _ rfl text v).mp h
    exact document_declarable hd
  · rintro ⟨hn, hc⟩
    obtain ⟨os, t, rfl, h2, h3⟩ := value_text strict v ((normal_iff v).mpr hn) hc
    exact ⟨_, decodeFromLines_ok rfl (linesOk_text hi h2 (fun h => h) h3)⟩

/-- C74.  One text serves both modes, if no array is too long. -/
theorem C74_both_modes (indent : Nat) (hi : 0 < indent) (v : Json F) (hn : PlainNumbers v) (hc : Declarable true v) :
    ∃ text, ∀ strict, decode { indent := indent, strict := strict, expand := false } text = .ok v := by
  obtain ⟨os, t, rfl, h2, h3⟩ := value_text true v ((normal_iff v).mpr hn) hc
  exact ⟨_, fun strict => decodeFromLines_ok rfl (linesOk_text hi h2 (fun _ => rfl) h3)⟩

/-- C74.  What a strict decoder reads with one indentation, some text says with any other, in both modes. -/
theorem C74_other_indent (indent indent' : Nat) (hi : 0 < indent') (text : Str) (v : Json F)
    (h : decode { indent := indent, strict := true, expand := false } text = .ok v) :
    ∃ text', ∀ strict, decode { indent := indent', strict := strict, expand := false } text' = .ok v := by
  obtain ⟨t, ⟨lines, blanks, rest', _, hd⟩, ht⟩ := (C58_value _ rfl text v).mp h
  exact C74_both_modes indent' hi v (C20_plain_numbers _ _ _ h) (ht ▸ document_declarable hd)

/-- C74.  A value that has a text but does not survive: there is a text that is read as the value, and the text the
encoder chooses is not. -/
theorem C74_lost_by_encoder (opts : EncOpts) (v : Json F) (hi : 0 < opts.indent) (hd : GoodDelim opts.delim)
    (hf : opts.fold = false) (hk : DistinctKeys v) (hs : Sized v) (hn : PlainNumbers v) (hc : Declarable true v)
    (hw : ¬ Writable true v) :
    (∃ text, ∀ strict, decode { indent := opts.indent, strict := strict, expand := false } text = .ok v) ∧
      ∀ strict, decode { indent := opts.indent, strict := strict, expand := false } (encode opts v) ≠ .ok v := by
  refine ⟨C74_both_modes _ hi v hn hc, fun strict h => hw ?_⟩
  exact ((C73_survives_exact opts strict v hi hd hf hk hs).mp h).1

end

/-! ## Cases -/

/-- A value with the three defects that are not about size: a table with a column `}`, a header-like string under a
bare key, and the same key twice. -/
def awkward : Json B64 :=
  .obj [("rows".toList, .arr [.obj [("}".toList, .prim .null)]]),
    ("a".toList, .prim (.str "[0]: x".toList)),
    ("a".toList, .prim (.str "[0]: x".toList))]

example : PlainNumbers awkward ∧ Declarable true awkward := by
  simp [awkward, PlainNumbers, AllPrims, AllPrimsEntries, AllPrimsItems, PlainPrim, Declarable, DeclarableEntries,
    DeclarableItems]

/-- A text for it. -/
example : decode (F := B64) ⟨2, true, false⟩
    "rows[1]:\n  - \"}\": null\n\"a\": \"[0]: x\"\n\"a\": \"[0]: x\"".toList = .ok awkward := by decide +kernel

/-- The hypotheses of `C74_lost_by_encoder`. -/
example : let v : Json B64 := .obj [("a".toList, .prim (.str "[0]: x".toList))]
    DistinctKeys v ∧ Sized v ∧ PlainNumbers v ∧ Declarable true v ∧ ¬ Writable true v := by
  simp only [DistinctKeys, DistinctKeysEntries, Sized, SizedEntries, PlainNumbers, AllPrims, AllPrimsEntries, PlainPrim,
    Declarable, DeclarableEntries, Writable, WritableEntries, and_true, true_and]
  refine ⟨by decide, ?_⟩
  intro h
  have := h "[0]: x".toList rfl (by decide +kernel)
  revert this
  decide +kernel

/-- An array of primitives may be longer than declared when not strict. -/
example : decode (F := B64) ⟨2, false, false⟩ "[0]: a,b".toList =
    .ok (.arr [.prim (.str "a".toList), .prim (.str "b".toList)]) := by decide +kernel

/-- Values with no text: negative zero, infinities and NaN. -/
example (x : B64) (hx : F64.isFinite x = false ∨ F64.isZero x = true ∧ F64.isNeg x = true) :
    ¬ ∃ text, decode (F := B64) ⟨2, true, false⟩ text = .ok (.prim (.num x)) := by
  rw [C74_range 2 (by decide)]
  intro h
  have h := h.1
  simp only [PlainNumbers, AllPrims, PlainPrim] at h
  rcases hx with hx | hx
  · rw [hx] at h; simp at h
  · exact h.2 hx

end Toon
