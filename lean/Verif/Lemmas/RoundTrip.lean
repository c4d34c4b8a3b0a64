import Verif.Model.Api
import Verif.Lemmas.Build
import Verif.Lemmas.Equiv

/-! Decoding the encoder's text. -/

namespace Toon

section
variable {F : Type} [F64 F]

theorem renderLine_lf {indent : Nat} {l : OutLine} (h : LineOk l.content) : '\n' ∉ renderLine indent l := by
  unfold renderLine
  intro hm
  rcases List.mem_append.mp hm with hm | hm
  · have := List.eq_of_mem_replicate hm
    exact absurd this (by decide)
  · exact h.lf hm

theorem joinWith_cons_ne {c : Char} {w w' : Str} {ws : List Str} :
    joinWith c (w :: w' :: ws) = w ++ c :: joinWith c (w' :: ws) := rfl

theorem decodeFromLines_plain {opts : DecOpts} (h : opts.expand = false) (ls : List Str) {v : Json F}
    (hs : decodeStream opts.indent opts.strict ls = .ok (emitEvents v)) : decodeFromLines opts ls = .ok v := by
  obtain ⟨n, h1, _, h2⟩ := build_emit v
  unfold decodeFromLines
  simp only [hs, h1, h, bind, Except.bind, pure, Except.pure, Bool.false_eq_true, if_false, h2]

section
variable [LawfulF64 F]

theorem encodeJsonValue_lf {opts : EncOpts} (hd : GoodDelim opts.delim) (v : Json F) :
    ∀ l ∈ encodeJsonValue opts v, '\n' ∉ l := by
  intro l hl
  obtain ⟨o, ho, rfl⟩ := List.mem_map.mp hl
  exact renderLine_lf (linesIn_value hd v o ho).1

/-- Splitting the joined lines gives the lines, or one blank line when there are none. -/
theorem splitOn_encode {opts : EncOpts} (hd : GoodDelim opts.delim) (v : Json F) :
    splitOn '\n' (encode opts v) =
      if encodeLines opts v = [] then [[]] else encodeLines opts v := by
  unfold encode
  split
  · rename_i h; rw [h]; rfl
  · rename_i h
    exact splitOn_joinWith h (encodeJsonValue_lf hd _)

theorem decodeStream_encodeLines {opts : EncOpts} (hi : 0 < opts.indent) (hd : GoodDelim opts.delim) (strict : Bool)
    {v : Json F} (hw : Writable true v) :
    decodeStream opts.indent strict (encodeLines opts v) = .ok (emitEvents (shape opts (normalize v))) :=
  decodeStream_written hi hd strict ((writable_normalize true v).mpr hw) (normal_normalize v)

theorem decodeStream_encode {opts : EncOpts} (hi : 0 < opts.indent) (hd : GoodDelim opts.delim) (strict : Bool)
    {v : Json F} (hw : Writable true v) :
    decodeStream opts.indent strict (splitOn '\n' (encode opts v)) = .ok (emitEvents (shape opts (normalize v))) := by
  have := decodeStream_encodeLines hi hd strict hw
  rw [splitOn_encode hd]
  split
  · rename_i h
    rw [h] at this
    exact this
  · exact this

theorem decode_encode {opts : EncOpts} (hi : 0 < opts.indent) (hd : GoodDelim opts.delim) (strict : Bool)
    {v : Json F} (hw : Writable true v) :
    decode ⟨opts.indent, strict, false⟩ (encode opts v) = .ok (shape opts (normalize v)) :=
  decodeFromLines_plain rfl _ (decodeStream_encode hi hd strict hw)

theorem decodeFromLines_encodeLines {opts : EncOpts} (hi : 0 < opts.indent) (hd : GoodDelim opts.delim) (strict : Bool)
    {v : Json F} (hw : Writable true v) :
    decodeFromLines ⟨opts.indent, strict, false⟩ (encodeLines opts v) = .ok (shape opts (normalize v)) :=
  decodeFromLines_plain rfl _ (decodeStream_encodeLines hi hd strict hw)

theorem normPrim_plain (p : Prim F) : normPrim p = p ↔ PlainPrim p := by
  cases p with
  | num x =>
    simp only [normPrim, PlainPrim]
    cases hf : F64.isFinite x with
    | false => simp
    | true =>
      cases hz : F64.isZero x with
      | false => simp
      | true =>
        simp only [Bool.not_true, Bool.false_eq_true, if_false, if_true, Prim.num.injEq, true_and]
        cases hng : F64.isNeg x with
        | false => simp [LawfulF64.zero_unique x hz hng]
        | true =>
          simp only [not_true, iff_false]
          intro h
          have := LawfulF64.zero_isNeg (F := F)
          rw [h, hng] at this
          exact absurd this (by decide)
  | _ => simp [normPrim, PlainPrim]

mutual
theorem normal_iff (v : Json F) : Normal v ↔ PlainNumbers v := by
  match v with
  | .prim p => simp only [Normal, PlainNumbers, AllPrims, normPrim_plain]
  | .arr items => simp only [Normal, PlainNumbers, AllPrims, normalItems_iff items]
  | .obj es => simp only [Normal, PlainNumbers, AllPrims, normalEntries_iff es]
theorem normalItems_iff (vs : List (Json F)) : NormalItems vs ↔ AllPrimsItems PlainPrim vs := by
  match vs with
  | [] => simp [NormalItems, AllPrimsItems]
  | v :: vs =>
    have := normal_iff v
    simp only [PlainNumbers] at this
    simp only [NormalItems, AllPrimsItems, this, normalItems_iff vs]
theorem normalEntries_iff (es : List (Str × Json F)) : NormalEntries es ↔ AllPrimsEntries PlainPrim es := by
  match es with
  | [] => simp [NormalEntries, AllPrimsEntries]
  | (k, v) :: es =>
    have := normal_iff v
    simp only [PlainNumbers] at this
    simp only [NormalEntries, AllPrimsEntries, this, normalEntries_iff es]
end

end

end

end Toon
