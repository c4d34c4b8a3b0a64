import Verif.Lemmas.Canon
import Verif.Lemmas.Float64
import Verif.Lemmas.DecodeValue

/-!
# C01, C04, C39, C40, C41: encoding followed by decoding

The conditions `Writable`, `DistinctKeys`, `Aligned`, `PlainNumbers` and the relation `≃` (equality up
to the order of keys) are in `Spec/Values.lean`; they do not mention the encoder or the decoder.
-/

namespace Toon

section
variable {F : Type} [F64 F] [LawfulF64 F]

/-- C01.  Encoding a value without NaN, infinities and negative zero, and decoding the text with the
same indent (strict or not) gives the value back, up to the order of keys. -/
theorem C01_round_trip (opts : EncOpts) (strict : Bool) (v : Json F)
    (hi : 0 < opts.indent) (hd : GoodDelim opts.delim) (hf : opts.fold = false)
    (hw : Writable true v) (hk : DistinctKeys v) (hn : PlainNumbers v) :
    ∃ w, decode { indent := opts.indent, strict := strict, expand := false } (encode opts v) = .ok w ∧ w ≃ v := by
  refine ⟨_, decode_encode hi hd strict hw, ?_⟩
  have := shape_equiv hf ((distinct_normalize v).mpr hk)
  rwa [normalize_normal ((normal_iff v).mpr hn)] at this ⊢

/-- C01, exact form: when the rows of tables list their keys in column order, the decoded value is the
encoded one, order of keys included. -/
theorem C01_round_trip_exact (opts : EncOpts) (strict : Bool) (v : Json F)
    (hi : 0 < opts.indent) (hd : GoodDelim opts.delim) (hf : opts.fold = false)
    (hw : Writable true v) (hk : DistinctKeys v) (ha : Aligned true v) (hn : PlainNumbers v) :
    decode { indent := opts.indent, strict := strict, expand := false } (encode opts v) = .ok v := by
  rw [decode_encode hi hd strict hw, shape_eq hf ((distinct_normalize v).mpr hk) ((aligned_normalize true v).mpr ha),
    normalize_normal ((normal_iff v).mpr hn)]

/-- C01 for all numbers: NaN and infinities come back as `null`, negative zero as zero. -/
theorem C01_round_trip_all_numbers (opts : EncOpts) (strict : Bool) (v : Json F)
    (hi : 0 < opts.indent) (hd : GoodDelim opts.delim) (hf : opts.fold = false)
    (hw : Writable true v) (hk : DistinctKeys v) :
    ∃ w, decode { indent := opts.indent, strict := strict, expand := false } (encode opts v) = .ok w ∧
      w ≃ normalize v :=
  ⟨_, decode_encode hi hd strict hw, shape_equiv hf ((distinct_normalize v).mpr hk)⟩

/-- C01 for the line interface (`encode_lines`, `decode_from_lines`). -/
theorem C01_round_trip_lines (opts : EncOpts) (strict : Bool) (v : Json F)
    (hi : 0 < opts.indent) (hd : GoodDelim opts.delim) (hf : opts.fold = false)
    (hw : Writable true v) (hk : DistinctKeys v) (hn : PlainNumbers v) :
    ∃ w, decodeFromLines { indent := opts.indent, strict := strict, expand := false } (encodeLines opts v) = .ok w ∧
      w ≃ v := by
  refine ⟨_, decodeFromLines_encodeLines hi hd strict hw, ?_⟩
  have := shape_equiv hf ((distinct_normalize v).mpr hk)
  rwa [normalize_normal ((normal_iff v).mpr hn)] at this ⊢

/-- C04.  The events read back from the encoded text are the events that the encoder's event stream
produces for a value equal to the encoded one up to the order of keys; declared lengths and quoted
flags included. -/
theorem C04_events (opts : EncOpts) (strict : Bool) (v : Json F)
    (hi : 0 < opts.indent) (hd : GoodDelim opts.delim) (hf : opts.fold = false)
    (hw : Writable true v) (hk : DistinctKeys v) :
    ∃ w, w ≃ normalize v ∧
      decodeStream opts.indent strict (splitOn '\n' (encode opts v)) = .ok (encodeStreamEvents w) := by
  refine ⟨canon true (normalize v), ?_, ?_⟩
  · rw [← shape_canon hf]
    exact shape_equiv hf ((distinct_normalize v).mpr hk)
  · have h := decodeStream_encode hi hd strict hw
    have hv := decode_encode hi hd strict hw
    obtain ⟨t, _, hg, ht⟩ := decodeFromLines_tree rfl hv
    have hp : PlainNumbers (shape opts (normalize v)) := by rw [ht]; exact (allPrims_json _ t).mpr hg.prims
    rw [h, encodeStreamEvents, ← shape_canon hf, normalize_normal ((normal_iff _).mpr hp)]

/-- C04, exact form. -/
theorem C04_events_exact (opts : EncOpts) (strict : Bool) (v : Json F)
    (hi : 0 < opts.indent) (hd : GoodDelim opts.delim) (hf : opts.fold = false)
    (hw : Writable true v) (hk : DistinctKeys v) (ha : Aligned true v) :
    decodeStream opts.indent strict (splitOn '\n' (encode opts v)) = .ok (encodeStreamEvents v) := by
  rw [decodeStream_encode hi hd strict hw, encodeStreamEvents,
    shape_eq hf ((distinct_normalize v).mpr hk) ((aligned_normalize true v).mpr ha)]

/-- C39.  Two values with the same encoding are equal up to the order of keys. -/
theorem C39_injective (opts : EncOpts) (v w : Json F)
    (hi : 0 < opts.indent) (hd : GoodDelim opts.delim) (hf : opts.fold = false)
    (hv : Writable true v) (hw : Writable true w) (hkv : DistinctKeys v) (hkw : DistinctKeys w)
    (hnv : PlainNumbers v) (hnw : PlainNumbers w) (h : encode opts v = encode opts w) : v ≃ w := by
  obtain ⟨a, h1, h2⟩ := C01_round_trip opts true v hi hd hf hv hkv hnv
  obtain ⟨b, h3, h4⟩ := C01_round_trip opts true w hi hd hf hw hkw hnw
  rw [h, h3] at h1
  simp only [Except.ok.injEq] at h1
  subst h1
  exact h2.symm.trans h4

/-- C40.  Encoding the decoded value again gives the same text. -/
theorem C40_stable (opts : EncOpts) (strict : Bool) (v : Json F)
    (hi : 0 < opts.indent) (hd : GoodDelim opts.delim) (hf : opts.fold = false) (hw : Writable true v) :
    ∃ w : Json F, decode { indent := opts.indent, strict := strict, expand := false } (encode opts v) = .ok w ∧
      encode opts w = encode opts v := by
  have hv := decode_encode hi hd strict hw
  refine ⟨_, hv, ?_⟩
  obtain ⟨t, _, hg, ht⟩ := decodeFromLines_tree rfl hv
  have hp : PlainNumbers (shape opts (normalize v)) := by rw [ht]; exact (allPrims_json _ t).mpr hg.prims
  unfold encode encodeLines encodeJsonValue
  rw [normalize_normal ((normal_iff _).mpr hp), shape_canon hf, encodeValue_canon hf]

/-- C41.  The delimiter, the indent and the strict flag do not influence the decoded value. -/
theorem C41_independent (o1 o2 : EncOpts) (s1 s2 : Bool) (v : Json F)
    (hi1 : 0 < o1.indent) (hi2 : 0 < o2.indent) (hd1 : GoodDelim o1.delim) (hd2 : GoodDelim o2.delim)
    (hf1 : o1.fold = false) (hf2 : o2.fold = false) (hw : Writable true v) :
    ∃ w : Json F, decode { indent := o1.indent, strict := s1, expand := false } (encode o1 v) = .ok w ∧
      decode { indent := o2.indent, strict := s2, expand := false } (encode o2 v) = .ok w :=
  ⟨_, by rw [decode_encode hi1 hd1 s1 hw, shape_canon hf1], by rw [decode_encode hi2 hd2 s2 hw, shape_canon hf2]⟩

end

/-! ## The hypotheses are satisfiable

A document with a table whose rows have different key orders, a quoted key, a string that needs
quotes, nested lists, an empty object and a non-integer number. -/

namespace RoundTripExample

/-- 1.5 -/
def x15 : B64 := ⟨false, 1023, 2 ^ 51⟩

def row1 : List (Str × Json B64) := [("id".toList, .prim (.num x15)), ("na:me".toList, .prim (.str "a,b".toList))]
def row2 : List (Str × Json B64) := [("na:me".toList, .prim (.str "-".toList)), ("id".toList, .prim .null)]

def value : Json B64 := .obj [
  ("rows".toList, .arr [.obj row1, .obj row2]),
  ("".toList, .prim (.str "[3]: x".toList)),
  ("list".toList, .arr [.prim (.bool true), .obj [], .arr [.prim (.str []), .arr []]])]

theorem cols_of {items : List (Json B64)} {es : List (Str × Json B64)} {rest : List (Json B64)} {cols : List Str}
    (h : IsTable items cols) (hi : items = .obj es :: rest) : cols = es.map Prod.fst := by
  obtain ⟨_, ⟨es', rest', h1, h2⟩, _⟩ := h
  rw [hi] at h1
  cases h1
  exact h2.symm

theorem writable : Writable true value := by
  have h1 : ∀ cols, IsTable [Json.obj row1, .obj row2] cols → ∀ c ∈ cols, '}' ∉ c := by
    intro cols h
    rw [cols_of h rfl]
    decide
  have h2 : ∀ cols, IsTable [Json.prim (.bool true), .obj [], .arr [.prim (.str []), .arr ([] : List (Json B64))]] cols →
      ∀ c ∈ cols, '}' ∉ c := by
    rintro cols ⟨_, ⟨_, _, h, _⟩, _⟩
    cases h
  have h3 : bareKey [] = false := rfl
  simp only [value, row1, row2, Writable, WritableEntries, WritableItems] at *
  simp [h3]
  exact ⟨⟨h1, Or.inr ⟨by decide, by decide⟩⟩, h2⟩

theorem distinct : DistinctKeys value := by
  simp [value, row1, row2, DistinctKeys, DistinctKeysItems, DistinctKeysEntries]

theorem plain : PlainNumbers value := by
  have : F64.isFinite x15 = true := by decide +kernel
  have h2 : F64.isZero x15 = false := by decide +kernel
  simp [value, row1, row2, PlainNumbers, AllPrims, AllPrimsItems, AllPrimsEntries, PlainPrim, this, h2]

/-- C01, C04, C39 -/
example : ∃ w, decode defaultDec (encode defaultEnc value) = .ok w ∧ w ≃ value :=
  C01_round_trip defaultEnc true value (by decide) (by decide) rfl writable distinct plain

/-- A header-like string in a cell of a table survives, although its column has an unquoted name. -/
def cell : Json B64 := .obj [("rows".toList, .arr [.obj [("id".toList, .prim (.str "[3]: x".toList))]])]

example : ∃ w, decode defaultDec (encode defaultEnc cell) = .ok w ∧ w ≃ cell := by
  have ht : IsTable [Json.obj [("id".toList, .prim (.str "[3]: x".toList))]] ["id".toList] (F := B64) :=
    ⟨by simp, ⟨_, _, rfl, rfl⟩, fun item hi => ⟨_, List.mem_singleton.mp hi, rfl, fun c hc => by
      rw [List.mem_singleton.mp hc]; exact ⟨_, rfl⟩⟩⟩
  refine C01_round_trip defaultEnc true cell (by decide) (by decide) rfl ?_ ?_ ?_
  · simp only [cell, Writable, WritableEntries]
    refine ⟨by simp, ⟨by decide, fun _ cols h => ?_, Or.inl ⟨trivial, _, ht⟩⟩, trivial⟩
    rw [cols_of h rfl]
    decide
  · simp [cell, DistinctKeys, DistinctKeysItems, DistinctKeysEntries]
  · simp [cell, PlainNumbers, AllPrims, AllPrimsItems, AllPrimsEntries, PlainPrim]

example : bareKey "id".toList = true ∧ headerLike "[3]: x".toList = true := by decide

/-- C01_round_trip_exact, C04_events_exact: a value whose rows are in column order. -/
def aligned : Json B64 := .obj [("rows".toList, .arr [.obj row1, .obj row1])]

example : Aligned true aligned ∧ Writable true aligned ∧ DistinctKeys aligned ∧ PlainNumbers aligned := by
  have h1 : ∀ cols, IsTable [Json.obj row1, .obj row1] cols → cols = row1.map Prod.fst :=
    fun cols h => cols_of h rfl
  refine ⟨?_, ?_, ?_, ?_⟩
  · simp only [aligned, Aligned, AlignedEntries, AlignedItems]
    refine ⟨⟨fun _ cols h es hes => ?_, ?_⟩, trivial⟩
    · rw [h1 cols h]
      simp at hes
      rw [hes]
    · simp [row1, AlignedEntries, Aligned]
  · simp only [aligned, Writable, WritableEntries, WritableItems]
    refine ⟨by simp, ⟨by decide, fun _ cols h => ?_, ?_⟩, trivial⟩
    · rw [h1 cols h]; decide
    · refine Or.inr ?_
      simp [row1, WritableEntries, Writable]
      decide
  · simp [aligned, row1, DistinctKeys, DistinctKeysItems, DistinctKeysEntries]
  · have : F64.isFinite x15 = true := by decide +kernel
    have h2 : F64.isZero x15 = false := by decide +kernel
    simp [aligned, row1, PlainNumbers, AllPrims, AllPrimsItems, AllPrimsEntries, PlainPrim, this, h2]

/-- C40, C41 -/
example : ∃ w : Json B64, decode { indent := 4, strict := true, expand := false } (encode { defaultEnc with indent := 4, delim := '|' } value) = .ok w ∧
    decode defaultDec (encode defaultEnc value) = .ok w :=
  C41_independent { defaultEnc with indent := 4, delim := '|' } defaultEnc true true value
    (by decide) (by decide) (by decide) (by decide) rfl rfl writable

end RoundTripExample

end Toon
