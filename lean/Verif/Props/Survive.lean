import Verif.Props.HeaderDefects
import Verif.Lemmas.Outcome
import Verif.Lemmas.ShapeExact

/-!
# C73: exactly which values survive

`C01` says that a value without the three defects survives encoding and decoding.  Here the converse:
the three defects are the only ones, and each of them is fatal, wherever it occurs and whatever
surrounds it.  So the values that survive are exactly the ones `C01` is about.
-/

namespace Toon

section
variable {F : Type} [F64 F] [LawfulF64 F]

omit [LawfulF64 F] in
theorem normalItems_append (a b : List (Json F)) : NormalItems (a ++ b) ↔ NormalItems a ∧ NormalItems b := by
  induction a with
  | nil => simp [NormalItems]
  | cons v a ih => simp [NormalItems, ih, and_assoc]

omit [LawfulF64 F] in
theorem normalEntries_append (a b : List (Str × Json F)) :
    NormalEntries (a ++ b) ↔ NormalEntries a ∧ NormalEntries b := by
  induction a with
  | nil => simp [NormalEntries]
  | cons e a ih => obtain ⟨k, v⟩ := e; simp [NormalEntries, ih, and_assoc]

omit [LawfulF64 F] in
theorem normalEntries_perm {a b : List (Str × Json F)} (h : a.Perm b) : NormalEntries a ↔ NormalEntries b := by
  induction h with
  | nil => rfl
  | cons e _ ih => obtain ⟨k, v⟩ := e; simp [NormalEntries, ih]
  | swap e e' l => obtain ⟨k, v⟩ := e; obtain ⟨k', v'⟩ := e'; simp only [NormalEntries]; exact and_left_comm
  | trans _ _ ih1 ih2 => exact ih1.trans ih2

omit [LawfulF64 F] in
theorem normal_equiv {a b : Json F} (h : Json.Equiv a b) : Normal a ↔ Normal b := by
  induction h with
  | refl => rfl
  | trans _ _ ih1 ih2 => exact ih1.trans ih2
  | arr pre post _ ih => simp [Normal, normalItems_append, NormalItems, ih]
  | obj pre post k _ ih => simp [Normal, normalEntries_append, NormalEntries, ih]
  | perm h => simp [Normal, normalEntries_perm h]

/-- Reading the text is reading the lines. -/
theorem decode_encode_lines {opts : EncOpts} (hd : GoodDelim opts.delim) (strict : Bool) (v : Json F) :
    decode (F := F) { indent := opts.indent, strict := strict, expand := false } (encode opts v) =
      decodeFromLines { indent := opts.indent, strict := strict, expand := false } (encodeLines opts v) := by
  unfold decode
  rw [splitOn_encode hd]
  split
  · rename_i h
    rw [h]
    rfl
  · rfl

/-- C73.  A value comes back from its own encoding, up to the order of keys and with NaN and infinities as
`null` and negative zero as zero, exactly when no array in it has more than 100 000 000 elements, no table
has a column with a `}` in its name and no header-like string stands under an unquoted key outside a table. -/
theorem C73_survives (opts : EncOpts) (strict : Bool) (v : Json F)
    (hi : 0 < opts.indent) (hd : GoodDelim opts.delim) (hf : opts.fold = false)
    (hk : DistinctKeys v) (hs : Sized v) :
    (∃ w, decode { indent := opts.indent, strict := strict, expand := false } (encode opts v) = .ok w ∧
      w ≃ normalize v) ↔ Writable true v := by
  constructor
  · rintro ⟨w, h, he⟩
    rw [decode_encode_lines hd] at h
    exact decode_outcome hi hd hf strict hk hs h (by rw [keyTotal_equiv he, keyTotal_normalize])
  · exact fun hw => C01_round_trip_all_numbers opts strict v hi hd hf hw hk

/-- C73, for the value itself: no NaN, no infinity and no negative zero in addition. -/
theorem C73_survives_same (opts : EncOpts) (strict : Bool) (v : Json F)
    (hi : 0 < opts.indent) (hd : GoodDelim opts.delim) (hf : opts.fold = false)
    (hk : DistinctKeys v) (hs : Sized v) :
    (∃ w, decode { indent := opts.indent, strict := strict, expand := false } (encode opts v) = .ok w ∧ w ≃ v) ↔
      Writable true v ∧ PlainNumbers v := by
  constructor
  · rintro ⟨w, h, he⟩
    have hw : Writable true v := by
      have h := h
      rw [decode_encode_lines hd] at h
      exact decode_outcome hi hd hf strict hk hs h (keyTotal_equiv he)
    refine ⟨hw, ?_⟩
    obtain ⟨w', h', he'⟩ := C01_round_trip_all_numbers opts strict v hi hd hf hw hk
    rw [h] at h'
    simp only [Except.ok.injEq] at h'
    subst h'
    exact (normal_iff v).mp ((normal_equiv he).mp ((normal_equiv he').mpr (normal_normalize v)))
  · exact fun ⟨hw, hn⟩ => C01_round_trip opts strict v hi hd hf hw hk hn

/-- C73, with the order of keys: in addition the rows of every table list their keys in the order of the
columns. -/
theorem C73_survives_exact (opts : EncOpts) (strict : Bool) (v : Json F)
    (hi : 0 < opts.indent) (hd : GoodDelim opts.delim) (hf : opts.fold = false)
    (hk : DistinctKeys v) (hs : Sized v) :
    decode { indent := opts.indent, strict := strict, expand := false } (encode opts v) = .ok v ↔
      Writable true v ∧ PlainNumbers v ∧ Aligned true v := by
  constructor
  · intro h
    obtain ⟨hw, hn⟩ := (C73_survives_same opts strict v hi hd hf hk hs).mp ⟨v, h, .refl v⟩
    refine ⟨hw, hn, ?_⟩
    have h' := decode_encode hi hd strict hw
    rw [normalize_normal ((normal_iff v).mpr hn)] at h'
    rw [h] at h'
    simp only [Except.ok.injEq] at h'
    exact aligned_of_shape hf h'.symm
  · exact fun ⟨hw, hn, ha⟩ => C01_round_trip_exact opts strict v hi hd hf hw hk ha hn

/-- C73 for the line interface. -/
theorem C73_survives_lines (opts : EncOpts) (strict : Bool) (v : Json F)
    (hi : 0 < opts.indent) (hd : GoodDelim opts.delim) (hf : opts.fold = false)
    (hk : DistinctKeys v) (hs : Sized v) :
    (∃ w, decodeFromLines { indent := opts.indent, strict := strict, expand := false } (encodeLines opts v) = .ok w ∧
      w ≃ v) ↔ Writable true v ∧ PlainNumbers v := by
  rw [← C73_survives_same opts strict v hi hd hf hk hs, decode_encode_lines hd]

/-- F5.  An array over the cap is written, and its text is refused. -/
theorem C73_over_cap (opts : EncOpts) (strict : Bool) (items : List (Json F))
    (hi : 0 < opts.indent) (hd : GoodDelim opts.delim) (hn : 100000000 < items.length) (hs : items.length < 2 ^ 64) :
    decode (F := F) { indent := opts.indent, strict := strict, expand := false } (encode opts (.arr items)) =
      .error (.lengthCap items.length) := by
  rw [decode_encode_lines hd]
  apply decodeFromLines_error
  obtain ⟨lines, h1, h2⟩ := parseLines_render hi strict (encodeValue opts (normalize (.arr items)))
    (fun l hl => (linesIn_value hd _ l hl).1) 0
  unfold decodeStream encodeLines encodeJsonValue
  simp only [h1, bind, Except.bind]
  simp only [normalize, encodeValue] at h2
  rw [encodeArray_head_tail] at h2
  obtain ⟨l, ls, rfl, hdp, hc, _⟩ := Proj.cons h2
  rw [← normalizeItems_length items] at hn hs ⊢
  generalize normalizeItems items = items' at *
  obtain ⟨fields, suffix, hform⟩ : ∃ fields suffix,
      arrayHead opts none items' = formatHeader items'.length none fields opts.delim ++ suffix := by
    unfold arrayHead encodeInlineArrayLine
    simp only
    split
    · split
      · exact ⟨none, [], (List.append_nil _).symm⟩
      · exact ⟨none, _, rfl⟩
    · exact ⟨_, [], (List.append_nil _).symm⟩
  unfold decodeLines
  simp only [rootHeader, hc, hform, arrayHeader_none _ fields hd suffix, if_true,
    parseHeader_over hn hs none fields hd suffix, bind, Except.bind]

end

/-- F3.  The rows of a table come back in the order of the columns: equal up to the order of keys, not the
same. -/
theorem C73_reordered : ∃ v : Json B64, DistinctKeys v ∧
    (∃ w, decode defaultDec (encode defaultEnc v) = .ok w ∧ w ≃ v) ∧ decode defaultDec (encode defaultEnc v) ≠ .ok v := by
  have hk := RoundTripExample.distinct
  have hs : Sized RoundTripExample.value := by
    simp [RoundTripExample.value, RoundTripExample.row1, RoundTripExample.row2, Sized, SizedEntries, SizedItems]
  refine ⟨RoundTripExample.value, hk, (C73_survives_same defaultEnc true _ (by decide) (by decide) rfl hk hs).mpr
    ⟨RoundTripExample.writable, RoundTripExample.plain⟩, ?_⟩
  intro h
  have ha := ((C73_survives_exact defaultEnc true _ (by decide) (by decide) rfl hk hs).mp h).2.2
  have ht : IsTable [Json.obj RoundTripExample.row1, .obj RoundTripExample.row2] (RoundTripExample.row1.map Prod.fst) := by
    refine ⟨by simp [RoundTripExample.row1], ⟨_, _, rfl, rfl⟩, fun item hi => ?_⟩
    simp only [List.mem_cons, List.not_mem_nil, or_false] at hi
    rcases hi with rfl | rfl
    · exact ⟨_, rfl, rfl, fun c hc => by
        simp [RoundTripExample.row1] at hc; rcases hc with rfl | rfl <;> exact ⟨_, rfl⟩⟩
    · exact ⟨_, rfl, rfl, fun c hc => by
        simp [RoundTripExample.row1] at hc; rcases hc with rfl | rfl <;> exact ⟨_, rfl⟩⟩
  simp only [RoundTripExample.value, Aligned, AlignedEntries] at ha
  have := ha.1.1 trivial _ ht RoundTripExample.row2 (by simp)
  revert this
  decide

/-- F3.  With a key twice in an object the first value is written twice: the hypothesis that keys are
distinct cannot be dropped. -/
theorem C73_duplicates :
    decode (F := B64) defaultDec (encode defaultEnc
      (Json.arr [.obj [("a".toList, .prim (.bool true)), ("a".toList, .prim .null)]] : Json B64)) =
      .ok (.arr [.obj [("a".toList, .prim (.bool true)), ("a".toList, .prim (.bool true))]]) := by
  have ht : IsTable [Json.obj [("a".toList, .prim (.bool true)), ("a".toList, .prim .null)]] ["a".toList, "a".toList] (F := B64) :=
    ⟨by simp, ⟨_, _, rfl, rfl⟩, fun item hi => ⟨_, List.mem_singleton.mp hi, rfl, fun c hc => by
      simp at hc; rw [hc]; exact ⟨_, rfl⟩⟩⟩
  have hw : Writable true (Json.arr [Json.obj [("a".toList, .prim (.bool true)), ("a".toList, .prim .null)]] : Json B64) := by
    simp only [Writable]
    refine ⟨by decide, fun _ cols h => ?_, Or.inl ⟨trivial, _, ht⟩⟩
    rw [RoundTripExample.cols_of h rfl]
    decide
  have := decode_encode (F := B64) (opts := defaultEnc) (by decide) (by decide) true hw
  rw [show (⟨defaultEnc.indent, true, false⟩ : DecOpts) = defaultDec from rfl] at this
  rw [this]
  simp only [normalize, normalizeItems, normalizeEntries, normPrim, shape]
  rw [shapeArray, if_neg (by decide), header_of_isTable ht]
  rfl

/-- F5.  A declared length of 2^64 is not refused by the cap: the header is read as a key. -/
theorem C73_huge_length :
    decode (F := B64) defaultDec "a[18446744073709551616]: x".toList =
      .ok (.obj [("a[18446744073709551616]".toList, .prim (.str "x".toList))]) ∧
    decode (F := B64) defaultDec "a[18446744073709551615]: x".toList = .error (.lengthCap 18446744073709551615) := by
  constructor <;> decide +kernel

/-- F8.  A key that is itself a dotted path is written without quotes, and path expansion splits it: the
hypothesis of `C23_lossless` that no key is dotted cannot be dropped. -/
theorem C23_dotted_key :
    encode defaultEnc (Json.obj [("a.b".toList, .prim .null)] : Json B64) = "a.b: null".toList ∧
    decode (F := B64) { defaultDec with expand := true } "a.b: null".toList =
      .ok (.obj [("a".toList, .obj [("b".toList, .prim .null)])]) := by
  refine ⟨?_, by decide +kernel⟩
  unfold encode encodeLines encodeJsonValue
  simp only [normalize, normalizeEntries, normPrim, encodeValue]
  rw [encodeObject, encodeEntries, encodeEntries, encodeKeyValue_eq, tryFold_off rfl]
  decide +kernel

/-! ## The hypotheses hold -/

namespace SurviveExample

/-- A value of moderate size with a header-like string deep inside. -/
def lost : Json B64 :=
  .obj [("a".toList, .arr [.obj [("b".toList, .arr [.prim .null]), ("c".toList, .prim (.str "[1]: x".toList))], .prim (.bool true)])]

example : ¬∃ w, decode defaultDec (encode defaultEnc lost) = .ok w ∧ w ≃ lost := by
  intro h
  have := (C73_survives_same defaultEnc true lost (by decide) (by decide) rfl
    (by simp [lost, DistinctKeys, DistinctKeysEntries, DistinctKeysItems])
    (by simp [lost, Sized, SizedEntries, SizedItems])).mp h
  have h1 := this.1
  simp only [lost, Writable, WritableEntries, WritableItems] at h1
  rcases h1.2.1.2.2 with ⟨_, cols, _, _, hc⟩ | hw
  · obtain ⟨es, he, _⟩ := hc (.prim (.bool true)) (by simp)
    simp at he
  · have := hw.1.2.2.1 _ rfl (by decide)
    revert this
    decide

example : ∃ w, decode defaultDec (encode defaultEnc RoundTripExample.value) = .ok w ∧ w ≃ RoundTripExample.value :=
  (C73_survives_same defaultEnc true RoundTripExample.value (by decide) (by decide) rfl RoundTripExample.distinct
    (by simp [RoundTripExample.value, RoundTripExample.row1, RoundTripExample.row2, Sized, SizedEntries, SizedItems])).mpr
    ⟨RoundTripExample.writable, RoundTripExample.plain⟩

end SurviveExample

end Toon
