import Verif.Props.RoundTrip
import Verif.Lemmas.Brace
import Verif.Lemmas.Dec
import Verif.Lemmas.CapHeader

/-!
# C02, C03: where the round trip fails
-/

namespace Toon

section
variable {F : Type} [F64 F] [LawfulF64 F]

/-- C02.  A one-entry object with an unquoted key and a string value comes back after encoding and
decoding if and only if the string does not look like an array header. -/
theorem C02_header_like (opts : EncOpts) (strict : Bool) (k s : Str)
    (hi : 0 < opts.indent) (hd : GoodDelim opts.delim) (hk : bareKey k = true) :
    decode { indent := opts.indent, strict := strict, expand := false }
        (encode opts (.obj [(k, .prim (.str s))] : Json F)) =
      .ok (.obj [(k, .prim (.str s))] : Json F) ↔ headerLike s = false := by
  have hnorm : normalize (.obj [(k, .prim (.str s))] : Json F) = .obj [(k, .prim (.str s))] := by
    simp [normalize, normalizeEntries, normPrim]
  constructor
  · intro h
    apply Bool.eq_false_iff.mpr
    intro hh
    have hk' : isValidUnquotedKey k = true := by rw [← bareKey_eq]; exact hk
    have hval : encodeValue (F := F) opts (.obj [(k, .prim (.str s))]) =
        [⟨0, k ++ ':' :: ' ' :: quoted s⟩] := by
      rw [encodeValue, encodeObject, encodeEntries, encodeEntries, encodeKeyValue_eq, tryFold_prim]
      simp [writeEntry, encodePrimitive, encodeString_headerLike hh, encodeKey_valid hk']
    obtain ⟨lines, h1, h2⟩ := parseLines_render hi strict (encodeValue opts (.obj [(k, .prim (.str s))] : Json F))
      (fun l hl => (linesIn_value hd _ l hl).1) 0
    rw [hval] at h2
    obtain ⟨l, ls, rfl, hdp, hc, hp⟩ := Proj.cons h2
    rw [Proj.nil_iff.mp hp] at h1
    obtain ⟨t, ht, _, hj⟩ := decodeFromLines_tree rfl h
    rw [splitOn_encode hd] at ht
    simp only [encodeLines, hnorm, encodeJsonValue] at ht
    rw [if_neg (by simp [hval]), decodeStream] at ht
    simp only [h1, bind, Except.bind] at ht
    have hkl := keyLine_colon k (' ' :: quoted s)
    rw [encodeKey_valid hk'] at hkl
    rw [decodeLines] at ht
    simp only [rootHeader, hc, hkl.arr, Bool.false_eq_true, if_false, bind, Except.bind, hkl.kvl, Bool.not_true,
      Bool.and_false, List.length_cons, List.length_nil] at ht
    rw [show 5 * (0 + 1) + 5 = 9 + 1 from rfl, decodeKV] at ht
    rcases (parseHeader_quotedValue hk' s).2 hh with ⟨e, he⟩ | ⟨hdr, hp, k', hkey, hcol, hq, _⟩
    · simp [he, bind, Except.bind] at ht
    · simp only [hp, bind, Except.bind, keyedHeader, hkey] at ht
      cases ha : decodeArray (F := F) ⟨strict, []⟩ 9 hdr ⟨[], some l⟩ 0 with
      | error e => simp [ha] at ht
      | ok r =>
        simp only [ha, pure, Except.pure] at ht
        cases hr : rootLoop (F := F) ⟨strict, []⟩ (9 + 1) r.2 with
        | error e => simp [hr] at ht
        | ok r2 =>
          simp only [hr, Except.ok.injEq] at ht
          cases t with
          | prim p => simp [ETree.json] at hj
          | arr n items => simp [ETree.json] at hj
          | obj es =>
            cases es with
            | nil => simp [ETree.json, ETree.jsonEntries] at hj
            | cons x es =>
              obtain ⟨k2, q2, t2⟩ := x
              simp only [ETree.json, ETree.jsonEntries, Json.obj.injEq, List.cons.injEq, Prod.mk.injEq] at hj
              simp only [ETree.events, ETree.eventsEntries, List.cons_append, List.cons.injEq, Ev.key.injEq] at ht
              rw [ht.2.1.1, ← hj.1.1] at hcol
              exact validKey_not_mem hk' (c := ':') (by decide) hcol
  · intro h
    have := decode_encode hi hd strict (v := (.obj [(k, .prim (.str s))] : Json F))
      (by simp [Writable, WritableEntries, h])
    rw [this, hnorm, shape, shapeObject, shapeEntries, shapeEntries, shapeKeyValue_eq, tryFold_prim]
    simp [shapeEntry]

/-- C03.  If some array of the value is written as a table and one of its column names contains `}`,
decoding the encoded text is an error, whatever else the value contains (folding on or off, strict or
lax, with or without path expansion). -/
theorem C03_brace_error (opts : EncOpts) (dopts : DecOpts) (v : Json F)
    (hi : 0 < opts.indent) (hd : GoodDelim opts.delim) (hsame : dopts.indent = opts.indent)
    (hw : WritableButBraces true v) (hx : HasBraceTable true v) :
    decode (F := F) dopts (encode opts v) = .error .unterminatedString := by
  have h := decodeStream_brace hi hd dopts.strict hw hx
  unfold decode
  apply decodeFromLines_error
  rw [hsame, splitOn_encode hd]
  split
  · rename_i he
    rw [he] at h
    simp [decodeStream, parseLines, decodeLines, bind, Except.bind] at h
  · exact h

/-- C03 in the form of an equivalence: among the values without the other two defects, exactly those
without such a table come back. -/
theorem C03_brace_iff (opts : EncOpts) (strict : Bool) (v : Json F)
    (hi : 0 < opts.indent) (hd : GoodDelim opts.delim) (hf : opts.fold = false)
    (hw : WritableButBraces true v) (hk : DistinctKeys v) (hn : PlainNumbers v) :
    (∃ w : Json F, decode { indent := opts.indent, strict := strict, expand := false } (encode opts v) = .ok w ∧ w ≃ v) ↔
      ¬HasBraceTable true v := by
  constructor
  · rintro ⟨w, h, _⟩ hx
    rw [C03_brace_error opts ⟨opts.indent, strict, false⟩ v hi hd rfl hw hx] at h
    simp at h
  · intro hx
    exact C01_round_trip opts strict v hi hd hf ((writable_iff true v).mpr ⟨hw, hx⟩) hk hn

end

/-! ## The hypotheses are satisfiable -/

example : bareKey "note".toList = true ∧ headerLike "see [12] of: y".toList = true ∧
    headerLike "see [x] of: y".toList = false := by decide

/-- What the decoder makes of the header-like string: a different key. -/
example : (decode ⟨2, false, false⟩ "note: \"see [12] of: y\"".toList : Except Err (Json B64)).toOption =
    some (.obj [("note: \"see".toList, .arr [.prim (.str "y\"".toList)])]) := by decide +kernel

namespace BraceExample

def row : Json B64 := .obj [("a}".toList, .prim .null), ("b".toList, .prim (.bool true))]

/-- `{x: [{list: [{"a}": null, b: true}]}, 1]}`: the table is inside a list item. -/
def value : Json B64 := .obj [("x".toList, .arr [.obj [("list".toList, .arr [row])], .prim (.bool true)])]

example : WritableButBraces true value ∧ DistinctKeys value ∧ HasBraceTable true value := by
  refine ⟨?_, ?_, ?_⟩
  · simp [value, row, WritableButBraces, WritableButBracesEntries, WritableButBracesItems]
  · simp [value, row, DistinctKeys, DistinctKeysEntries, DistinctKeysItems]
  · simp only [value, row, HasBraceTable, HasBraceTableEntries, HasBraceTableItems]
    refine Or.inl (Or.inr ⟨?_, Or.inl (Or.inl (Or.inl ⟨trivial, ["a}".toList, "b".toList], ⟨by simp, ⟨_, [], rfl, rfl⟩, ?_⟩,
      "a}".toList, by simp, by decide⟩))⟩)
    · rintro ⟨_, cols, _, ⟨_, _, h, _⟩, h2⟩
      obtain ⟨es, he, _⟩ := h2 (.prim (.bool true)) (by simp)
      cases he
    intro item hi
    simp only [List.mem_singleton] at hi
    refine ⟨_, hi, rfl, ?_⟩
    intro c hc
    simp only [List.mem_cons, List.not_mem_nil, or_false] at hc
    rcases hc with rfl | rfl
    · exact ⟨.null, rfl⟩
    · exact ⟨.bool true, rfl⟩

end BraceExample

end Toon
