import Verif.Lemmas.AsyncDecode
import Verif.Lemmas.AsyncIndent
import Verif.Lemmas.Dec
import Verif.Lemmas.Float64
import Verif.Props.RoundTrip
import Verif.Props.Events

/-!
# Incremental decoding (C34)

What the incremental decode stream yields, poll by poll, against the events of the batch decoder.
-/

namespace Toon

variable {F : Type} [F64 F]

/-- **C34 (every poll returns).**  From every state a poll ends after at most two more loop rounds
than there are lines left. -/
theorem C34_poll_returns (indent : Nat) (strict : Bool) (st : DecodeStream F) (fuel : Nat)
    (hf : st.lines.length + 2 ≤ fuel) :
    DecodeStream.pollLoop indent strict fuel st = some (st.poll indent strict) := by
  obtain ⟨x, hx⟩ := DecodeStream.pollLoop_some (indent := indent) (strict := strict) fuel st hf
  rw [hx, DecodeStream.pollLoop_eq hx]

/-- **C34 (flat objects).**  A document of blank lines and lines `key: primitive` polls exactly the
events of the batch decoder, then `None` for ever. -/
theorem C34_flat (indent : Nat) (strict : Bool) (lines : List Str)
    (h : ∀ l ∈ lines, BlankLine l ∨ FlatLine F indent strict l) :
    ∃ evs : List (Ev F), decodeStream indent strict lines = .ok evs ∧
      Polls (DecodeStream.poll indent strict) (DecodeStream.new lines) (evs.map .ok) := by
  obtain ⟨evs, he⟩ := flatDoc_of h
  exact ⟨_, decodeStream_flat he, polls_initState he 0 []⟩

/-- **C34 (indentation is ignored).**  Flat lines may be indented by any number of levels, in any order:
polling yields the events of the same lines without indentation, and closes the object once. -/
theorem C34_indentation_ignored (indent : Nat) (strict : Bool) (hi : 0 < indent) (lines : List (Nat × Str))
    (h : ∀ l ∈ lines, FlatLine F indent strict l.2) :
    ∃ evs : List (Ev F), decodeStream indent strict (lines.map Prod.snd) = .ok evs ∧
      Polls (DecodeStream.poll indent strict)
        (DecodeStream.new (lines.map fun l => List.replicate (l.1 * indent) ' ' ++ l.2)) (evs.map .ok) := by
  obtain ⟨evs, he, he'⟩ := indentedDoc_of h
  exact ⟨_, decodeStream_flat he', polls_initState_indented hi he 0 []⟩

/-- **C34 (root arrays).**  If the batch decoder accepts the document and it is an array, polling
yields exactly its events, then `None` for ever. -/
theorem C34_root_array (indent : Nat) (strict : Bool) (lines : List Str) (n : Nat) (evs : List (Ev F))
    (h : decodeStream indent strict lines = .ok (.startArr n :: evs)) :
    Polls (DecodeStream.poll indent strict) (DecodeStream.new lines) ((.startArr n :: evs).map .ok) :=
  polls_root_array 0 [] (decodeStream_delete h) (decodeStream_scanOk h) ⟨n, rfl⟩

/-- **C34 (root primitives).**  Likewise if the document is a primitive. -/
theorem C34_root_primitive (indent : Nat) (strict : Bool) (lines : List Str) (p : Prim F)
    (h : decodeStream indent strict lines = .ok [.prim p]) :
    Polls (DecodeStream.poll indent strict) (DecodeStream.new lines) [.ok (.prim p)] :=
  polls_root_prim 0 [] (decodeStream_delete h)

/-- **C34 (nested objects).**  If flat lines are followed by a line `key:`, the stream yields the flat
part without closing it and then all the events of a second document, the rest of the lines. -/
theorem C34_nested (indent : Nat) (strict : Bool) (pre post : List Str) (k ws : Str) (evs1 : List (Ev F))
    (hpre : ∀ l ∈ pre, BlankLine l ∨ FlatLine F indent strict l) (hw : BlankLine ws)
    (h : decodeStream indent strict ((encodeKey k ++ ':' :: ws) :: post) = .ok evs1) :
    ∃ evs0 : List (Ev F), decodeStream indent strict pre = .ok (.startObj :: evs0 ++ [.endObj]) ∧
      Polls (DecodeStream.poll indent strict) (DecodeStream.new (pre ++ (encodeKey k ++ ':' :: ws) :: post))
        ((.startObj :: evs0 ++ evs1).map .ok) := by
  obtain ⟨evs, he⟩ := flatDoc_of hpre
  have hb : ¬ BlankLine (encodeKey k ++ ':' :: ws) := by
    intro hb; have := hb ':' (by simp); revert this; decide
  have h' := decodeStream_delete h
  rw [show deleteBlank ((encodeKey k ++ ':' :: ws) :: post) = (encodeKey k ++ ':' :: ws) :: deleteBlank post by
    simp [deleteBlank, hb]] at h'
  exact ⟨evs, decodeStream_flat he,
    polls_nested (trim_eq_nil.mpr hw) he (fun l hl => decodeStream_scanOk h l (List.mem_cons_of_mem _ hl)) h' 0 []⟩

variable [LawfulF64 F]

/-- **C34 (nested objects, disagreement).**  On such a document the stream never yields the events of
the batch decoder, whatever those are. -/
theorem C34_nested_differs (indent : Nat) (strict : Bool) (pre post : List Str) (k ws : Str) (evs1 : List (Ev F))
    (hpre : ∀ l ∈ pre, BlankLine l ∨ FlatLine F indent strict l) (hw : BlankLine ws)
    (h : decodeStream indent strict ((encodeKey k ++ ':' :: ws) :: post) = .ok evs1)
    (lines : List Str) (evs : List (Ev F)) (hd : decodeStream indent strict lines = .ok evs) :
    ¬ Polls (DecodeStream.poll indent strict) (DecodeStream.new (pre ++ (encodeKey k ++ ':' :: ws) :: post))
        (evs.map .ok) := by
  intro hp
  obtain ⟨evs0, h0, hp'⟩ := C34_nested indent strict pre post k ws evs1 hpre hw h
  obtain ⟨t, rfl, _⟩ := decodeStream_tree hd
  obtain ⟨t1, rfl, _⟩ := decodeStream_tree h
  obtain ⟨t0, h0', _⟩ := decodeStream_tree h0
  have e0 : evBalance evs0 = 0 := by
    have := evBalance_tree t0
    rw [← h0'] at this
    simp only [List.cons_append, evBalance, evBalance_append] at this
    omega
  have heq := polls_unique hp hp'
  have : t.events = .startObj :: evs0 ++ t1.events := by
    rw [← List.map_inj_right (f := Except.ok) (fun a b h => by injection h)]
    exact heq
  have hbal := evBalance_tree t
  rw [this] at hbal
  simp only [List.cons_append, evBalance, evBalance_append, e0, evBalance_tree t1] at hbal
  omega

/-- **C34 (encoded values).**  The incremental decoder reads what the encoder writes, if the value is
a primitive, an array, or an object of primitives. -/
theorem C34_encoded (opts : EncOpts) (strict : Bool) (v : Json F)
    (hi : 0 < opts.indent) (hd : GoodDelim opts.delim) (hf : opts.fold = false)
    (hw : Writable true v) (hk : DistinctKeys v) (ha : Aligned true v)
    (hv : ∀ es, v = .obj es → ∀ e ∈ es, ∃ p, e.2 = .prim p) :
    Polls (DecodeStream.poll opts.indent strict) (DecodeStream.new (encodeLines opts v))
      ((encodeStreamEvents v).map .ok) := by
  have hs : decodeStream opts.indent strict (encodeLines opts v) = .ok (encodeStreamEvents v) := by
    rw [decodeStream_encodeLines hi hd strict hw, encodeStreamEvents,
      shape_eq hf ((distinct_normalize v).mpr hk) ((aligned_normalize true v).mpr ha)]
  match v, hv with
  | .prim p, _ =>
    exact C34_root_primitive _ _ _ _ (by simpa only [encodeStreamEvents, normalize, emitEvents] using hs)
  | .arr items, _ =>
    simp only [encodeStreamEvents, normalize, emitEvents, List.cons_append] at hs ⊢
    exact C34_root_array _ _ _ _ _ hs
  | .obj es, hv =>
    obtain ⟨evs, h1, h2⟩ := C34_flat (F := F) opts.indent strict (encodeLines opts (.obj es)) (by
      intro l hl
      refine .inr (flatLine_encoded hd ?_ (hv es rfl) hl)
      simpa only [Writable] using hw)
    rw [hs] at h1
    cases h1
    exact h2

omit [LawfulF64 F] in
/-- **C34 (batch functions).**  `try_decode_async` gives the result of `try_decode`, and `try_decode_stream_async` that of
`try_decode_stream`, with every combination of options. -/
theorem C34_batch (opts : DecOpts) (input : Str) (indent : Nat) (strict : Bool) (lines : List Str) :
    decodeAsync (F := F) opts input = decode opts input ∧
    decodeStreamAsync (F := F) indent strict lines = decodeStream indent strict lines := ⟨rfl, rfl⟩

/-! ## What the full claim would need, and where the code breaks it

The two decoders do not agree on all documents; one witness for each way. -/

/-- The two decoders agree on every document the batch decoder accepts. -/
def AsyncAgrees (F : Type) [F64 F] : Prop :=
  ∀ (indent : Nat) (strict : Bool) (lines : List Str) (evs : List (Ev F)),
    decodeStream indent strict lines = .ok evs →
      Polls (DecodeStream.poll indent strict) (DecodeStream.new lines) (evs.map .ok)

/-- **C34 (full agreement is false).** -/
theorem C34_not_full : ¬ AsyncAgrees B64 := by
  intro h
  have hd : decodeStream (F := B64) 2 true ["a:".toList, "  b: x".toList] =
      .ok [.startObj, .key "a".toList false, .startObj, .key "b".toList false,
        .prim (.str "x".toList), .endObj, .endObj] := by decide +kernel
  exact C34_nested_differs (F := B64) 2 true [] ["  b: x".toList] "a".toList [] _ (by simp) (by simp [BlankLine]) hd
    _ _ hd (h _ _ _ _ hd)

private def run (strict : Bool) (n : Nat) (lines : List String) : List (Option (Except Err (Ev B64))) :=
  pollN (DecodeStream.poll 2 strict) n (DecodeStream.new (lines.map String.toList))

/-- An inline array in an object becomes a string under a key that contains the brackets. -/
theorem C34_inline_array : run true 5 ["a[2]: 1,2"] =
    [some (.ok .startObj), some (.ok (.key "a[2]".toList false)), some (.ok (.prim (.str "1,2".toList))),
      some (.ok .endObj), none] ∧
    (decode (F := B64) ⟨2, true, false⟩ "a[2]: x,y".toList =
      .ok (.obj [("a".toList, .arr [.prim (.str "x".toList), .prim (.str "y".toList)])])) := by decide +kernel

/-- A nested object: two start events, and only one end event for each level but the root. -/
theorem C34_nested_twice : run true 9 ["a:", "  b: x"] =
    [some (.ok .startObj), some (.ok .startObj), some (.ok (.key "a".toList false)), some (.ok .startObj),
      some (.ok (.key "b".toList false)), some (.ok (.prim (.str "x".toList))), some (.ok .endObj),
      some (.ok .endObj), none] := by decide +kernel

/-- A blank line inside an array is accepted in strict mode. -/
theorem C34_blank_accepted : run true 5 ["[2]:", "  - x", "", "  - y"] =
      [some (.ok (.startArr 2)), some (.ok (.prim (.str "x".toList))), some (.ok (.prim (.str "y".toList))),
        some (.ok .endArr), none] ∧
    decode (F := B64) ⟨2, true, false⟩ "[2]:\n  - x\n\n  - y".toList = .error (.blankLine 3 false) := by decide +kernel

/-- Two bare words: the first is a root value and the second is not looked at. -/
theorem C34_second_line_ignored : run true 3 ["hello", "world"] =
      [some (.ok (.prim (.str "hello".toList))), none, none] ∧
    decode (F := B64) ⟨2, true, false⟩ "hello\nworld".toList = .error .missingColon := by decide +kernel

/-- A line that is indented too far is an entry of the root object; the batch decoder stops there. -/
theorem C34_misindented : run true 7 ["a: x", "  b: y"] =
      [some (.ok .startObj), some (.ok (.key "a".toList false)), some (.ok (.prim (.str "x".toList))),
        some (.ok (.key "b".toList false)), some (.ok (.prim (.str "y".toList))), some (.ok .endObj), none] ∧
    decode (F := B64) ⟨2, true, false⟩ "a: x\n  b: y".toList =
      .ok (.obj [("a".toList, .prim (.str "x".toList))]) := by decide +kernel

/-- The same with a dedent: one object, closed once. -/
example : run true 9 ["a: x", "    b: y", "  c: z", "d: w"] =
      [some (.ok .startObj), some (.ok (.key "a".toList false)), some (.ok (.prim (.str "x".toList))),
        some (.ok (.key "b".toList false)), some (.ok (.prim (.str "y".toList))),
        some (.ok (.key "c".toList false)), some (.ok (.prim (.str "z".toList))),
        some (.ok (.key "d".toList false)), some (.ok (.prim (.str "w".toList)))] := by decide +kernel

/-- After an error in a flat line the stream goes on with the next line; the key is emitted without
a value. -/
theorem C34_continues_after_error : run true 8 ["a: x", "b: \"y", "c: z"] =
    [some (.ok .startObj), some (.ok (.key "a".toList false)), some (.ok (.prim (.str "x".toList))),
      some (.error .unterminatedString), some (.ok (.key "b".toList false)), some (.ok (.key "c".toList false)),
      some (.ok (.prim (.str "z".toList))), some (.ok .endObj)] := by decide +kernel

section
variable {F : Type} [F64 F]

/-- **C34 (errors for ever).**  If the first non-blank line is an array header, all lines scan and the
batch decoder rejects the lines, then every poll gives the same error: the stream never ends. -/
theorem C34_error_forever (indent : Nat) (strict : Bool) (lines : List Str) (first rest : Str) (h : Header) (e : Err)
    (hf : (deleteBlank lines).head? = some first) (hn : first = '[' :: rest)
    (hh : rootHeader first = .ok (some h))
    (hs : ∀ l ∈ lines, ∀ n, ∃ sc, parseLine l n indent strict = .ok sc)
    (hd : decodeStream (F := F) indent strict (deleteBlank lines) = .error e) (n : Nat) :
    pollN (DecodeStream.poll (F := F) indent strict) n (DecodeStream.new lines) =
      List.replicate n (some (.error e)) := by
  refine error_root_array (F := F) hf ⟨first, ?_, ?_⟩ 0 [] hd hs n
  · subst hn
    intro m
    obtain ⟨sc, hsc⟩ := hs ('[' :: rest) (by
      have : '[' :: rest ∈ deleteBlank lines := List.mem_of_mem_head? (by rw [hf]; rfl)
      exact (List.mem_filter.mp this).1) m
    refine ⟨0, ?_⟩
    have hb : ¬ BlankLine ('[' :: rest) := fun hb => by have := hb '[' (by simp); revert this; decide
    have hb' := fun h => hb ((blankLine_iff _).mp h)
    unfold parseLine
    simp only [List.takeWhile_cons] at hb' ⊢
    simp at hb' ⊢
    simp [computeDepth, hb']
  · subst hn
    unfold asyncHeader
    unfold rootHeader at hh
    split at hh
    · rename_i hi; rw [if_pos hi, hh]; rfl
    · simp at hh
end

/-- A strict root array with too few values. -/
example : run true 4 ["[2]: x"] = List.replicate 4 (some (.error (.countMismatch 2 .inlineItems 1))) := by decide +kernel

/-! Cases for the hypotheses. -/

example : ∀ l ∈ ["a: x".toList, "".toList, "\"b c\": y".toList], BlankLine l ∨ FlatLine B64 2 true l := by
  intro l hl
  simp only [List.mem_cons, List.not_mem_nil, or_false] at hl
  rcases hl with rfl | rfl | rfl
  · exact .inr ⟨"a".toList, " x".toList, by decide +kernel, false, .str "x".toList, by decide +kernel⟩
  · exact .inl (by decide)
  · exact .inr ⟨"b c".toList, " y".toList, by decide +kernel, true, .str "y".toList, by decide +kernel⟩

example : decodeStream (F := B64) 2 true ["".toList, "[2]:".toList, "  - x".toList, "  - b:".toList] =
    .ok (.startArr 2 :: [.prim (.str "x".toList), .startObj, .key "b".toList false, .startObj, .endObj, .endObj,
      .endArr]) := by decide +kernel

example : decodeStream (F := B64) 2 true ["".toList, "hello world".toList] =
    .ok [.prim (.str "hello world".toList)] := by decide +kernel

end Toon
