import Verif.Spec.Options
import Verif.Lemmas.Unlimited
import Verif.Lemmas.Dec
import Verif.Lemmas.Float64
import Verif.Lemmas.JsonFloat64
import Verif.Props.Host

/-! # C55: omitted and misspelled options -/

namespace Toon

section
variable {F : Type} [F64 F]

/-- C55.  The flatten depth is a limit on the nesting: any two limits that the value does not exceed give the same text. -/
theorem C55_unlimited (opts : EncOpts) (d : Nat) (v : Json F) (h : height v ≤ opts.flattenDepth) (h' : height v ≤ d) :
    encode { opts with flattenDepth := d } v = encode opts v := by
  unfold encode
  rw [← encodeLines_enough opts d v h h']

/-- C55, encoding.  Omitting options (or all of them) gives the text of the options spelled out, where any number not
below the nesting of the value spells out the unlimited flatten depth. -/
theorem C55_encode_defaults (options : Option EncodeOptions) (unlimited : Nat) (v : Json F) (h : height v ≤ unlimited)
    (h64 : height v < 2 ^ 64) :
    encodeWith options v = encodeWith (some (spelledEncode (options.getD ⟨none, none, none, none⟩) unlimited)) v := by
  unfold encodeWith resolveEncodeOptions spelledEncode
  generalize options.getD ⟨none, none, none, none⟩ = o
  obtain ⟨i, d, f, n⟩ := o
  have key := C55_unlimited (F := F) ⟨i.getD 2, d.getD ',', f.getD false, 2 ^ 64 - 1⟩ unlimited v
    (by simp only; omega) h
  cases i <;> cases d <;> cases f <;> cases n <;> first
    | rfl
    | exact key.symm

/-- C55, encoding.  Given options are obeyed: they are the ones of the encoder of C01-C53. -/
theorem C55_encode_given (indent : Nat) (delim : Char) (fold : Bool) (depth : Nat) (v : Json F) :
    encodeWith (some ⟨some indent, some delim, some fold, some depth⟩) v = encode ⟨indent, delim, fold, depth⟩ v := rfl

/-- C55, decoding. -/
theorem C55_decode_defaults (options : Option DecodeOptions) (text : Str) :
    tryDecode F text options = tryDecode F text (some (spelledDecode (options.getD ⟨none, none, none⟩))) := by
  unfold tryDecode resolveDecodeOptions spelledDecode
  generalize options.getD ⟨none, none, none⟩ = o
  obtain ⟨i, s, e⟩ := o
  cases i <;> cases s <;> cases e <;> rfl

theorem C55_decode_given (indent : Nat) (strict expand : Bool) (text : Str) :
    tryDecode F text (some ⟨some indent, some strict, some expand⟩) = decode ⟨indent, strict, expand⟩ text := rfl

/-- C55, decoding to events: the same defaults as decoding to a value. -/
theorem C55_stream_defaults (options : Option DecodeOptions) (hx : ∀ o, options = some o → o.expandPaths ≠ some true)
    (lines : List Str) (events : List (Ev F))
    (h : tryDecodeStream F lines (options.map fun o => ⟨o.indent, o.strict⟩) = .ok events) :
    decodeFromLines (resolveDecodeOptions options) lines =
      (buildNode events).map nodeToJson := by
  have hs : decodeStream (F := F) (resolveDecodeOptions options).indent (resolveDecodeOptions options).strict lines = .ok events := by
    rw [← h]
    cases options with
    | none => rfl
    | some o => rfl
  have he : (resolveDecodeOptions options).expand = false := by
    cases options with
    | none => rfl
    | some o =>
      have := hx o rfl
      obtain ⟨i, s, e⟩ := o
      cases e with
      | none => rfl
      | some b => cases b with
        | false => rfl
        | true => exact absurd rfl this
  unfold decodeFromLines
  rw [hs, he]
  cases hb : buildNode events <;>
    simp [bind, Except.bind, pure, Except.pure, Except.map, hb]

end

/-! ## JavaScript -/

section
variable {F : Type} [F64 F] [JsonNum F]

/-- C55, JavaScript.  Options `undefined`, `null` and an object whose properties are all not understood mean the
defaults. -/
theorem C55_js_encode_defaults (rd : Str → Option F) (cast : F → Nat) (json : Str) (options : JsOptions F)
    (h : options = .undefined ∨ options = .null ∨ ∃ get, options = .object get ∧ ∀ name, ¬ Understood name (get name)) :
    encodeWithOptions rd cast json options = jsonToToon rd json := by
  have hp : ∃ o, parseEncodeOptions cast options = .ok o ∧ resolveEncodeOptions o = defaultEnc := by
    rcases h with rfl | rfl | ⟨get, rfl, h⟩
    · exact ⟨_, rfl, rfl⟩
    · exact ⟨_, rfl, rfl⟩
    · refine ⟨_, rfl, ?_⟩
      have h1 := h "indent".toList
      have h2 := h "delimiter".toList
      have h3 := h "keyFolding".toList
      have h4 := h "flattenDepth".toList
      generalize get "indent".toList = v1 at *
      generalize get "delimiter".toList = v2 at *
      generalize get "keyFolding".toList = v3 at *
      generalize get "flattenDepth".toList = v4 at *
      have e1 : v1.asF64 = none := by
        cases v1 <;> first | rfl | exact absurd (Or.inl ⟨Or.inl rfl, _, rfl⟩) h1
      have e4 : v4.asF64 = none := by
        cases v4 <;> first | rfl | exact absurd (Or.inl ⟨Or.inr rfl, _, rfl⟩) h4
      have e2 : v2.asString.bind (·.head?) = none := by
        cases v2 with
        | str s =>
          cases s with
          | nil => rfl
          | cons c s => exact absurd (Or.inr (Or.inl ⟨rfl, c, s, rfl⟩)) h2
        | _ => rfl
      have e3 : v3.asString.bind parseMode = none := by
        cases v3 with
        | str s =>
          simp only [JsValue.asString, Option.bind_some, parseMode]
          rw [if_neg, if_neg]
          · rintro rfl; exact h3 (Or.inr (Or.inr (Or.inl ⟨Or.inl rfl, Or.inr rfl⟩)))
          · rintro rfl; exact h3 (Or.inr (Or.inr (Or.inl ⟨Or.inl rfl, Or.inl rfl⟩)))
        | _ => rfl
      rw [e1, e2, e3, e4]
      rfl
  obtain ⟨o, h1, h2⟩ := hp
  unfold encodeWithOptions jsonToToon encodeWith
  rw [h1]
  cases hostFromStr rd json with
  | error e => rfl
  | ok v => simp only [h2]

theorem C55_js_decode_defaults (cast : F → Nat) (toon : Str) (options : JsOptions F)
    (h : options = .undefined ∨ options = .null ∨ ∃ get, options = .object get ∧ ∀ name, ¬ Understood name (get name)) :
    decodeWithOptions cast toon options = toonToJson F toon := by
  have hp : ∃ o, parseDecodeOptions cast options = .ok o ∧ resolveDecodeOptions o = defaultDec := by
    rcases h with rfl | rfl | ⟨get, rfl, h⟩
    · exact ⟨_, rfl, rfl⟩
    · exact ⟨_, rfl, rfl⟩
    · refine ⟨_, rfl, ?_⟩
      have h1 := h "indent".toList
      have h2 := h "strict".toList
      have h3 := h "expandPaths".toList
      generalize get "indent".toList = v1 at *
      generalize get "strict".toList = v2 at *
      generalize get "expandPaths".toList = v3 at *
      have e1 : v1.asF64 = none := by
        cases v1 <;> first | rfl | exact absurd (Or.inl ⟨Or.inl rfl, _, rfl⟩) h1
      have e2 : v2.asBool = none := by
        cases v2 <;> first | rfl | exact absurd (Or.inr (Or.inr (Or.inr ⟨rfl, _, rfl⟩))) h2
      have e3 : v3.asString.bind parseMode = none := by
        cases v3 with
        | str s =>
          simp only [JsValue.asString, Option.bind_some, parseMode]
          rw [if_neg, if_neg]
          · rintro rfl; exact h3 (Or.inr (Or.inr (Or.inl ⟨Or.inr rfl, Or.inr rfl⟩)))
          · rintro rfl; exact h3 (Or.inr (Or.inr (Or.inl ⟨Or.inr rfl, Or.inl rfl⟩)))
        | _ => rfl
      rw [e1, e2, e3]
      rfl
  obtain ⟨o, h1, h2⟩ := hp
  unfold decodeWithOptions toonToJson tryDecode
  rw [h1]
  simp only [h2]
  rfl

/-- C55, JavaScript.  The options that are understood have the effect of the Rust options. -/
theorem C55_js_given (rd : Str → Option F) (cast : F → Nat) (json toon : Str) (get : Str → JsValue F) (x y : F) (c : Char)
    (s : Str) (fold expand strict : Bool) (hi : get "indent".toList = .num x) (hd : get "delimiter".toList = .str (c :: s))
    (hk : get "keyFolding".toList = .str (if fold then "safe".toList else "off".toList))
    (hf : get "flattenDepth".toList = .num y) (hs : get "strict".toList = .bool strict)
    (he : get "expandPaths".toList = .str (if expand then "safe".toList else "off".toList)) :
    encodeWithOptions rd cast json (.object get) =
      (hostFromStr rd json).map (fun v => encode ⟨cast x, c, fold, cast y⟩ (fromHost v)) ∧
    decodeWithOptions cast toon (.object get) =
      (decode ⟨cast x, strict, expand⟩ toon).map (fun v : Json F => serdeWrite false 0 (toHost v)) := by
  have hm : ∀ b : Bool, parseMode (if b then "safe".toList else "off".toList) = some b := by decide
  constructor
  · unfold encodeWithOptions encodeWith parseEncodeOptions
    dsimp only
    rw [hi, hd, hk, hf]
    simp only [JsValue.asString, JsValue.asF64, Option.bind_some, hm]
    cases hostFromStr rd json <;> rfl
  · unfold decodeWithOptions tryDecode parseDecodeOptions
    dsimp only
    rw [hi, hs, he]
    simp only [JsValue.asString, JsValue.asF64, JsValue.asBool, Option.bind_some, hm, Option.map_some, resolveDecodeOptions,
      Option.getD_some]
    cases decode (F := F) ⟨cast x, strict, expand⟩ toon <;> rfl

/-- C55, JavaScript.  Anything else than an object is an error. -/
theorem C55_js_not_object (rd : Str → Option F) (cast : F → Nat) (json toon : Str) :
    (∀ v, hostFromStr rd json = .ok v → encodeWithOptions rd cast json .other = .error .badOptions) ∧
    decodeWithOptions (F := F) cast toon .other = .error .badOptions := by
  constructor
  · intro v hv
    unfold encodeWithOptions
    rw [hv]
    rfl
  · rfl

end

/-! Cases. -/

namespace OptionsExample

/-- A mistyped mode name, a number given as a text, an empty delimiter. -/
def get (name : Str) : JsValue B64 :=
  if name = "indent".toList then .str "4".toList
  else if name = "delimiter".toList then .str []
  else if name = "keyFolding".toList then .str "Safe".toList
  else if name = "strict".toList then .null
  else .undefined

theorem not_understood (name : Str) : ¬ Understood name (get name) := by
  unfold Understood get
  rintro (⟨h, x, hx⟩ | ⟨h, c, s, hx⟩ | ⟨h, hx⟩ | ⟨h, b, hx⟩)
  · rcases h with rfl | rfl
    · rw [if_pos rfl] at hx; cases hx
    · rw [if_neg (by decide), if_neg (by decide), if_neg (by decide), if_neg (by decide)] at hx; cases hx
  · subst h
    rw [if_neg (by decide), if_pos rfl] at hx; cases hx
  · rcases h with rfl | rfl
    · rw [if_neg (by decide), if_neg (by decide), if_pos rfl] at hx
      rcases hx with hx | hx
      · exact absurd (JsValue.str.inj hx) (by decide)
      · exact absurd (JsValue.str.inj hx) (by decide)
    · rw [if_neg (by decide), if_neg (by decide), if_neg (by decide), if_neg (by decide)] at hx
      rcases hx with hx | hx <;> cases hx
  · subst h
    rw [if_neg (by decide), if_neg (by decide), if_neg (by decide), if_pos rfl] at hx; cases hx

example (rd : Str → Option B64) (cast : B64 → Nat) (json : Str) :
    encodeWithOptions rd cast json (.object get) = jsonToToon rd json :=
  C55_js_encode_defaults rd cast json _ (Or.inr (Or.inr ⟨get, rfl, not_understood⟩))

/-- Three nested objects: with folding the limits 3, 4 and none are the same. -/
def nested : Json B64 := .obj [(['a'], .obj [(['b'], .obj [(['c'], .prim .null)])])]

example : encodeWith (some ⟨some 2, none, some true, none⟩) nested = encodeWith (some ⟨some 2, some ',', some true, some 3⟩) nested :=
  C55_encode_defaults _ 3 _ (by decide +kernel) (by decide +kernel)

/-- A limit below the nesting matters. -/
example : encodeWith (some ⟨some 2, some ',', some true, some 3⟩) nested ≠ encodeWith (some ⟨some 2, some ',', some true, some 2⟩) nested := by
  have h : isIdStart 'a' = true ∧ isIdStart 'b' = true ∧ isIdStart 'c' = true := by decide
  have h2 : encodeKey "a.b.c".toList = "a.b.c".toList ∧ encodeKey "a.b".toList = "a.b".toList ∧ encodeKey "c".toList = ['c'] := by decide
  simp at h2
  simp [h, h2, encodePrimitive, encodeWith, resolveEncodeOptions, encode, encodeLines, encodeJsonValue, nested, normalize, normalizeEntries, normPrim, encodeValue,
    encodeObject, encodeEntries, encodeKeyValue_eq, tryFold, collectChain, Json.isObj, isIdentifierSegment, rootLiterals,
    writeEntry, joinWith, renderLine, extendPath]

end OptionsExample

end Toon
