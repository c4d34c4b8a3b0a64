import Verif.Lemmas.Mark
import Verif.Props.Grammar
import Verif.Model.Cli
import Verif.Lemmas.Float64
import Verif.Lemmas.Dec

/-!
# C89: a byte order mark is data

A text that begins with the character U+FEFF, as some editors write it, is accepted, and the mark becomes part of the
value: of the first key, of the string, or it turns an array into an object.  As JSON such a text is rejected.
-/

namespace Toon

section
variable {F : Type} [F64 F] [LawfulF64 F]

private theorem marked_tree (indent : Nat) (strict : Bool) (text : Str) (t : ETree F)
    (h : TextMeans indent strict (splitOn '\n' (byteOrderMark :: text)) t) :
    (∃ s, t = .prim (.str (byteOrderMark :: s))) ∨ ∃ k q t₁ es, t = .obj ((byteOrderMark :: k, q, t₁) :: es) := by
  obtain ⟨w, ws, h1, h2⟩ := splitOn_cons_ne (bom_ne (c := '\n') (by decide)) text
  rw [h2] at h
  obtain ⟨lines, blanks, rest', h3, h4⟩ := h
  obtain ⟨ls, rfl, _⟩ := (scansTo_visible bom_ws).mp h3
  rcases document_marked h4 with h5 | h5
  · exact .inl ⟨_, h5⟩
  · exact .inr h5

/-- C89.  Whatever follows the mark: if the text is accepted, the mark is the first character of the string or of the
object's first key. -/
theorem C89_visible (opts : DecOpts) (text : Str) (v : Json F) (h : decode opts (byteOrderMark :: text) = .ok v) :
    (∃ s, v = .prim (.str (byteOrderMark :: s))) ∨ ∃ k w es, v = .obj ((byteOrderMark :: k, w) :: es) := by
  cases hx : opts.expand with
  | false =>
    obtain ⟨t, ht, rfl⟩ := (C58_value opts hx _ v).mp h
    rcases marked_tree _ _ _ _ ht with ⟨s, rfl⟩ | ⟨k, q, t₁, es, rfl⟩
    · exact .inl ⟨s, by rw [ETree.json]⟩
    · exact .inr ⟨k, t₁.json, ETree.jsonEntries es, by rw [ETree.json, ETree.jsonEntries]⟩
  | true =>
    obtain ⟨t, ht, rfl, _⟩ := C58_expanded opts hx _ v h
    rcases marked_tree _ _ _ _ ht with ⟨s, rfl⟩ | ⟨k, q, t₁, es, rfl⟩
    · exact .inl ⟨s, by rw [expanded]⟩
    · obtain ⟨w, ws, hw⟩ := expanded_marked k q t₁ es
      exact .inr ⟨k, w, ws, hw⟩

/-- C89.  An object: exactly the first key changes, by the mark before it, and with the mark the text is accepted as an
object exactly if it is without. -/
theorem C89_object (opts : DecOpts) (hx : opts.expand = false) (c : Char) (text : Str) (hc : isWs c = false)
    (hn : c ∉ ['"', '[', ':']) (k : Str) (v : Json F) (es : List (Str × Json F)) :
    decode opts (byteOrderMark :: c :: text) = .ok (.obj ((byteOrderMark :: k, v) :: es)) ↔
      decode opts (c :: text) = .ok (.obj ((k, v) :: es)) := by
  simp only [List.mem_cons, List.not_mem_nil, or_false, not_or] at hn
  obtain ⟨hq, hb, hcol⟩ := hn
  have hnl : c ≠ '\n' := by rintro rfl; revert hc; decide
  obtain ⟨w, ws, h1, h2⟩ := splitOn_cons_ne hnl text
  obtain ⟨w', ws', h1', h3⟩ := splitOn_cons_ne (bom_ne (c := '\n') (by decide)) (c :: text)
  rw [h2] at h1'
  obtain ⟨rfl, rfl⟩ := List.cons.inj h1'
  have key : ∀ k' q t es', TextMeans (F := F) opts.indent opts.strict (splitOn '\n' (byteOrderMark :: c :: text))
        (.obj ((byteOrderMark :: k', q, t) :: es')) ↔
      TextMeans opts.indent opts.strict (splitOn '\n' (c :: text)) (.obj ((k', q, t) :: es')) := by
    intro k' q t es'
    rw [h3, h2]
    constructor
    · rintro ⟨lines, blanks, rest', h4, h5⟩
      obtain ⟨ls, rfl, h6⟩ := (scansTo_visible bom_ws).mp h4
      exact ⟨_, blanks, rest', (scansTo_visible hc).mpr ⟨ls, rfl, h6⟩, (document_object_mark hc hq hb hcol).mp h5⟩
    · rintro ⟨lines, blanks, rest', h4, h5⟩
      obtain ⟨ls, rfl, h6⟩ := (scansTo_visible hc).mp h4
      exact ⟨_, blanks, rest', (scansTo_visible bom_ws).mpr ⟨ls, rfl, h6⟩, (document_object_mark hc hq hb hcol).mpr h5⟩
  have shape : ∀ (k' : Str) (t : ETree F), Json.obj ((k', v) :: es) = t.json →
      ∃ q t₁ es', t = .obj ((k', q, t₁) :: es') ∧ v = t₁.json ∧ es = ETree.jsonEntries es' := by
    intro k' t ht
    cases t with
    | prim p => simp [ETree.json] at ht
    | arr n ts => simp [ETree.json] at ht
    | obj es' =>
      cases es' with
      | nil => simp [ETree.json, ETree.jsonEntries] at ht
      | cons e es' =>
        obtain ⟨k'', q, t₁⟩ := e
        simp [ETree.json, ETree.jsonEntries] at ht
        obtain ⟨⟨rfl, rfl⟩, rfl⟩ := ht
        exact ⟨q, t₁, es', rfl, rfl, rfl⟩
  rw [C58_value opts hx, C58_value opts hx]
  constructor
  · rintro ⟨t, ht, he⟩
    obtain ⟨q, t₁, es', rfl, rfl, rfl⟩ := shape _ _ he
    exact ⟨_, (key _ _ _ _).mp ht, by simp [ETree.json, ETree.jsonEntries]⟩
  · rintro ⟨t, ht, he⟩
    obtain ⟨q, t₁, es', rfl, rfl, rfl⟩ := shape _ _ he
    exact ⟨_, (key _ _ _ _).mpr ht, by simp [ETree.json, ETree.jsonEntries]⟩

/-- C89.  A lone number, boolean, null or unquoted string becomes a string: the mark and the line. -/
theorem C89_scalar (opts : DecOpts) (hx : opts.expand = false) (c : Char) (text : Str) (hc : isWs c = false) (hq : c ≠ '"')
    (p : Prim F) (h : decode opts (c :: text) = .ok (.prim p)) :
    decode (F := F) opts (byteOrderMark :: c :: text) = .ok (.prim (.str (byteOrderMark :: trim (c :: text)))) := by
  have hnl : c ≠ '\n' := by rintro rfl; revert hc; decide
  obtain ⟨w, ws, h1, h2⟩ := splitOn_cons_ne hnl text
  obtain ⟨w', ws', h1', h3⟩ := splitOn_cons_ne (bom_ne (c := '\n') (by decide)) (c :: text)
  rw [h2] at h1'
  obtain ⟨rfl, rfl⟩ := List.cons.inj h1'
  rw [C58_value opts hx] at h ⊢
  obtain ⟨t, ⟨lines, blanks, rest', h4, h5⟩, he⟩ := h
  cases t with
  | arr n ts => simp [ETree.json] at he
  | obj es => simp [ETree.json] at he
  | prim p' =>
    rw [h2] at h4
    obtain ⟨ls, rfl, h6⟩ := (scansTo_visible hc).mp h4
    refine ⟨_, ⟨_, blanks, rest', by rw [h3]; exact (scansTo_visible bom_ws).mpr ⟨ls, rfl, h6⟩, document_prim_mark hc hq h5⟩, ?_⟩
    rw [ETree.json]
    have hl : ls = [] := by
      cases h5 with
      | array _ _ _ h => cases h
      | prim _ _ => rfl
    obtain ⟨r, hr1, hr2⟩ := splitOn_blank_rest (c :: text) _ _ h2 (scansTo_nil_blank h6 hl)
    have : trim (c :: text) = trim (c :: w) := by
      rw [trim_cons_visible hc, trim_cons_visible hc, (List.cons.inj hr1).2]
      exact congrArg _ (trimEnd_all_ws hr2 w)
    rw [this]

/-- C89.  An array becomes an object with the mark as its only key. -/
theorem C89_array (opts : DecOpts) (hx : opts.expand = false) (hi : 0 < opts.indent) (text : Str) (items : List (Json F))
    (hr : RestIndented opts.indent (splitOn '\n' ('[' :: text))) (h : decode opts ('[' :: text) = .ok (.arr items)) :
    decode opts (byteOrderMark :: '[' :: text) = .ok (.obj [([byteOrderMark], .arr items)]) := by
  have hc : isWs '[' = false := by decide
  obtain ⟨w, ws, h1, h2⟩ := splitOn_cons_ne (c := '\n') (x := '[') (by decide) text
  obtain ⟨w', ws', h1', h3⟩ := splitOn_cons_ne (bom_ne (c := '\n') (by decide)) ('[' :: text)
  rw [h2] at h1'
  obtain ⟨rfl, rfl⟩ := List.cons.inj h1'
  rw [C58_value opts hx] at h ⊢
  obtain ⟨t, ⟨lines, blanks, rest', h4, h5⟩, he⟩ := h
  cases t with
  | prim p => simp [ETree.json] at he
  | obj es => simp [ETree.json] at he
  | arr n ts =>
    rw [h2] at h4 hr
    obtain ⟨ls, rfl, h6⟩ := (scansTo_visible hc).mp h4
    refine ⟨_, ⟨_, blanks, rest', by rw [h3]; exact (scansTo_visible bom_ws).mpr ⟨ls, rfl, h6⟩,
      document_array_mark (scansTo_indented hi h6 (by simpa [RestIndented] using hr)) h5⟩, ?_⟩
    simp only [ETree.json] at he
    simp [ETree.json, ETree.jsonEntries, he]

end

/-- C89.  JSON text that begins with the mark is rejected by the library and by the command line tool. -/
theorem C89_json {F : Type} [F64 F] [JsonNum F] (rd : Str → Option F) (args : Args) (text : Str) :
    jsonToToon rd (byteOrderMark :: text) = .error .jsonParse ∧
      (args.detectMode = .encode → runCli rd args (byteOrderMark :: text) = .error .jsonParse) := by
  constructor
  · rw [jsonToToon, hostFromStr, readJson_bom]
  · intro h
    rw [runCli, h]
    simp only [runEncode, encodeToToonLines, hostFromStr, readJson_bom]

/-! Concrete cases. -/

-- the first key
example : decode (F := B64) ⟨2, true, false⟩ "a: x\nb[1]: y".toList =
    .ok (.obj [(['a'], .prim (.str ['x'])), (['b'], .arr [.prim (.str ['y'])])]) := by decide +kernel
example : decode (F := B64) ⟨2, true, false⟩ (byteOrderMark :: "a: x\nb[1]: y".toList) =
    .ok (.obj [([byteOrderMark, 'a'], .prim (.str ['x'])), (['b'], .arr [.prim (.str ['y'])])]) :=
  (C89_object _ rfl 'a' ": x\nb[1]: y".toList (by decide) (by decide) ['a'] _ _).mpr (by decide +kernel)

-- a scalar
example : decode (F := B64) ⟨2, true, false⟩ (byteOrderMark :: "true\n".toList) =
    .ok (.prim (.str (byteOrderMark :: "true".toList))) :=
  C89_scalar _ rfl 't' "rue\n".toList (by decide) (by decide) (.bool true) (by decide +kernel)

-- an array
example : decode (F := B64) ⟨2, true, false⟩ (byteOrderMark :: "[2]:\n  - x\n  - y".toList) =
    .ok (.obj [([byteOrderMark], .arr [.prim (.str ['x']), .prim (.str ['y'])])]) :=
  C89_array _ rfl (by decide) "2]:\n  - x\n  - y".toList _
    (by
      intro raw h
      have : raw = "  - x".toList ∨ raw = "  - y".toList := by
        have e : (splitOn '\n' ('[' :: "2]:\n  - x\n  - y".toList)).tail = ["  - x".toList, "  - y".toList] := by decide +kernel
        rw [e] at h
        simpa using h
      rcases this with rfl | rfl
      · exact .inr ⟨"- x".toList, rfl⟩
      · exact .inr ⟨"- y".toList, rfl⟩)
    (by decide +kernel)

-- with path expansion the first key, which is not an identifier any more, is not expanded
example : decode (F := B64) ⟨2, true, true⟩ (byteOrderMark :: "a.b: x\nc.d: y".toList) =
    .ok (.obj [(byteOrderMark :: "a.b".toList, .prim (.str ['x'])), (['c'], .obj [(['d'], .prim (.str ['y']))])]) := by
  decide +kernel

-- a quoted first key is not quoted any more: the text is accepted, with the quotes as part of the key
example : decode (F := B64) ⟨2, true, false⟩ (byteOrderMark :: "\"a\": x".toList) =
    .ok (.obj [(byteOrderMark :: "\"a\"".toList, .prim (.str ['x']))]) := by decide +kernel

end Toon
