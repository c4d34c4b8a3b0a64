import Verif.Lemmas.Nest
import Verif.Props.Join
import Verif.Lemmas.Float64
import Verif.Lemmas.Dec

/-!
# C90: a document inside a document

Indenting a text by one unit and writing a key before it puts the object it stands for under the key, and nothing else.
-/

namespace Toon

section
variable {F : Type} [F64 F] [LawfulF64 F]

private theorem underKey_lines (indent : Nat) (k text : Str) :
    splitOn '\n' (underKey indent k text) = (encodeKey k ++ [':']) :: (splitOn '\n' text).map (List.replicate indent ' ' ++ ·) := by
  have h1 : '\n' ∉ encodeKey k ++ [':'] := (lineOk_keyColon k).lf
  have h2 : underKey indent k text = (encodeKey k ++ [':']) ++ '\n' :: indentedBy indent text := by simp [underKey]
  rw [h2, splitOn_append h1, indentedBy, splitOn_joinWith]
  · simp [splitOn_ne_nil]
  · intro w hw
    obtain ⟨w', hw', rfl⟩ := List.mem_map.mp hw
    simp only [List.mem_append, not_or, List.mem_replicate]
    exact ⟨fun h => absurd h.2 (by decide), splitOn_not_mem '\n' text w' hw'⟩

private theorem underKey_text (opts : DecOpts) (hi : 0 < opts.indent) (c : Char) (hc : isWs c = false) (hb : c ≠ '[') (k text : Str)
    (t : ETree F) :
    TextMeans opts.indent opts.strict (splitOn '\n' (underKey opts.indent k (c :: text))) t ↔
      ∃ es, t = .obj [(k, !isValidUnquotedKey k, .obj es)] ∧ TextMeans opts.indent opts.strict (splitOn '\n' (c :: text)) (.obj es) := by
  have hnl : c ≠ '\n' := by rintro rfl; revert hc; decide
  obtain ⟨w, ws, _, h2⟩ := splitOn_cons_ne hnl text
  obtain ⟨x, r, hx, hxw, hxb, _⟩ := encodeKey_head_cases k
  have hhead : encodeKey k ++ [':'] = x :: (r ++ [':']) := by rw [hx]; rfl
  have hnk : NoKeyedHeader (x :: (r ++ [':'])) := by
    rw [← hhead]; exact .inl ((noHeader_iff _).mp (parseHeader_keyOnly k))
  have hkl : KeyLineMeans (x :: (r ++ [':'])) k (!isValidUnquotedKey k) [] := by
    have := keyLine_iff _ _ _ _ (parseKeyToken_encode k [])
    rw [hhead] at this
    have e : List.drop ((encodeKey k).length + 1) (x :: (r ++ [':'])) = [] := by rw [hx]; simp
    rwa [e] at this
  have hvb : ¬ VisibleFirst '[' (x :: (r ++ [':'])) := not_visibleFirst hxw hxb _
  rw [underKey_lines, h2, hhead]
  constructor
  · rintro ⟨lines, blanks, rest', h3, h4⟩
    obtain ⟨ls, rfl, h5⟩ := (scansTo_visible hxw).mp h3
    obtain ⟨ls, bs, rfl, rfl, h6⟩ := scansTo_shallower hi _ h5
    obtain ⟨ls, rfl, h7⟩ := (scansTo_visible hc).mp h6
    obtain ⟨es, r', rfl, h8⟩ := document_underKey_inv hnk hkl hvb rfl (not_visibleFirst hc hb w) h4
    exact ⟨es, rfl, _, _, _, h6, h8⟩
  · rintro ⟨es, rfl, lines, blanks, rest', h3, h4⟩
    have h5 := scansTo_deeper hi h3
    obtain ⟨ls, rfl, h6⟩ := (scansTo_visible hc).mp h3
    exact ⟨_, _, _, (scansTo_visible hxw).mpr ⟨_, rfl, h5⟩, document_underKey hnk hkl hvb rfl h4⟩

/-- C90.  The text under a key is accepted exactly if the text is accepted as an object, and it stands for the object
with this one entry. -/
theorem C90_under (opts : DecOpts) (hx : opts.expand = false) (hi : 0 < opts.indent) (k : Str) (c : Char) (text : Str)
    (hc : isWs c = false) (hb : c ≠ '[') (v : Json F) :
    decode opts (underKey opts.indent k (c :: text)) = .ok v ↔
      ∃ es, decode opts (c :: text) = .ok (.obj es) ∧ v = .obj [(k, .obj es)] := by
  rw [C58_value opts hx]
  constructor
  · rintro ⟨t, h1, rfl⟩
    obtain ⟨es, rfl, h2⟩ := (underKey_text opts hi c hc hb k text t).mp h1
    exact ⟨ETree.jsonEntries es, (C58_value opts hx _ _).mpr ⟨_, h2, by rw [ETree.json]⟩, by simp [ETree.json, ETree.jsonEntries]⟩
  · rintro ⟨es, h1, rfl⟩
    obtain ⟨t, h2, h3⟩ := (C58_value opts hx _ _).mp h1
    cases t with
    | prim p => simp [ETree.json] at h3
    | arr n ts => simp [ETree.json] at h3
    | obj es' =>
      refine ⟨_, (underKey_text opts hi c hc hb k text _).mpr ⟨es', rfl, h2⟩, ?_⟩
      simp only [ETree.json, Json.obj.injEq] at h3
      simp [ETree.json, ETree.jsonEntries, h3]

/-- C90.  The same for a path of keys: the text under the last key, that under the one before, and so on. -/
theorem C90_path (opts : DecOpts) (hx : opts.expand = false) (hi : 0 < opts.indent) (ks : List Str) (c : Char) (text : Str)
    (hc : isWs c = false) (hb : c ≠ '[') (es : List (Str × Json F)) (h : decode opts (c :: text) = .ok (.obj es)) :
    decode opts (ks.foldr (underKey opts.indent) (c :: text)) = .ok (ks.foldr (fun k v => .obj [(k, v)]) (.obj es)) := by
  suffices ∃ c' text' es', ks.foldr (underKey opts.indent) (c :: text) = c' :: text' ∧ isWs c' = false ∧ c' ≠ '[' ∧
      ks.foldr (fun k v => Json.obj [(k, v)]) (.obj es) = .obj es' ∧ decode opts (c' :: text') = .ok (.obj es') by
    obtain ⟨c', text', es', h1, _, _, h2, h3⟩ := this
    rw [h1, h2, h3]
  induction ks with
  | nil => exact ⟨c, text, es, rfl, hc, hb, rfl, h⟩
  | cons k ks ih =>
    obtain ⟨c', text', es', h1, h2, h3, h4, h5⟩ := ih
    obtain ⟨x, r, hx', hxw, hxb, _⟩ := encodeKey_head_cases k
    refine ⟨x, r ++ ':' :: '\n' :: indentedBy opts.indent (c' :: text'), [(k, .obj es')], ?_, hxw, hxb, ?_, ?_⟩
    · rw [List.foldr_cons, h1, underKey, hx']; rfl
    · rw [List.foldr_cons, h4]
    · have := (C90_under opts hx hi k c' text' h2 h3 _).mpr ⟨es', h5, rfl⟩
      rw [underKey, hx'] at this
      exact this

/-- C90.  An array gets a key by writing it before the header, on the same line. -/
theorem C90_array (opts : DecOpts) (hx : opts.expand = false) (hi : 0 < opts.indent) (k text : Str) (items : List (Json F))
    (hr : RestIndented opts.indent (splitOn '\n' ('[' :: text))) (h : decode opts ('[' :: text) = .ok (.arr items)) :
    decode opts (encodeKey k ++ '[' :: text) = .ok (.obj [(k, .arr items)]) := by
  have hc : isWs '[' = false := by decide
  obtain ⟨w, ws, h1, h2⟩ := splitOn_cons_ne (c := '\n') (x := '[') (by decide) text
  have hlf : '\n' ∉ encodeKey k := fun hm => (lineOk_keyColon k).lf (by simp [hm])
  have h3 : splitOn '\n' (encodeKey k ++ '[' :: text) = (encodeKey k ++ '[' :: w) :: ws := by
    have : ∀ a : Str, '\n' ∉ a → splitOn '\n' (a ++ '[' :: text) = (a ++ '[' :: w) :: ws := by
      intro a
      induction a with
      | nil => intro _; exact h2
      | cons x a ih =>
        intro hn
        simp only [List.mem_cons, not_or] at hn
        obtain ⟨w', ws', h4, h5⟩ := splitOn_cons_ne (c := '\n') (x := x) (fun e => hn.1 e.symm) (a ++ '[' :: text)
        rw [ih hn.2] at h4
        obtain ⟨rfl, rfl⟩ := List.cons.inj h4
        exact h5
    exact this _ hlf
  obtain ⟨x, r, hx', hxw, _⟩ := encodeKey_head_cases k
  rw [C58_value opts hx] at h ⊢
  obtain ⟨t, ⟨lines, blanks, rest', h4, h5⟩, he⟩ := h
  cases t with
  | prim p => simp [ETree.json] at he
  | obj es => simp [ETree.json] at he
  | arr n ts =>
    rw [h2] at h4 hr
    obtain ⟨ls, rfl, h6⟩ := (scansTo_visible hc).mp h4
    have h7 := document_array_key k (scansTo_indented hi h6 (by simpa [RestIndented] using hr)) h5
    refine ⟨_, ⟨_, blanks, rest', ?_, h7⟩, ?_⟩
    · rw [h3, hx', List.cons_append]
      exact (scansTo_visible hxw).mpr ⟨ls, rfl, h6⟩
    · simp only [ETree.json] at he
      simp [ETree.json, ETree.jsonEntries, he]

/-- C90.  Any number of texts of objects, each read to its end, written as the elements of one list, are read as the list of
these objects. -/
theorem C90_list (opts : DecOpts) (hx : opts.expand = false) (hi : 0 < opts.indent) (texts : List Str) (items : List (Json F))
    (hn : texts.length ≤ 100000000) (hl : ∀ text ∈ texts, Listable opts.indent text)
    (hr : ∀ text ∈ texts, ∃ evs, decodeStreamUnread (F := F) opts.indent opts.strict (splitOn '\n' text) = .ok (evs, 0))
    (h : Pointwise (fun text item => decode opts text = .ok item ∧ ∃ es, item = .obj es) texts items) :
    decode opts (listed opts.indent texts) = .ok (.arr items) := by
  have hlf : ∀ w ∈ ('[' :: natDigits texts.length ++ "]:".toList) :: texts.flatMap (elementLines opts.indent), '\n' ∉ w := by
    intro w hw
    rcases List.mem_cons.mp hw with rfl | hw
    · simp only [List.cons_append, List.mem_cons, List.mem_append, not_or]
      exact ⟨by decide, fun h => absurd (natDigits_mem h) (by decide), by decide⟩
    · obtain ⟨text, _, hw⟩ := List.mem_flatMap.mp hw
      have hm := splitOn_not_mem '\n' text
      unfold elementLines at hw
      cases hs : splitOn '\n' text with
      | nil => rw [hs] at hw; simp at hw
      | cons first others =>
        rw [hs] at hw hm
        rcases List.mem_cons.mp hw with rfl | hw
        · have := hm first (by simp)
          simp only [List.mem_append, List.mem_replicate, List.mem_cons, not_or]
          exact ⟨fun h => absurd h.2 (by decide), by decide, by decide, this⟩
        · obtain ⟨w', hw', rfl⟩ := List.mem_map.mp hw
          have := hm w' (by simp [hw'])
          simp only [List.mem_append, List.mem_replicate, not_or]
          exact ⟨fun h => absurd h.2 (by decide), this⟩
  have key : ∃ ts, Pointwise (fun text t => ReadsTo (F := F) opts.indent opts.strict (splitOn '\n' text) t 0 ∧ ∃ es, t = .obj es) texts ts ∧
      items = ETree.jsonItems ts := by
    clear hlf hn hl
    induction h with
    | nil => exact ⟨[], .nil, rfl⟩
    | @cons text item texts items h _ ih =>
      obtain ⟨ts, h1, rfl⟩ := ih (fun text h => hr text (by simp [h]))
      obtain ⟨h2, es, rfl⟩ := h
      obtain ⟨t, u, h3, h4, h5⟩ := decode_reads hx h2
      obtain ⟨evs, h6⟩ := hr text (by simp)
      rw [h5] at h6
      simp only [Except.ok.injEq, Prod.mk.injEq] at h6
      obtain ⟨_, rfl⟩ := h6
      cases t with
      | prim p => simp [ETree.json] at h4
      | arr n ts => simp [ETree.json] at h4
      | obj es' => exact ⟨.obj es' :: ts, .cons ⟨h3, es', rfl⟩ h1, by rw [ETree.jsonItems, h4]⟩
  obtain ⟨ts, h1, rfl⟩ := key
  refine (C58_value opts hx _ _).mpr ⟨.arr texts.length ts, ?_, by rw [ETree.json]⟩
  rw [listed, splitOn_joinWith (by simp) hlf]
  exact list_document hi hl hn h1

end

/-! Concrete cases. -/

example : underKey 2 "a b".toList "x: 1\ny:\n  z[1]: q".toList = "\"a b\":\n  x: 1\n  y:\n    z[1]: q".toList := by decide +kernel

example : decode (F := B64) ⟨2, true, false⟩ "\"a b\":\n  x: t\n  y:\n    z[1]: q".toList =
    .ok (.obj [("a b".toList, .obj [(['x'], .prim (.str ['t'])), (['y'], .obj [(['z'], .arr [.prim (.str ['q'])])])])]) := by
  have h := (C90_under (F := B64) ⟨2, true, false⟩ rfl (by decide) "a b".toList 'x' ": t\ny:\n  z[1]: q".toList (by decide) (by decide) _).mpr
    ⟨_, (show decode (F := B64) ⟨2, true, false⟩ _ = .ok (.obj [(['x'], .prim (.str ['t'])), (['y'], .obj [(['z'], .arr [.prim (.str ['q'])])])]) by
      decide +kernel), rfl⟩
  exact h

-- the key before an array
example : decode (F := B64) ⟨2, true, false⟩ "\"a b\"[2]:\n  - x\n  - y".toList =
    .ok (.obj [("a b".toList, .arr [.prim (.str ['x']), .prim (.str ['y'])])]) :=
  C90_array ⟨2, true, false⟩ rfl (by decide) "a b".toList "2]:\n  - x\n  - y".toList _
    (by
      have e : (splitOn '\n' ('[' :: "2]:\n  - x\n  - y".toList)).tail = ["  - x".toList, "  - y".toList] := by decide +kernel
      unfold RestIndented
      rw [e]
      intro raw h
      rcases List.mem_cons.mp h with rfl | h
      · exact .inr ⟨"- x".toList, rfl⟩
      · obtain rfl : raw = "  - y".toList := by simpa using h
        exact .inr ⟨"- y".toList, rfl⟩)
    (by decide +kernel)

-- a scalar cannot stand under a key on lines of its own
example : (decode (F := B64) ⟨2, true, false⟩ (underKey 2 ['k'] "hello".toList)).isOk = false := by decide +kernel

example : listed 2 ["a: x\nb: y".toList, "c[1]: z".toList] = "[2]:\n  - a: x\n    b: y\n  - c[1]: z".toList := by decide +kernel

-- two texts that meet the conditions of `C90_list`
private theorem listable_example : ∀ text ∈ ["a: x\nb:\n  d: y".toList, "c[1]: z".toList], Listable 2 text := by
  intro text h
  have h1 : splitOn '\n' "a: x\nb:\n  d: y".toList = ["a: x".toList, "b:".toList, "  d: y".toList] := by decide +kernel
  have h2 : splitOn '\n' "c[1]: z".toList = ["c[1]: z".toList] := by decide +kernel
  rcases List.mem_cons.mp h with rfl | h
  · refine ⟨⟨'a', ": x\nb:\n  d: y".toList, rfl, by decide, by decide⟩, ?_, ?_, ?_⟩
    · intro line others h
      rw [h1] at h
      exact ⟨['a'], " x".toList, (List.cons.inj h).1.symm, by decide⟩
    · rw [h1]; decide +kernel
    · rw [h1]
      rintro line hl ⟨n, t, hn, rfl⟩
      have : n = 0 ∨ n = 1 := by omega
      rcases this with rfl | rfl <;> simp [List.replicate] at hl
  · obtain rfl : text = "c[1]: z".toList := by simpa using h
    refine ⟨⟨'c', "[1]: z".toList, rfl, by decide, by decide⟩, ?_, ?_, ?_⟩
    · intro line others h
      rw [h2] at h
      exact ⟨"c[1]".toList, " z".toList, (List.cons.inj h).1.symm, by decide⟩
    · rw [h2]; decide +kernel
    · rw [h2]; simp

private theorem unread_zero {opts : DecOpts} {text : Str}
    (h : (decodeStreamUnread (F := B64) opts.indent opts.strict (splitOn '\n' text)).map (·.2) = .ok 0) :
    ∃ evs, decodeStreamUnread (F := B64) opts.indent opts.strict (splitOn '\n' text) = .ok (evs, 0) := by
  cases hd : decodeStreamUnread (F := B64) opts.indent opts.strict (splitOn '\n' text) with
  | error e => rw [hd] at h; simp [Except.map] at h
  | ok r => obtain ⟨evs, u⟩ := r; rw [hd] at h; simp [Except.map] at h; exact ⟨evs, by rw [h]⟩

example : decode (F := B64) ⟨2, true, false⟩ "[2]:\n  - a: x\n    b:\n      d: y\n  - c[1]: z".toList =
    .ok (.arr [.obj [(['a'], .prim (.str ['x'])), (['b'], .obj [(['d'], .prim (.str ['y']))])], .obj [(['c'], .arr [.prim (.str ['z'])])]]) := by
  have h := C90_list (F := B64) ⟨2, true, false⟩ rfl (by decide) ["a: x\nb:\n  d: y".toList, "c[1]: z".toList]
    [.obj [(['a'], .prim (.str ['x'])), (['b'], .obj [(['d'], .prim (.str ['y']))])], .obj [(['c'], .arr [.prim (.str ['z'])])]]
    (by decide) listable_example
    (by
      intro text h
      rcases List.mem_cons.mp h with rfl | h
      · exact unread_zero (opts := ⟨2, true, false⟩) (by decide +kernel)
      · obtain rfl : text = "c[1]: z".toList := by simpa using h
        exact unread_zero (opts := ⟨2, true, false⟩) (by decide +kernel))
    (.cons ⟨by decide +kernel, _, rfl⟩ (.cons ⟨by decide +kernel, _, rfl⟩ .nil))
  exact h

-- a line with a hyphen at the margin is an entry of a document, but ends the object in a list
example : (decode (F := B64) ⟨2, false, false⟩ "a: x\n- b: y".toList) =
      .ok (.obj [(['a'], .prim (.str ['x'])), ("- b".toList, .prim (.str ['y']))]) ∧
    (decode (F := B64) ⟨2, false, false⟩ (listed 2 ["a: x\n- b: y".toList])) =
      .ok (.arr [.obj [(['a'], .prim (.str ['x']))]]) := by decide +kernel

end Toon
