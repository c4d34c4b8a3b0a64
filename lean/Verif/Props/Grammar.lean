import Verif.Lemmas.GrammarRoot
import Verif.Props.Events
import Verif.Props.Expand

/-!
# C58: the decoder accepts exactly the documents of the grammar and returns the value they stand for

The grammar is in `Spec/Grammar.lean`: `TextMeans indent strict source t` says that the source lines are a document
that stands for the tree `t`, without reference to the decoder.
-/

namespace Toon

section
variable {F : Type} [F64 F] [LawfulF64 F]

/-- C58.  For every text, indentation and strictness: the decoder's events are those of the tree the text stands for. -/
theorem C58_events (indent : Nat) (strict : Bool) (source : List Str) (evs : List (Ev F)) :
    decodeStream indent strict source = .ok evs ↔ ∃ t, TextMeans indent strict source t ∧ evs = ETree.events t := by
  rw [decodeStream_iff]
  constructor
  · rintro ⟨lines, blanks, t, rest', h1, h2, h3⟩; exact ⟨t, ⟨lines, blanks, rest', h1, h2⟩, h3⟩
  · rintro ⟨t, ⟨lines, blanks, rest', h1, h2⟩, h3⟩; exact ⟨lines, blanks, t, rest', h1, h2, h3⟩

/-- C58.  Decoding without path expansion returns exactly the value of the tree the text stands for. -/
theorem C58_value (opts : DecOpts) (hx : opts.expand = false) (text : Str) (v : Json F) :
    decode opts text = .ok v ↔ ∃ t, TextMeans opts.indent opts.strict (splitOn '\n' text) t ∧ v = ETree.json t := by
  rw [C14_value opts hx]
  constructor
  · rintro ⟨t, h1, h2⟩
    obtain ⟨t', h3, h4⟩ := (C58_events _ _ _ _).mp h1
    rw [← events_inj h4] at h3
    exact ⟨t, h3, h2⟩
  · rintro ⟨t, h1, h2⟩
    exact ⟨t, (C58_events _ _ _ _).mpr ⟨t, h1, rfl⟩, h2⟩

/-- C58.  A text stands for at most one tree. -/
theorem C58_unique (indent : Nat) (strict : Bool) (source : List Str) (t t' : ETree F)
    (h : TextMeans indent strict source t) (h' : TextMeans indent strict source t') : t = t' := by
  have h1 := (C58_events indent strict source t.events).mpr ⟨t, h, rfl⟩
  have h2 := (C58_events indent strict source t'.events).mpr ⟨t', h', rfl⟩
  rw [h1] at h2
  exact events_inj (by simpa using h2)

/-- C58.  Decoding fails exactly if the text stands for no tree. -/
theorem C58_rejected (opts : DecOpts) (hx : opts.expand = false) (text : Str) :
    (∃ e, decode (F := F) opts text = .error e) ↔ ¬ ∃ t : ETree F, TextMeans opts.indent opts.strict (splitOn '\n' text) t := by
  constructor
  · rintro ⟨e, he⟩ ⟨t, ht⟩
    rw [(C58_value opts hx text t.json).mpr ⟨t, ht, rfl⟩] at he
    simp at he
  · intro hn
    cases h : decode (F := F) opts text with
    | error e => exact ⟨e, rfl⟩
    | ok v =>
      obtain ⟨t, ht, _⟩ := (C58_value opts hx text v).mp h
      exact absurd ⟨t, ht⟩ hn

/-- C58.  With path expansion: the merged value of the tree the text stands for. -/
theorem C58_expanded (opts : DecOpts) (hx : opts.expand = true) (text : Str) (v : Json F) (h : decode opts text = .ok v) :
    ∃ t : ETree F, TextMeans opts.indent opts.strict (splitOn '\n' text) t ∧ v = expanded t ∧
      (opts.strict = true → conflicting t = false) := by
  obtain ⟨t, h1, h2, h3⟩ := C27_value opts hx text v h
  obtain ⟨t', h4, h5⟩ := (C58_events _ _ _ _).mp h1
  rw [← events_inj h5] at h4
  exact ⟨t, h4, h2, h3⟩

/-- C58.  With path expansion, conversely: a text that stands for a tree is decoded to the merged value, unless
(strict) a path is defined twice or the nesting is deep. -/
theorem C58_expanded_ok (opts : DecOpts) (hx : opts.expand = true) (text : Str) (t : ETree F)
    (h : TextMeans opts.indent opts.strict (splitOn '\n' text) t) (hc : opts.strict = true → conflicting t = false)
    (hd : 2 * height t.json + pathHeight t ≤ 255) : decode opts text = .ok (expanded t) := by
  rcases C27_outcome opts hx text t ((C58_events _ _ _ _).mpr ⟨t, h, rfl⟩) with ⟨h1, _⟩ | ⟨_, _, h1, h2⟩ | ⟨_, h1⟩
  · exact h1
  · rw [hc h1] at h2; simp at h2
  · omega

end

/-! ## What strict mode lets pass -/

/-- Finding F21.  Strict decoding ignores text between the closing bracket of a header, the columns and the colon,
takes a plus sign before the length, an unclosed list of columns, and an object indented by more than one level. -/
theorem C58_lenient :
    decode (F := B64) defaultDec "a[2]junk: x,y".toList = decode defaultDec "a[2]: x,y".toList ∧
    decode (F := B64) defaultDec "a[1] (one row) {k} of data:\n  x".toList = decode defaultDec "a[1]{k}:\n  x".toList ∧
    decode (F := B64) defaultDec "a[+2]: x,y".toList = decode defaultDec "a[2]: x,y".toList ∧
    decode (F := B64) defaultDec "a[2]{k: x,y".toList = decode defaultDec "a[2]: x,y".toList ∧
    decode (F := B64) defaultDec "a:\n      b: x".toList = decode defaultDec "a:\n  b: x".toList ∧
    (∃ v : Json B64, decode defaultDec "a[2]: x,y".toList = .ok v) := by
  refine ⟨by decide +kernel, by decide +kernel, by decide +kernel, by decide +kernel, by decide +kernel,
    .obj [("a".toList, .arr [.prim (.str "x".toList), .prim (.str "y".toList)])], by decide +kernel⟩

/-! ## Non-vacuity: a derivation in the grammar, without the decoder -/

/-- `a:` with an inner line, then an inline array. -/
example : TextMeans (F := B64) 2 true ["a:".toList, [], "  \"b c\": true".toList, "d[2]: x,y".toList]
    (.obj [("a".toList, false, .obj [("b c".toList, true, .prim (.bool true))]),
      ("d".toList, false, .arr 2 [.prim (.str "x".toList), .prim (.str "y".toList)])]) := by
  refine ⟨[⟨0, "a:".toList, 1⟩, ⟨1, "\"b c\": true".toList, 3⟩, ⟨0, "d[2]: x,y".toList, 4⟩], [2], [], ?_, ?_⟩
  · refine .line (spaces := 0) (by decide) (by decide) (by decide) (.blank (by decide) ?_)
    exact .line (spaces := 2) (by decide) (by decide) (by decide) (.line (spaces := 0) (by decide) (by decide) (by decide) (.nil _))
  · refine .object (fun h => ?_) (rest₁ := [⟨0, "d[2]: x,y".toList, 4⟩]) ?_ ?_
    · have := (visibleFirst_iff (by decide) _).mp h
      exact absurd this (by decide +kernel)
    · refine .object (after := []) (.inl ((noHeader_iff _).mp (by decide +kernel)))
        (.bare (a := "a".toList) (by decide) (by decide)) (by decide) (by decide) ?_
      refine .entry rfl (by simp) (.prim (after := " true".toList) (.inl ((noHeader_iff _).mp (by decide +kernel)))
        (.quoted (body := "b c".toList) ?_) (by decide) .true) (.stop ?_)
      · exact .plain (by decide) (by decide) (.plain (by decide) (by decide) (.plain (by decide) (by decide) .nil))
      · rintro ⟨l, m, h1, h2, _⟩
        simp only [List.cons.injEq] at h1
        rw [← h1.1] at h2
        exact absurd h2 (by decide)
    · refine .entry rfl (by simp) (.array (h := ⟨some "d".toList, false, 2, ',', none, some "x,y".toList⟩)
        ((headerMeans_iff _ _).mp (by decide +kernel)) rfl ?_) (.stop ?_)
      · refine .inline (text := "x,y".toList) (cells := ["x".toList, "y".toList]) (prims := [.str "x".toList, .str "y".toList]) rfl
          ((parseDelimited_cells (by decide) _ _).mp (by decide +kernel)) ?_ (by decide)
        exact .cons ((parsePrimitiveToken_iff "x".toList _).mp (by decide +kernel))
          (.cons ((parsePrimitiveToken_iff "y".toList _).mp (by decide +kernel)) .nil)
      · rintro ⟨l, m, h1, _⟩
        simp at h1

/-- A text that stands for no tree: two elements are declared and one is written. -/
example : ¬ ∃ t : ETree B64, TextMeans 2 true ["[2]: 1".toList] t := by
  rintro ⟨t, ht⟩
  have := (C58_events 2 true ["[2]: 1".toList] t.events).mpr ⟨t, ht, rfl⟩
  rw [show decodeStream (F := B64) 2 true ["[2]: 1".toList] = .error (.countMismatch 2 .inlineItems 1) by decide +kernel] at this
  simp at this

/-- A list with an object that begins with a table, and an empty array. -/
example : TextMeans (F := B64) 2 true
    ["x[2]:".toList, "  - t[1]{a}:".toList, "      y".toList, "    u: null".toList, "  - [0]:".toList]
    (.obj [("x".toList, false, .arr 2 [
      .obj [("t".toList, false, .arr 1 [.obj [("a".toList, false, .prim (.str "y".toList))]]), ("u".toList, false, .prim .null)],
      .arr 0 []])]) := by
  obtain ⟨t, ht, he⟩ := (C58_events (F := B64) 2 true
    ["x[2]:".toList, "  - t[1]{a}:".toList, "      y".toList, "    u: null".toList, "  - [0]:".toList]
    (ETree.events (.obj [("x".toList, false, .arr 2 [
      .obj [("t".toList, false, .arr 1 [.obj [("a".toList, false, .prim (.str "y".toList))]]), ("u".toList, false, .prim .null)],
      .arr 0 []])]))).mp (by decide +kernel)
  rw [events_inj he]
  exact ht

end Toon
