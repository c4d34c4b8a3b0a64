import Verif.Lemmas.Invented

/-!
# Nothing in a decoded value that is not in the text

C113.  The decoder does not invent text.  Whatever the options, every part of every string and of every key of the decoded value that has no
backslash, quotation mark, line feed, carriage return or tab stands, in one piece, in one line of the text: nothing is glued together from two
lines or two cells, and no default string is put in.  In particular every string of the value without these characters is copied.
-/

namespace Toon

section
variable {F : Type} [F64 F] [LawfulF64 F]

/-- C113.  Every part, without escaped characters, of a string or key of the decoded value stands in a line of the text. -/
theorem C113_drawn (opts : DecOpts) (text : Str) (v : Json F) (h : decode opts text = .ok v) (s w : Str) (hs : Mentions s v)
    (hw : w <:+: s) (hp : ∀ c ∈ w, c ∉ ['\\', '"', '\n', '\r', '\t']) : Appears (splitOn '\n' text) w := by
  have hk : AllKeys (DrawnFrom (splitOn '\n' text)) v :=
    decode_keys (fun segs s hd hm w hw hi => hd w hw (hi.trans (dotted_found segs hm))) (fun t ht => (text_drawn ht).1) h
  have hpr : AllPrims (StrOf (DrawnFrom (splitOn '\n' text))) v := decode_prims (fun t ht => (text_drawn ht).2) h
  exact mentions_of v hk hpr hs w hp hw

/-- C113.  So a string or key of the value without escaped characters stands in a line of the text. -/
theorem C113_copied (opts : DecOpts) (text : Str) (v : Json F) (h : decode opts text = .ok v) (s : Str) (hs : Mentions s v)
    (hp : ∀ c ∈ s, c ∉ ['\\', '"', '\n', '\r', '\t']) : Appears (splitOn '\n' text) s :=
  C113_drawn opts text v h s s hs (List.infix_refl _) hp

/-- C113.  And every character of the value's strings and keys, apart from the five, occurs in the text. -/
theorem C113_characters (opts : DecOpts) (text : Str) (v : Json F) (h : decode opts text = .ok v) (s : Str) (hs : Mentions s v)
    (c : Char) (hc : c ∈ s) (hp : c ∉ ['\\', '"', '\n', '\r', '\t']) : ∃ raw ∈ splitOn '\n' text, c ∈ raw := by
  have hw : [c] <:+: s := by
    obtain ⟨a, b, rfl⟩ := List.append_of_mem hc
    exact ⟨a, b, by simp⟩
  obtain ⟨raw, h1, h2⟩ := C113_drawn opts text v h s [c] hs hw (by intro c' h'; simp at h'; exact h' ▸ hp)
  exact ⟨raw, h1, h2.subset (by simp)⟩

end

/-- C113.  A table, a quoted key, a path that is expanded and a list: the strings of the value. -/
example : ∃ v : Json B64, decode ⟨2, true, true⟩ "a.b[1]{\"x y\",z}:\n  one,\"t,wo\"\na.c[1]:\n  - k: \"li\\nne\"".toList = .ok v ∧
    Mentions "b".toList v ∧ Mentions "x y".toList v ∧ Mentions "t,wo".toList v ∧ Mentions "li\nne".toList v := by
  refine ⟨.obj [("a".toList, .obj [("b".toList, .arr [.obj [("x y".toList, .prim (.str "one".toList)), ("z".toList, .prim (.str "t,wo".toList))]]),
    ("c".toList, .arr [.obj [("k".toList, .prim (.str "li\nne".toList))]])])], by decide +kernel, ?_⟩
  simp [Mentions, MentionsItems, MentionsEntries]

/-- C113.  The five characters have to be left out: a decoded line feed is in no line, and a decoded tab need not be in the text. -/
theorem C113_escaped : ∃ (text : Str) (v : Json B64), decode defaultDec text = .ok v ∧ Mentions "\n".toList v ∧ Mentions "\t".toList v ∧
    ¬ Appears (splitOn '\n' text) "\n".toList ∧ ¬ Appears (splitOn '\n' text) "\t".toList := by
  refine ⟨"a: \"\\n\"\nb: \"\\t\"".toList, .obj [("a".toList, .prim (.str "\n".toList)), ("b".toList, .prim (.str "\t".toList))],
    by decide +kernel, by simp [Mentions, MentionsEntries], by simp [Mentions, MentionsEntries], ?_, ?_⟩
  all_goals
    rintro ⟨raw, hr, h⟩
    have hr : raw = "a: \"\\n\"".toList ∨ raw = "b: \"\\t\"".toList := by simpa [splitOn] using hr
    rcases hr with rfl | rfl
    · exact absurd (h.subset List.mem_cons_self) (by decide)
    · exact absurd (h.subset List.mem_cons_self) (by decide)

end Toon
