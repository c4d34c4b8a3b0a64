import Verif.Spec.Readings
import Verif.Lemmas.Readings

/-!
# Every primitive of a decoded value is read from one word

C114.  Whatever the options, a number, a truth value, a null or a string in a decoded value is what one word of one line of the text stands
for; only the nulls that lenient decoding puts in the place of missing cells are not.  So without `true` in the text there is no `true` in
the value, and a number is the value of a numeral that is written there.
-/

namespace Toon

section
variable {F : Type} [F64 F] [LawfulF64 F]

/-- C114.  In strict mode every primitive is the meaning of a word of a line. -/
theorem C114_strict (opts : DecOpts) (hs : opts.strict = true) (text : Str) (v : Json F) (h : decode opts text = .ok v) (p : Prim F)
    (hp : Contains p v) : ∃ w, WordIn (splitOn '\n' text) w ∧ TokenMeans w p := by
  rcases contains_of v (decode_prims (fun t ht => text_readings ht) h) hp with h | ⟨h, _⟩
  · exact h
  · rw [hs] at h; simp at h

/-- C114.  In any mode, except for nulls. -/
theorem C114_read (opts : DecOpts) (text : Str) (v : Json F) (h : decode opts text = .ok v) (p : Prim F) (hp : Contains p v)
    (hn : p ≠ .null) : ∃ w, WordIn (splitOn '\n' text) w ∧ TokenMeans w p := by
  rcases contains_of v (decode_prims (fun t ht => text_readings ht) h) hp with h | ⟨_, h⟩
  · exact h
  · exact absurd h hn

/-- C114.  A number is the value of a numeral in the text; negative zero is read as zero. -/
theorem C114_number (opts : DecOpts) (text : Str) (v : Json F) (h : decode opts text = .ok v) (x : F) (hp : Contains (.num x) v) :
    ∃ (w : Str) (y : F), WordIn (splitOn '\n' text) w ∧ NumGrammar w ∧ F64.parse w = some y ∧ F64.isFinite y = true ∧
      x = if F64.isZero y && F64.isNeg y then F64.zero else y := by
  obtain ⟨w, h1, h2⟩ := C114_read opts text v h _ hp (by simp)
  cases h2 with
  | @number _ y h3 h4 h5 => exact ⟨w, y, h1, h3, h4, h5, rfl⟩

/-- C114.  A truth value is spelled out. -/
theorem C114_bool (opts : DecOpts) (text : Str) (v : Json F) (h : decode opts text = .ok v) (b : Bool) (hp : Contains (.bool b) v) :
    WordIn (splitOn '\n' text) (if b then "true".toList else "false".toList) := by
  obtain ⟨w, h1, h2⟩ := C114_read opts text v h _ hp (by simp)
  cases h2 <;> exact h1

/-- C114.  So is a null, in strict mode. -/
theorem C114_null (opts : DecOpts) (hs : opts.strict = true) (text : Str) (v : Json F) (h : decode opts text = .ok v)
    (hp : Contains .null v) : WordIn (splitOn '\n' text) "null".toList := by
  obtain ⟨w, h1, h2⟩ := C114_strict opts hs text v h _ hp
  cases h2
  exact h1

end

/-- C114.  A value with all kinds of primitives. -/
example : ∃ v : Json B64, decode ⟨2, true, true⟩ "a.b[1]{x,y}:\n  true,null\na.c[2]: -0,\"t\"".toList = .ok v ∧
    Contains (.bool true) v ∧ Contains .null v ∧ Contains (.num F64.zero) v ∧ Contains (.str "t".toList) v := by
  refine ⟨.obj [("a".toList, .obj [("b".toList, .arr [.obj [("x".toList, .prim (.bool true)), ("y".toList, .prim .null)]]),
    ("c".toList, .arr [.prim (.num F64.zero), .prim (.str "t".toList)])])], by decide +kernel, ?_⟩
  simp [Contains, ContainsItems, ContainsEntries]

/-- C114.  A word is more than a piece: `1` is a word of `a[1]: 1` and not of `a[1]`. -/
example : WordOf "1".toList "a[1]: 1".toList ∧ ¬ WordOf "1".toList "a[1]".toList := by
  refine ⟨⟨"a[1]: ".toList, [], by decide, by decide, by decide⟩, ?_⟩
  rintro ⟨a, b, h, ha, _⟩
  match a with
  | [] => simp at h
  | [_] => simp at h
  | [x, y] =>
    simp at h
    obtain ⟨_, rfl, _⟩ := h
    exact absurd (ha '[' rfl) (by decide)
  | [_, _, _] => simp at h
  | _ :: _ :: _ :: _ :: _ => simp at h

/-- C114.  In lenient mode a null need not be in the text. -/
theorem C114_missing_cell : ∃ (text : Str) (v : Json B64), decode ⟨2, false, false⟩ text = .ok v ∧ Contains .null v ∧
    ¬ Appears (splitOn '\n' text) "null".toList := by
  refine ⟨"[1]{a,b}:\n  x".toList, .arr [.obj [("a".toList, .prim (.str "x".toList)), ("b".toList, .prim .null)]],
    by decide +kernel, by simp [Contains, ContainsItems, ContainsEntries], ?_⟩
  rintro ⟨raw, hr, h⟩
  have hr : raw = "[1]{a,b}:".toList ∨ raw = "  x".toList := by simpa [splitOn] using hr
  rcases hr with rfl | rfl
  · exact absurd (h.subset List.mem_cons_self) (by decide)
  · exact absurd (h.subset List.mem_cons_self) (by decide)

end Toon
