import Verif.Lemmas.JsonFramesCost
import Verif.Lemmas.JsonReserve
import Verif.Lemmas.JsonFloat64
import Verif.Lemmas.JsonLayout
import Verif.Lemmas.FoldShape
import Verif.Spec.Utf8
import Verif.Props.Utf8
import Verif.Props.Expand

/-!
# C85: what printing JSON text takes

`Model/JsonFrames.lean` is the JSON printer of the command line tool with its buffer, a call stack that can overflow, and
the estimate for which memory is reserved before anything is printed.  `runJsonLines stack v indent` is
`json_stringify_lines(v, indent)` in a stack of `stack` calls; `jsonStringifyLines` is the same function in the model without
a stack, about which C19 and C49 are proved.  Its steps are its calls.
-/

namespace Toon

section
variable {F : Type} [F64 F] [JsonNum F]

/-- C85.  Two nested calls for every level of nesting of the value, and one more, are enough for every value and every
indent, and then the machine prints what the model prints. -/
theorem C85_stack (indent : Nat) (v : Json F) (stack : Nat) (h : 2 * height v + 1 ≤ stack) :
    ∃ r, (runJsonLines stack v indent).result = .ok r ∧ r.lines = jsonStringifyLines v indent :=
  ⟨_, runJsonLines_ok indent stack v h, rfl⟩

/-- C85.  Fewer than two calls for every level of nesting overflow, whatever the value. -/
theorem C85_needed (indent : Nat) (v : Json F) (stack : Nat) (h : stack < 2 * height v) :
    (runJsonLines stack v indent).result = .error .overflow :=
  runJsonLines_overflow indent stack v h

theorem runJsonLines_cases (indent : Nat) (v : Json F) (stack : Nat) :
    (runJsonLines stack v indent).result = .error .overflow ∨
      (runJsonLines stack v indent).result = .ok ⟨estimateOf indent v, jsonStringifyLines v indent⟩ := by
  rcases runJsonLines_more indent stack (2 * height v + 1) v with h | h
  · exact Or.inl h
  · exact Or.inr (by rw [h]; exact runJsonLines_ok indent _ v (by omega))

/-- C85.  A stack that is too small is never noticed as anything else: the result is an overflow or the right text. -/
theorem C85_overflow_or_same (indent : Nat) (v : Json F) (stack : Nat) :
    (runJsonLines stack v indent).result = .error .overflow ∨
      ∃ r, (runJsonLines stack v indent).result = .ok r ∧ r.lines = jsonStringifyLines v indent := by
  rcases runJsonLines_cases indent v stack with h | h
  · exact Or.inl h
  · exact Or.inr ⟨_, h, rfl⟩

/-- C85.  Three calls for every value in the value, at most. -/
theorem C85_calls (indent : Nat) (v : Json F) (stack : Nat) : (runJsonLines stack v indent).steps ≤ 3 * nodes v :=
  runJsonLines_steps indent stack v

/-- C85.  A value that was decoded with path expansion, which is when the tool prints in this way, is printed in a stack of
32265 calls, however long and however deep the text was. -/
theorem C85_expanded [LawfulF64 F] (opts : DecOpts) (hx : opts.expand = true) (text : Str) (v : Json F) (hd : decode opts text = .ok v) (indent : Nat)
    (stack : Nat) (hs : 32265 ≤ stack) : ∃ r, (runJsonLines stack v indent).result = .ok r ∧ r.lines = jsonStringifyLines v indent :=
  C85_stack indent v stack (by obtain ⟨_, _, _, h⟩ := C29_cap opts hx text v hd; omega)

/-- C85.  What is reserved is never more than twenty times what is printed, whatever printing numbers does. -/
theorem C85_reserved [LawfulJsonNum F] (indent : Nat) (v : Json F) (stack : Nat) (r : Printed)
    (h : (runJsonLines stack v indent).result = .ok r) : r.reserved ≤ 20 * (utf8Bytes r.lines.flatten).length := by
  rcases runJsonLines_cases indent v stack with h' | h'
  · rw [h] at h'; cases h'
  · rw [h] at h'
    cases h'
    have := estimate_le (Or.inl rfl) indent v 0 (allPrims_all numberBytes_one v)
    rw [Utf8.len, C44_bytes, Nat.one_mul] at this
    simpa [jsonStringifyLines] using this

/-- C85.  If every number takes three bytes at least, as `1.0` does, it is never more than 20/3 of what is printed. -/
theorem C85_reserved_three (indent : Nat) (v : Json F) (stack : Nat) (r : Printed) (h : (runJsonLines stack v indent).result = .ok r)
    (hn : AllPrims (fun p => ∀ x, p = .num x → 3 ≤ (utf8Bytes (jsonNumber x)).length) v) :
    3 * r.reserved ≤ 20 * (utf8Bytes r.lines.flatten).length := by
  rcases runJsonLines_cases indent v stack with h' | h'
  · rw [h] at h'; cases h'
  · rw [h] at h'
    cases h'
    have := estimate_le (Or.inr rfl) indent v 0 (allPrims_mono (fun p hp x hx => by rw [Utf8.len, C44_bytes]; exact hp x hx) v hn)
    rw [Utf8.len, C44_bytes] at this
    simpa [jsonStringifyLines] using this

/-- A character that JSON text need not escape, nor this printer does. -/
def PlainChar (c : Char) : Prop := c ≠ '"' ∧ c ≠ '\\' ∧ 0x20 ≤ c.toNat ∧ ¬ (0x7f ≤ c.toNat ∧ c.toNat ≤ 0x9f)

omit [F64 F] [JsonNum F] in
theorem PlainChar.unescaped {c : Char} (h : PlainChar c) : jsonEscapeChar c = [c] := by
  obtain ⟨h1, h2, h3, h4⟩ := h
  rw [jsonEscapeChar, if_neg h1, if_neg h2, if_neg (by rintro rfl; revert h3; decide), if_neg (by rintro rfl; revert h3; decide),
    if_neg (by rintro rfl; revert h3; decide), if_neg]
  simp only [isControl, Bool.or_eq_true, decide_eq_true_eq, Bool.and_eq_true]
  omega

/-- C85.  For text without line breaks, when nothing is to be escaped and no number takes more than twenty bytes, enough is
reserved: the buffer never grows. -/
theorem C85_enough (v : Json F) (stack : Nat) (r : Printed) (h : (runJsonLines stack v 0).result = .ok r)
    (hk : AllKeys (fun k => ∀ c ∈ k, PlainChar c) v) (hs : AllPrims (fun p => ∀ s, p = .str s → ∀ c ∈ s, PlainChar c) v)
    (hn : AllPrims (fun p => ∀ x, p = .num x → (utf8Bytes (jsonNumber x)).length ≤ 20) v) :
    (utf8Bytes r.lines.flatten).length ≤ r.reserved := by
  rcases runJsonLines_cases 0 v stack with h' | h'
  · rw [h] at h'; cases h'
  · rw [h] at h'
    cases h'
    have h1 : AllKeys Unescaped v := allKeys_mono (fun k hk c hc => (hk c hc).unescaped) v hk
    have h2 : AllPrims PrimFits v := by
      refine allPrims_mono ?_ v (allPrims_both v hs hn)
      rintro p ⟨ha, hb⟩
      cases p with
      | null => exact Nat.le_refl _
      | bool b => cases b
                  · exact Nat.le_refl _
                  · exact Nat.le_succ _
      | str s =>
        rw [PrimFits, jsonPrimitive, jsonString_len_eq (fun c hc => (ha s rfl c hc).unescaped), estimatePrimitive]
        omega
      | num x =>
        have := hb x rfl
        rw [PrimFits, jsonPrimitive, estimatePrimitive, Utf8.len, C44_bytes]
        exact this
    have := estimate_ge v 0 h2 h1
    rw [Utf8.len, C44_bytes] at this
    simpa [jsonStringifyLines] using this

/-- C85.  With line breaks there is no such bound: for every factor there is a value for which that many times what is
reserved is less than what is printed. -/
theorem C85_short (indent : Nat) (hi : 0 < indent) (k : Nat) : ∃ (v : Json F) (stack : Nat) (r : Printed),
    (runJsonLines stack v indent).result = .ok r ∧ k * r.reserved < (utf8Bytes r.lines.flatten).length := by
  refine ⟨nestedArrays (24 * (k + 1)), _, _, runJsonLines_ok indent _ _ (Nat.le_refl _), ?_⟩
  have h1 := nested_length (F := F) indent (24 * (k + 1)) 0 hi
  have h2 := length_le_len (jsonStringify indent 0 (nestedArrays (24 * (k + 1)) : Json F))
  rw [Utf8.len, C44_bytes] at h2
  simp only [estimate_nested, jsonStringifyLines, List.flatten_cons, List.flatten_nil, List.append_nil]
  generalize (utf8Bytes (jsonStringify indent 0 (nestedArrays (24 * (k + 1)) : Json F))).length = L at *
  have h3 : k * (24 * (k + 1) * (6 + indent) + 4) < indent * (24 * (k + 1)) * (12 * (k + 1)) := by
    have a : 24 * (k + 1) * (6 + indent) + 4 ≤ indent * (24 * (k + 1)) * 8 := by
      have : 24 * (k + 1) ≤ indent * (24 * (k + 1)) := Nat.le_mul_of_pos_left _ hi
      have e : 24 * (k + 1) * (6 + indent) = 24 * (k + 1) * 6 + indent * (24 * (k + 1)) := by grind
      omega
    calc k * (24 * (k + 1) * (6 + indent) + 4) ≤ k * (indent * (24 * (k + 1)) * 8) := Nat.mul_le_mul_left _ a
      _ = indent * (24 * (k + 1)) * (8 * k) := by grind
      _ < indent * (24 * (k + 1)) * (12 * (k + 1)) := Nat.mul_lt_mul_of_pos_left (by omega) (Nat.mul_pos hi (by omega))
  have h4 : indent * (24 * (k + 1) * (24 * (k + 1)) + 2 * (24 * (k + 1)) * 0) = 2 * (indent * (24 * (k + 1)) * (12 * (k + 1))) := by grind
  omega

end

/-! ## Non-vacuity -/

/-- `{"a":[null]}` -/
def printedSample : Json B64 := .obj [(['a'], .arr [.prim .null])]

/-- Five calls are enough for two levels, four are not. -/
example : (runJsonLines 5 printedSample 0).result = .ok ⟨21, ["{\"a\":[null]}".toList]⟩ ∧ height printedSample = 2 := by decide +kernel
example : (runJsonLines 4 printedSample 0).result = .error .overflow := by decide +kernel
example : (runJsonLines 5 printedSample 0).steps = 8 ∧ nodes printedSample = 3 := by decide +kernel
/-- If the innermost value is an empty array, four are enough. -/
example : (runJsonLines 4 (.arr [.arr []] : Json B64) 1).result = .ok ⟨11, ["[\n []\n]".toList]⟩ := by decide +kernel
/-- Nothing in the sample is escaped. -/
example : AllKeys (fun k => ∀ c ∈ k, PlainChar c) printedSample ∧
    AllPrims (fun p => ∀ s, p = .str s → ∀ c ∈ s, PlainChar c) printedSample := by
  simp [printedSample, AllKeys, AllKeysEntries, AllKeysItems, AllPrims, AllPrimsEntries, AllPrimsItems, PlainChar]
/-- A text that is decoded with path expansion. -/
example : decode (F := B64) ⟨2, true, true⟩ "a.b: null".toList = .ok (.obj [(['a'], .obj [(['b'], .prim .null)])]) := by decide +kernel
/-- C85.  The factor 20/3 is reached: for a number that is printed as `0.0` twenty bytes are reserved. -/
theorem C85_tight : (runJsonLines 1 (.prim (.num F64.zero) : Json B64) 0).result = .ok ⟨20, [['0', '.', '0']]⟩ := by decide +kernel

end Toon
