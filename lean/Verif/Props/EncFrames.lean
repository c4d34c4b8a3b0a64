import Verif.Lemmas.CopiesExact
import Verif.Lemmas.Dec
import Verif.Lemmas.Float64
import Verif.Props.Resources
import Verif.Props.Host
import Verif.Lemmas.LastWinsHeight

/-!
# C77: how deep encoding nests its calls

`Model/EncFrames.lean` is the encoder with its output vector and a call stack that can overflow.  `runEncodeLines opts stack`
is `encode_lines` in a stack of `stack` calls; `encodeLines` is the same function in the model without a stack, about which
the other properties are proved.  `height` is the number of arrays and objects around the innermost value.
-/

namespace Toon

section
variable {F : Type} [F64 F]

/-- C77.  Three nested calls for every level of nesting of the value, and two more, are enough for every value and all
options, and then the machine writes the lines that the model writes. -/
theorem C77_frames (opts : EncOpts) (v : Json F) (stack : Nat) (h : max (3 * height v + 2) 3 ≤ stack) :
    (runEncodeLines opts stack v).result = .ok (encodeLines opts v) :=
  runEncodeLines_ok opts stack v h

/-- C77.  No bound with fewer calls holds for all values: for every `k` there is one with `2·k` levels of nesting that
overflows every smaller stack, whatever the options. -/
theorem C77_needed (opts : EncOpts) (k : Nat) : height (deepLists k : Json F) = 2 * k ∧
    ∀ stack, stack < max (3 * (2 * k) + 2) 3 → (runEncodeLines opts stack (deepLists k : Json F)).result = .error .overflow :=
  ⟨deepLists_height k, fun stack h => deepLists_overflow opts k stack (by omega)⟩

/-- C77.  A stack that is too small is never noticed as anything else: the result is an overflow or the lines. -/
theorem C77_overflow_or_same (opts : EncOpts) (v : Json F) (stack : Nat) :
    (runEncodeLines opts stack v).result = .error .overflow ∨ (runEncodeLines opts stack v).result = .ok (encodeLines opts v) := by
  rcases runEncodeLines_more opts stack (3 * height v + 3) v with h | h
  · exact Or.inl h
  · exact Or.inr (by rw [h]; exact C77_frames opts v _ (by omega))

/-- C77.  What is read from JSON text, which must not be nested more than 127 deep, is encoded in a stack of 383 calls. -/
theorem C77_json_text (opts : EncOpts) (rd : Str → Option F) (text : Str) (h : Json F) (hr : hostFromStr rd text = .ok h)
    (stack : Nat) (hs : 383 ≤ stack) : (runEncodeLines opts stack (fromHost h)).result = .ok (encodeLines opts (fromHost h)) := by
  obtain ⟨v, _, h1, rfl⟩ := (C42_from_text rd text h).mp hr
  refine C77_frames opts _ stack ?_
  have := height_lastWins v
  rw [fromHost_eq, height_normalize]
  omega

/-- C77.  What was decoded from a text of fewer than `indent·(k + 1)·(k - 1) / 8` characters is encoded in a stack of
`3·k + 3` calls: its depth grows with the square root of the length of the text only. -/
theorem C77_decoded [LawfulF64 F] (eopts : EncOpts) (dopts : DecOpts) (hx : dopts.expand = false) (text : Str) (v : Json F)
    (hd : decode dopts text = .ok v) (k : Nat) (hk : 8 * text.length < dopts.indent * ((k + 1) * (k - 1))) (stack : Nat)
    (hs : 3 * k + 3 ≤ stack) : (runEncodeLines eopts stack v).result = .ok (encodeLines eopts v) := by
  refine C77_frames eopts v stack ?_
  have h1 := C59_nesting dopts hx text v hd
  have h2 : height v ≤ k := by
    apply Classical.byContradiction
    intro hn
    have := Nat.mul_le_mul_left dopts.indent (Nat.mul_le_mul (show k + 1 ≤ height v by omega) (show k - 1 ≤ height v - 2 by omega))
    omega
  omega

end

/-! ## Non-vacuity -/

/-- A value with two levels of nesting that is written as a list: eight calls are enough, seven are not. -/
example : (runEncodeLines (F := B64) ⟨2, ',', false, 0⟩ 8 (deepLists 1)).result =
    .ok ["[2]:".toList, "  - a: null".toList, "    b: null".toList, "  - null".toList] := by decide +kernel
example : (runEncodeLines (F := B64) ⟨2, ',', false, 0⟩ 7 (deepLists 1)).result = .error .overflow := by decide +kernel
/-- So this is what the model writes. -/
example : encodeLines ⟨2, ',', false, 0⟩ (deepLists 1 : Json B64) =
    ["[2]:".toList, "  - a: null".toList, "    b: null".toList, "  - null".toList] :=
  Except.ok.inj ((C77_frames ⟨2, ',', false, 0⟩ (deepLists 1 : Json B64) 8 (by decide)).symm.trans (by decide +kernel))
/-- Other values need less: an object in an object needs two calls for a level. -/
example : (runEncodeLines (F := B64) ⟨2, ',', false, 0⟩ 6 (.obj [(['a'], .obj [(['b'], .prim .null)])])).result =
    .ok ["a:".toList, "  b: null".toList] := by decide +kernel
/-- A text and the value it is decoded to. -/
example : decode (F := B64) ⟨2, true, false⟩ "a:\n  b: null".toList = .ok (.obj [(['a'], .obj [(['b'], .prim .null)])]) ∧
    8 * "a:\n  b: null".toList.length < 2 * ((8 + 1) * (8 - 1)) := by decide +kernel

end Toon
