import Verif.Lemmas.CopiesExact
import Verif.Props.EncFrames

/-!
# C78: how many values encoding copies

The steps of `runEncodeLines` (see `Model/EncFrames.lean`) are the values that the encoder copies with `clone` and `to_vec`,
where a copy of a value copies all the values in it.  `nodes` is the number of values in a value, `height` its depth.
-/

namespace Toon

section
variable {F : Type} [F64 F]

/-- C78.  Without key folding no value is copied more often than it is deep: at most as many copies as the number of values
times the depth, in whatever stack. -/
theorem C78_plain (opts : EncOpts) (hf : opts.fold = false) (v : Json F) (stack : Nat) :
    (runEncodeLines opts stack v).steps ≤ nodes v * height v :=
  runEncodeLines_copies (rate_plain hf) stack v

/-- C78.  With key folding the factor grows to the square of the depth. -/
theorem C78_fold (opts : EncOpts) (v : Json F) (stack : Nat) :
    (runEncodeLines opts stack v).steps ≤ nodes v * ((height v + 1) * (height v + 2)) :=
  runEncodeLines_copies rate_fold stack v

/-- C78.  The first bound cannot be made linear in the number of values: `4·k + 1` values, of which `2·k²` are copied,
whatever the options. -/
theorem C78_lists (opts : EncOpts) (k stack : Nat) (hs : max (6 * k + 2) 3 ≤ stack) :
    nodes (deepLists k : Json F) = 4 * k + 1 ∧ (runEncodeLines opts stack (deepLists k : Json F)).steps = 2 * (k * k) := by
  obtain ⟨r, h⟩ := deepLists_copies (F := F) opts k stack
  refine ⟨deepLists_nodes k, ?_⟩
  rw [same_copies opts (more := 6 * k + 3) (by rw [deepLists_height]; omega), ← Nat.add_assoc]
  exact h.1

/-- C78.  A chain of `n + 2` objects with one key each is written as one line, whose length is linear in `n`; but for this
line `(n + 2)·(n + 3) / 2` values are copied. -/
theorem C78_chain (opts : EncOpts) (hf : opts.fold = true) (n : Nat) (hd : n + 2 ≤ opts.flattenDepth) (stack : Nat)
    (hs : 3 * n + 8 ≤ stack) : nodes (keyChain (n + 1) : Json F) = n + 3 ∧
      encodeLines opts (keyChain (n + 1) : Json F) = [joinWith '.' (List.replicate (n + 2) ['a']) ++ ": null".toList] ∧
      2 * (runEncodeLines opts stack (keyChain (n + 1) : Json F)).steps = (n + 2) * (n + 3) := by
  have hh : height (keyChain (n + 1) : Json F) = n + 2 := by
    rw [keyChain, nested_height]; simp [height]
  obtain ⟨t, h, ht⟩ := keyChain_copies (F := F) opts hf n hd stack
  refine ⟨?_, ?_, ?_⟩
  · rw [keyChain, nested_nodes]; simp [nodes]
  · have h1 := h.2
    rw [C77_frames opts _ _ (by rw [hh]; omega)] at h1
    exact Except.ok.inj h1
  · rw [same_copies opts (more := 3 * n + 8) (by rw [hh]; omega), ← Nat.add_assoc, h.1]
    exact ht

/-- C78.  The second bound cannot be made quadratic in the number of values (F35): when the innermost of `n + 2` keys cannot
be folded, the rest of the chain is collected anew at every key, and `(n + 2)·(n + 3)·(n + 4) / 6 - 1` values are copied in
order to write `n + 2` lines. -/
theorem C78_cubic (opts : EncOpts) (hf : opts.fold = true) (n : Nat) (hd : n + 2 ≤ opts.flattenDepth) (stack : Nat)
    (hs : 3 * n + 8 ≤ stack) : nodes (blockedChain n : Json F) = n + 3 ∧
      6 * ((runEncodeLines opts stack (blockedChain n : Json F)).steps + 1) = (n + 2) * (n + 3) * (n + 4) := by
  have hh : height (blockedChain n : Json F) = n + 2 := by
    rw [blockedChain, nested_height]; simp [height]
  obtain ⟨t, r, h, ht⟩ := blockedChain_copies (F := F) opts hf n hd stack
  refine ⟨?_, ?_⟩
  · rw [blockedChain, nested_nodes]; simp [nodes]
  · rw [same_copies opts (more := 3 * n + 8) (by rw [hh]; omega), ← Nat.add_assoc, h.1]
    exact ht

end

/-! ## Non-vacuity -/

example : nodes (deepLists 2 : Json B64) = 9 ∧ (runEncodeLines (F := B64) ⟨2, ',', false, 0⟩ 14 (deepLists 2)).steps = 8 := by
  decide +kernel
/-- Three keys are folded into one; six values are copied. -/
example : (runEncodeLines (F := B64) ⟨2, ',', true, 9⟩ 11 (keyChain 2)).result = .ok ["a.a.a: null".toList] ∧
    (runEncodeLines (F := B64) ⟨2, ',', true, 9⟩ 11 (keyChain 2)).steps = 6 := by decide +kernel
/-- Three keys of which the last cannot be folded; nine values are copied, and none without folding. -/
example : (runEncodeLines (F := B64) ⟨2, ',', true, 9⟩ 11 (blockedChain 1)).result =
      .ok ["a:".toList, "  a:".toList, "    \"-\": null".toList] ∧
    (runEncodeLines (F := B64) ⟨2, ',', true, 9⟩ 11 (blockedChain 1)).steps = 9 ∧
    (runEncodeLines (F := B64) ⟨2, ',', false, 9⟩ 11 (blockedChain 1)).steps = 0 := by decide +kernel
/-- A table: every scalar of a row is copied once. -/
example : (runEncodeLines (F := B64) ⟨2, ',', false, 0⟩ 9
    (.arr [.obj [(['a'], .prim .null), (['b'], .prim .null)], .obj [(['a'], .prim .null), (['b'], .prim .null)]])).steps = 4 := by
  decide +kernel

/-- Scalars in one line, alone and in an array of such arrays, and as first entry and as element of a list: each is copied
once when the line is written, and once more with the object that is copied for the list. -/
example : (runEncodeLines (F := B64) ⟨2, ',', false, 0⟩ 9 (.arr [.prim .null, .prim .null])).steps = 2 ∧
    (runEncodeLines (F := B64) ⟨2, ',', false, 0⟩ 9 (.arr [.arr [.prim .null, .prim .null], .arr []])).steps = 2 ∧
    (runEncodeLines (F := B64) ⟨2, ',', false, 0⟩ 9 (.arr [.prim .null, .arr [.prim .null, .prim .null]])).steps = 2 ∧
    (runEncodeLines (F := B64) ⟨2, ',', false, 0⟩ 9 (.arr [.prim .null, .obj [(['a'], .arr [.prim .null, .prim .null])]])).steps =
      3 + 2 ∧
    (runEncodeLines (F := B64) ⟨2, ',', false, 0⟩ 9 (.arr [.prim .null, .obj [(['a'], .arr [.obj [(['a'], .prim .null)]])]])).steps =
      3 + 1 := by
  decide +kernel
/-- What remains after the folded keys is copied twice, at the end of the loop and after it; here, with its three values, also
before the loop. -/
example : (runEncodeLines (F := B64) ⟨2, ',', true, 2⟩ 9
      (.obj [(['a'], .obj [(['b'], .obj [(['c'], .prim .null), (['d'], .prim .null)])])])).steps = 4 + 3 + 3 ∧
    (runEncodeLines (F := B64) ⟨2, ',', true, 9⟩ 9
      (.obj [(['a'], .obj [(['b'], .obj [])])])).steps = 2 + 1 := by decide +kernel

end Toon
