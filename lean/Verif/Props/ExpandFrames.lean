import Verif.Lemmas.ExpandStepsExact
import Verif.Lemmas.ExpandSteps
import Verif.Lemmas.Float64
import Verif.Props.Grammar

/-!
# C79: how deep path expansion nests its calls, and what it compares and copies

`Model/ExpandFrames.lean` is path expansion with a call stack that can overflow.  `runExpand strict stack` is
`expand_paths_safe` in a stack of `stack` calls; its steps are the keys it compares and the values it copies with `clone`,
where a copy of a value copies all the values in it.  `expandPathsSafe` is the same function in the model without a stack,
about which the other properties are proved.
-/

namespace Toon

section
variable {F : Type}

/-- C79.  A stack of 258 calls is enough for every value, however deep, in both modes: the machine returns what the model
returns, a value or an error. -/
theorem C79_stack (strict : Bool) (stack : Nat) (h : 258 ≤ stack) (value : Node F) :
    (runExpand strict stack value).result = liftErr (expandPathsSafe strict value) :=
  runExpand_result strict stack h value

/-- C79.  A smaller stack is not enough for all values: 256 arrays in each other overflow every one. -/
theorem C79_needed (strict : Bool) (n : Nat) (hn : 256 ≤ n) (stack : Nat) (h : stack < 258) :
    (runExpand strict stack (deepNode n : Node F)).result = .error .overflow := by
  cases stack with
  | zero => rfl
  | succ stack => exact deepNode_overflow strict stack 0 n (by omega) (by omega)

/-- C79.  A stack that is too small is never noticed as anything else: the result is an overflow or that of the model. -/
theorem C79_overflow_or_same (strict : Bool) (stack : Nat) (value : Node F) :
    (runExpand strict stack value).result = .error .overflow ∨
      (runExpand strict stack value).result = liftErr (expandPathsSafe strict value) := by
  rcases runExpand_more strict stack 258 value with h | h
  · exact Or.inl h
  · exact Or.inr (by rw [h]; exact C79_stack strict _ (by omega) value)

/-- C79.  The work is bounded by the square of the volume of the value (its values and the characters of its keys and
strings) times its depth, and the factor of the depth does not exceed 128.  This holds for expansions that fail as well. -/
theorem C79_steps (strict : Bool) (stack : Nat) (value : Node F) :
    (runExpand strict stack value).steps ≤
      2 * (volume (nodeToJson value) * volume (nodeToJson value)) * min (height (nodeToJson value)) 128 :=
  runExpand_steps strict stack value

/-- C79.  The square is reached (F36): for every `n` there is a text of at most `9·n + 16` characters that the decoder
accepts in both modes and for whose value expansion takes exactly `n·(n + 3)` steps and succeeds, with seven calls. -/
theorem C79_quadratic [F64 F] [LawfulF64 F] (strict : Bool) (n : Nat) (h0 : 1 ≤ n) (hn : n ≤ 100000000) :
    (mergedText n).length ≤ 9 * n + 16 ∧
    ∃ (evs : List (Ev F)) (value expanded : Node F),
      decodeStream 2 strict (splitOn '\n' (mergedText n)) = .ok evs ∧ buildNode evs = .ok value ∧
      ∀ stack, 7 ≤ stack → (runExpand strict stack value).result = .ok expanded ∧
        (runExpand strict stack value).steps = n * (n + 3) := by
  refine ⟨mergedText_length n, (mergedTree n).events, (mergedTree n).node,
    .obj [(['a'], .obj [(['b'], .arr ((List.replicate n (.bool true)).map .prim))] [])] [],
    (C58_events 2 strict _ _).mpr ⟨mergedTree n, mergedText_means strict h0 hn, rfl⟩, buildNode_events _, ?_⟩
  intro stack hs
  obtain ⟨s, rfl⟩ : ∃ s, stack = s + 7 := ⟨stack - 7, by omega⟩
  have h := mergedTree_copies (F := F) strict n s
  exact ⟨h.2, h.1⟩

end

/-! ## Non-vacuity -/

/-- The text for two repetitions, and the value that is decoded from it. -/
example : mergedText 2 = "a:\n  b[2]: true,true\na:\na:".toList := by decide +kernel
example : decode (F := B64) ⟨2, true, true⟩ (mergedText 2) =
    .ok (.obj [(['a'], .obj [(['b'], .arr [.prim (.bool true), .prim (.bool true)])])]) := by decide +kernel
/-- Two keys are compared and two times four values are copied. -/
example : (runExpand (F := B64) true 7 (mergedTree 2).node).steps = 10 := by decide +kernel
/-- Two paths with a common beginning: the key `a` is compared once, and then the key `b` with `c`; nothing is copied. -/
example : (runExpand (F := B64) true 6 (.obj [("a.b".toList, .prim .null), ("a.c".toList, .prim .null)] [])).result.map nodeToJson =
      .ok (.obj [(['a'], .obj [(['b'], .prim .null), (['c'], .prim .null)])]) ∧
    (runExpand (F := B64) true 6 (.obj [("a.b".toList, .prim .null), ("a.c".toList, .prim .null)] [])).steps = 2 ∧
    (runExpand (F := B64) true 5 (.obj [("a.b".toList, .prim .null), ("a.c".toList, .prim .null)] [])).result.map nodeToJson =
      .error .overflow := by decide +kernel
/-- A conflict: the value that is there is copied before the error is found; without strict mode it is replaced. -/
example : (runExpand (F := B64) true 9 (.obj [(['a'], .arr [.prim .null]), (['a'], .prim .null)] [])).result.map nodeToJson =
      .error (.failed (.pathConflict (.merge ['a'] .array .primitive))) ∧
    (runExpand (F := B64) true 9 (.obj [(['a'], .arr [.prim .null]), (['a'], .prim .null)] [])).steps = 1 + 2 ∧
    (runExpand (F := B64) false 9 (.obj [(['a'], .arr [.prim .null]), (['a'], .prim .null)] [])).result.map nodeToJson =
      .ok (.obj [(['a'], .prim .null)]) := by decide +kernel
/-- A merge of two objects with a common key: three comparisons, of `a` with `a`, of `b` with `b` and of `c` with `b`, and
copies of the object with `b` and of the value of `b`. -/
example : (runExpand (F := B64) false 9 (.obj [(['a'], .obj [(['b'], .prim .null)] []),
      (['a'], .obj [(['b'], .prim (.bool true)), (['c'], .prim .null)] [])] [])).result.map nodeToJson =
      .ok (.obj [(['a'], .obj [(['b'], .prim (.bool true)), (['c'], .prim .null)])]) ∧
    (runExpand (F := B64) false 9 (.obj [(['a'], .obj [(['b'], .prim .null)] []),
      (['a'], .obj [(['b'], .prim (.bool true)), (['c'], .prim .null)] [])] [])).steps = 1 + (1 + 2 + 1 + 1 + 1) := by
  decide +kernel

end Toon
