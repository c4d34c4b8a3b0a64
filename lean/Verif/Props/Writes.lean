import Verif.Lemmas.WritesRun
import Verif.Lemmas.Float64
import Verif.Lemmas.Dec

/-!
# C95: writing takes time in proportion to the text

`putText opts stack v` (see `Model/Writes.lean`) is `encode` in a stack of `stack` calls: its `result` is the text, or that the stack does
not suffice, and its `steps` are the characters that it goes over to make up tokens, rows, lines and the text.
-/

namespace Toon

section
variable {F : Type} [F64 F]

theorem putText_puts (opts : EncOpts) (stack : Nat) (v : Json F) (h : max (3 * height v + 2) 3 ≤ stack) :
    (putText opts stack v).result = .ok (encode opts v) ∧
    ink opts.indent (encodeValue opts (normalize v)) + (encode opts v).length ≤ (putText opts stack v).steps ∧
    (putText opts stack v).steps ≤ 24 * ink opts.indent (encodeValue opts (normalize v)) + (encode opts v).length := by
  match stack with
  | 0 => omega
  | s + 1 =>
    have hp := putValue_puts opts s (normalize v) (by rw [height_normalize]; omega)
    have hr := hp.result
    rw [List.nil_append] at hr
    have h1 := hp.least
    have h2 := hp.most
    have he : joinWith '\n' ((encodeValue opts (normalize v)).map (renderLine opts.indent)) = encode opts v := rfl
    rw [putText]
    refine ⟨?_, ?_, ?_⟩
    · rw [Run.result_bind, hr]
      simp only [Run.result_bind, Run.result_tick, Run.result_pure]
      rw [he]
    · rw [Run.steps_bind, hr]
      simp only [Run.steps_bind, Run.result_tick, Run.steps_tick, Run.steps_pure]
      rw [he]
      omega
    · rw [Run.steps_bind, hr]
      simp only [Run.steps_bind, Run.result_tick, Run.steps_tick, Run.steps_pure]
      rw [he]
      omega

/-- C95.  In a stack of three calls for every level (and two more) the text is that of `encode`. -/
theorem C95_result (opts : EncOpts) (stack : Nat) (v : Json F) (h : max (3 * height v + 2) 3 ≤ stack) :
    (putText opts stack v).result = .ok (encode opts v) :=
  (putText_puts opts stack v h).1

/-- C95.  And the characters that are gone over are at most twenty-five for every character of the text, whatever the value and
the options. -/
theorem C95_bound (opts : EncOpts) (stack : Nat) (v : Json F) (h : max (3 * height v + 2) 3 ≤ stack) :
    (putText opts stack v).steps ≤ 25 * (encode opts v).length := by
  have h1 := (putText_puts opts stack v h).2.2
  have h2 : ink opts.indent (encodeValue opts (normalize v)) ≤ (encode opts v).length := (ink_text opts _).1
  omega

/-- C95.  At least every line is written once by itself and once more as part of the text. -/
theorem C95_least (opts : EncOpts) (stack : Nat) (v : Json F) (h : max (3 * height v + 2) 3 ≤ stack) :
    ((encodeLines opts v).map List.length).sum + (encode opts v).length ≤ (putText opts stack v).steps := by
  have h1 := (putText_puts opts stack v h).2.1
  have : ((encodeLines opts v).map List.length).sum = ink opts.indent (encodeValue opts (normalize v)) := by
    simp only [encodeLines, encodeJsonValue, List.map_map, ink, Function.comp_def]
  omega

end

/-! ### Examples -/

namespace WritesExample

def plain : EncOpts := ⟨2, ',', false, 9⟩

/-- `{"id": null, "tags": ["a b", "x,y"], "rows": [{"k": true}, {"k": null}], "list": [null, {"p q": {"z": null}}]}`. -/
def mixed : Json B64 := .obj [("id".toList, .prim .null), ("tags".toList, .arr [.prim (.str "a b".toList), .prim (.str "x,y".toList)]),
  ("rows".toList, .arr [.obj [("k".toList, .prim (.bool true))], .obj [("k".toList, .prim .null)]]),
  ("list".toList, .arr [.prim .null, .obj [("p q".toList, .obj [("z".toList, .prim .null)])]])]

/-- 96 characters of text and 452 that are gone over. -/
example : (putText plain 14 mixed).result = .ok
      "id: null\ntags[2]: a b,\"x,y\"\nrows[2]{k}:\n  true\n  null\nlist[2]:\n  - null\n  - \"p q\":\n      z: null".toList ∧
    (putText plain 14 mixed).steps = 452 := by
  decide +kernel

/-- The theorem meets the example. -/
example : (putText plain 14 mixed).steps ≤ 25 * (encode plain mixed).length :=
  C95_bound plain 14 mixed (by decide +kernel)

/-- Sixteen passes of the tests, one for the escapes, one over the escapes, one for the token and one for the text. -/
example : (putText plain 3 (.prim (.str "a,\n".toList) : Json B64)).steps = 16 * 3 + 3 + 4 + 6 + 6 := by decide +kernel

/-- A smaller stack does not suffice. -/
example : (putText plain 9 mixed).result = .error .overflow := by decide +kernel

end WritesExample

end Toon
