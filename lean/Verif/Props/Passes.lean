import Verif.Lemmas.PassesScan
import Verif.Lemmas.Float64

/-!
# C93: how often decoding goes over the characters of a text

`lookStream indent strict source` (see `Model/Passes.lean`) is the synchronous decoder with a count of the characters that its passes
over texts go over: `.steps` is the count, `.result` the outcome.  `charCount source` is the number of characters of the source.
-/

namespace Toon

section
variable {F : Type} [F64 F]

/-- C93.  The counted decoder is the decoder: the same events, the same error. -/
theorem C93_result (indent : Nat) (strict : Bool) (source : List Str) :
    (lookStream (F := F) indent strict source).result = liftErr (decodeStream indent strict source) := by
  rw [lookStream, decodeStream]
  exact Run.Agrees.bind (lookScan_agrees indent strict source 0) fun out => lookLines_agrees _ _

/-- C93.  No more than a hundred times the text, whatever the text is, accepted or not. -/
theorem C93_bound (indent : Nat) (strict : Bool) (source : List Str) :
    (lookStream (F := F) indent strict source).steps ≤ 100 * charCount source := by
  obtain ⟨h1, h2⟩ := lookScan_steps indent strict source 0
  rw [lookStream, Run.steps_bind]
  cases hr : (lookScan indent strict source 0).result with
  | error e => simp only; omega
  | ok out =>
    obtain ⟨lines, blanks⟩ := out
    have h3 := (h2 _ hr).2
    have h4 := lookLines_bound (F := F) ⟨strict, blanks⟩ lines
    simp only at h3 ⊢
    omega

/-- C93.  And no less than twice the text, if it is accepted. -/
theorem C93_least (indent : Nat) (strict : Bool) (source : List Str) (evs : List (Ev F))
    (h : decodeStream indent strict source = .ok evs) : 2 * charCount source ≤ (lookStream (F := F) indent strict source).steps := by
  have hres := C93_result (F := F) indent strict source
  rw [h] at hres
  rw [lookStream, Run.result_bind] at hres
  rw [lookStream, Run.steps_bind]
  cases hr : (lookScan indent strict source 0).result with
  | error e => rw [hr] at hres; simp [liftErr] at hres
  | ok out =>
    have := ((lookScan_steps indent strict source 0).2 _ hr).1
    simp only
    omega

/-- C93.  The same for a text that is cut into its lines. -/
theorem C93_text (indent : Nat) (strict : Bool) (text : Str) :
    (lookStream (F := F) indent strict (splitOn '\n' text)).steps ≤ 100 * text.length :=
  Nat.le_trans (C93_bound indent strict _) (Nat.mul_le_mul_left _ (charCount_splitOn '\n' text))

end

/-- A table, a list with an array in it and a field: 47 characters, and the passes go over 1000. -/
example : (lookStream (F := B64) 2 true ["t[2]{a,b}:".toList, "  1,2".toList, "  3,\"x\"".toList, "l[1]:".toList, "  - [2]: 1,2".toList,
      "k: \"v\\n\"".toList]).steps = 1000 ∧
    charCount ["t[2]{a,b}:".toList, "  1,2".toList, "  3,\"x\"".toList, "l[1]:".toList, "  - [2]: 1,2".toList, "k: \"v\\n\"".toList] = 47 := by
  decide +kernel

/-- The text of the example is accepted. -/
example : (decodeStream (F := B64) 2 true ["t[2]{a,b}:".toList, "  1,2".toList, "  3,\"x\"".toList, "l[1]:".toList, "  - [2]: 1,2".toList,
      "k: \"v\\n\"".toList]) matches .ok _ := by
  decide +kernel

end Toon
