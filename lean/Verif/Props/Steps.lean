import Verif.Spec.Steps
import Verif.Props.Frames
import Verif.Lemmas.StepsPairs

/-!
# C76: how many steps decoding takes

`(runStream stack …).steps` is the number of steps of `decode_stream_sync` after the text has been cut into lines: calls,
passes through loops and comparisons with the numbers of blank lines, as counted by `Model/Frames.lean`.
-/

namespace Toon

theorem scansTo_counts {indent : Nat} {strict : Bool} {n : Nat} {source : List Str} {lines : List Line} {blanks : List Nat}
    (h : ScansTo indent strict n source lines blanks) : lines.length = fullLines source ∧ blanks.length = blankLines source := by
  induction h with
  | nil => exact ⟨rfl, rfl⟩
  | blank hb _ ih =>
    simp only [fullLines, blankLines, List.countP_cons, List.length_cons] at *
    simp [hb, ih.1, ih.2]
  | @line n spaces content rest ls bs hb _ _ _ ih =>
    have : ¬ BlankLine (List.replicate spaces ' ' ++ content) := fun h => hb fun c hc => h c (by simp [hc])
    simp only [fullLines, blankLines, List.countP_cons, List.length_cons] at *
    simp [this, ih.1, ih.2]

theorem manyArrays_scan (indent n b : Nat) (hi : 0 < indent) (strict : Bool) :
    ∃ blanks, blanks.length = b ∧ ScansTo indent strict 0 (manyArrays indent n b) (pairLines 0 n) blanks := by
  have hblank : ∀ b k, ∃ blanks, blanks.length = b ∧ ScansTo indent strict k (List.replicate b []) [] blanks := by
    intro b
    induction b with
    | zero => intro k; exact ⟨[], rfl, .nil k⟩
    | succ b ih =>
      intro k
      obtain ⟨bs, h1, h2⟩ := ih (k + 1)
      exact ⟨_, by simp [h1], .blank (by simp [BlankLine]) h2⟩
  have key : ∀ n i, ∃ blanks, blanks.length = b ∧ ScansTo indent strict (2 * i) (manyArrays indent n b) (pairLines i n) blanks := by
    intro n
    induction n with
    | zero => intro i; exact hblank b _
    | succ n ih =>
      intro i
      obtain ⟨bs, h1, h2⟩ := ih (i + 1)
      refine ⟨bs, h1, ?_⟩
      have e : manyArrays indent (n + 1) b = (List.replicate 0 ' ' ++ pairText) ::
          (List.replicate indent ' ' ++ ['-', ' ', 'x']) :: manyArrays indent n b := by
        simp [manyArrays, List.replicate_succ, pairText]
      rw [e, pairLines]
      have l1 := ScansTo.line (indent := indent) (strict := strict) (n := 2 * i + 1) (spaces := indent) (content := ['-', ' ', 'x'])
        (by decide) (by decide) (fun _ => ⟨by decide, Nat.mod_self _⟩) h2
      have l0 := ScansTo.line (indent := indent) (strict := strict) (n := 2 * i) (spaces := 0) (content := pairText)
        (by decide) (by decide) (fun _ => ⟨by decide, Nat.zero_mod _⟩) l1
      rw [Nat.zero_div, Nat.div_self hi] at l0
      exact l0
  exact key n 0

section
variable {F : Type} [F64 F]

theorem runStream_steps (stack indent : Nat) (strict : Bool) (source : List Str) :
    (runStream (F := F) stack indent strict source).steps ≤
      (7 + if strict then blankLines source else 0) * fullLines source + 1 := by
  cases h : parseLines indent strict source 0 with
  | error e => rw [runStream, h]; exact Nat.zero_le _
  | ok r =>
    rw [runStream, h, Run.lift_ok_bind]
    have := runLines_steps (F := F) ⟨strict, r.2⟩ r.1 stack
    obtain ⟨h1, h2⟩ := scansTo_counts ((scansTo_iff _ _ _ _ _ _).mp h)
    simp only [lineCost, blankCost, h1, h2] at this
    exact this

/-- C76.  In lenient mode the number of steps is at most seven for every line that is not blank, and one. -/
theorem C76_lenient (stack indent : Nat) (source : List Str) :
    (runStream (F := F) stack indent false source).steps ≤ 7 * fullLines source + 1 :=
  runStream_steps stack indent false source

/-- C76.  In strict mode it is at most seven and the number of blank lines for every line that is not blank, and one. -/
theorem C76_strict (stack indent : Nat) (source : List Str) :
    (runStream (F := F) stack indent true source).steps ≤ (7 + blankLines source) * fullLines source + 1 :=
  runStream_steps stack indent true source

/-- C76.  It never grows faster than the square of the number of lines. -/
theorem C76_square (stack indent : Nat) (strict : Bool) (source : List Str) :
    4 * (runStream (F := F) stack indent strict source).steps ≤ (source.length + 7) * (source.length + 7) + 4 := by
  have h := runStream_steps (F := F) stack indent strict source
  have hl : source.length = fullLines source + blankLines source := by
    have := List.length_eq_countP_add_countP (fun line => !decide (BlankLine line)) (l := source)
    simpa [fullLines, blankLines] using this
  have hb : (7 + if strict then blankLines source else 0) * fullLines source ≤ (7 + blankLines source) * fullLines source :=
    Nat.mul_le_mul_right _ (by split <;> omega)
  have am : ∀ a c : Nat, 4 * (a * c) ≤ (a + c) * (a + c) := by
    intro a c
    rcases Nat.le_total a c with hle | hle
    · obtain ⟨d, rfl⟩ := Nat.exists_eq_add_of_le hle
      simp only [Nat.add_mul, Nat.mul_add, Nat.mul_comm d a]
      have := Nat.zero_le (d * d)
      omega
    · obtain ⟨d, rfl⟩ := Nat.exists_eq_add_of_le hle
      simp only [Nat.add_mul, Nat.mul_add, Nat.mul_comm d c]
      have := Nat.zero_le (d * d)
      omega
  have := am (7 + blankLines source) (fullLines source)
  rw [hl, show fullLines source + blankLines source + 7 = 7 + blankLines source + fullLines source by omega]
  omega

/-- C76.  And the blank lines do cost that much: `n` arrays of one element each, followed by `b` blank lines, are accepted,
and take `b` steps more in strict mode for every array, although there is no blank line among them. -/
theorem C76_blank_lines (stack indent n b : Nat) (hs : 5 ≤ stack) (hi : 0 < indent) (strict : Bool) :
    (runStream (F := F) stack indent strict (manyArrays indent n b)).steps = n * (7 + if strict then b else 0) + 1 ∧
    ∃ evs, (runStream (F := F) stack indent strict (manyArrays indent n b)).result = .ok evs := by
  obtain ⟨stack, rfl⟩ : ∃ k, stack = k + 5 := ⟨stack - 5, by omega⟩
  obtain ⟨blanks, h1, h2⟩ := manyArrays_scan indent n b hi strict
  obtain ⟨evs, h3, h4⟩ := pair_run (F := F) ⟨strict, blanks⟩ stack n
  rw [runStream, (scansTo_iff _ _ _ _ _ _).mpr h2, Run.lift_ok_bind]
  simp only [blankCost, h1] at h3
  exact ⟨h3, evs, h4⟩

/-- C76.  So there are texts of about `13·k` characters, for every `k`, that take `k²` steps in strict mode. -/
theorem C76_quadratic (k : Nat) : ∃ text : Str, text.length ≤ 13 * k ∧ ∀ stack, 5 ≤ stack →
    k * k ≤ (runStream (F := F) stack 2 true (splitOn '\n' text)).steps := by
  cases k with
  | zero => exact ⟨[], by simp, fun _ _ => by simp⟩
  | succ k =>
    have hne : manyArrays 2 (k + 1) (k + 1) ≠ [] := by simp [manyArrays]
    have hnl : ∀ w ∈ manyArrays 2 (k + 1) (k + 1), '\n' ∉ w := by
      intro w hw
      rw [manyArrays, List.mem_append, List.mem_flatten] at hw
      rcases hw with ⟨l, hl, hw⟩ | hw
      · rw [List.eq_of_mem_replicate hl] at hw
        simp only [List.mem_cons, List.not_mem_nil, or_false] at hw
        rcases hw with rfl | rfl <;> decide
      · rw [List.eq_of_mem_replicate hw]; simp
    have hsp := splitOn_joinWith hne hnl
    refine ⟨joinWith '\n' (manyArrays 2 (k + 1) (k + 1)), ?_, fun stack hst => ?_⟩
    rotate_left
    · rw [hsp, (C76_blank_lines stack 2 (k + 1) (k + 1) hst (by omega) true).1]
      simp only [if_true, Nat.mul_add]
      omega
    · have h1 := sourceLength_split '\n' (joinWith '\n' (manyArrays 2 (k + 1) (k + 1)))
      rw [hsp] at h1
      have h2 : ∀ n b, sourceLength (manyArrays 2 n b) = 12 * n + b := by
        intro n b
        induction n with
        | zero => simp [manyArrays, sourceLength]
        | succ n ih =>
          have e : manyArrays 2 (n + 1) b = pairText :: (List.replicate 2 ' ' ++ ['-', ' ', 'x']) :: manyArrays 2 n b := by
            simp [manyArrays, List.replicate_succ, pairText]
          rw [e]
          simp only [sourceLength, List.map_cons, List.sum_cons] at ih ⊢
          rw [ih]
          simp [pairText]
          omega
      rw [h2] at h1
      omega

/-- C76.  A stack that is large enough takes no steps of its own: with more of it, the same steps. -/
theorem C76_stack (stack more indent : Nat) (strict : Bool) (source : List Str)
    (h : (runStream (F := F) stack indent strict source).result ≠ .error .overflow) :
    (runStream (F := F) (stack + more) indent strict source).steps = (runStream (F := F) stack indent strict source).steps := by
  cases hp : parseLines indent strict source 0 with
  | error e => rw [runStream, runStream, hp]; rfl
  | ok r =>
    rw [runStream, hp, Run.lift_ok_bind] at h ⊢
    rw [runStream, hp, Run.lift_ok_bind]
    obtain ⟨lines, blanks⟩ := r
    rcases runLines_more (F := F) ⟨strict, blanks⟩ lines stack more with h1 | h1
    · exact absurd h1 h
    · simp only [h1]

end

/-! ## Examples -/

/-- The text of `C76_blank_lines` with three arrays and two blank lines: 28 steps in strict mode, 22 in lenient mode. -/
example : manyArrays 2 3 2 = ["a[1]:".toList, "  - x".toList, "a[1]:".toList, "  - x".toList, "a[1]:".toList, "  - x".toList, [], []] ∧
    (runStream (F := B64) 12 2 true (manyArrays 2 3 2)).steps = 28 ∧
    (runStream (F := B64) 12 2 false (manyArrays 2 3 2)).steps = 22 := by
  decide +kernel

/-- A table in a list in an object: four lines, 16 steps; the bound is 29. -/
example : fullLines (splitOn '\n' "a:\n  b[1]:\n    - c[1]{d}:\n        1".toList) = 4 ∧
    (runStream (F := B64) 24 2 true (splitOn '\n' "a:\n  b[1]:\n    - c[1]{d}:\n        1".toList)).steps = 16 := by
  decide +kernel

/-- A run that ends with an error has steps as well; the second line has no colon. -/
example : (runStream (F := B64) 24 2 true (splitOn '\n' "a: 1\nb\nc: 1".toList)).steps = 4 ∧
    (runStream (F := B64) 24 2 true (splitOn '\n' "a: 1\nb\nc: 1".toList)).result = .error (.failed .missingColon) := by
  decide +kernel

end Toon
