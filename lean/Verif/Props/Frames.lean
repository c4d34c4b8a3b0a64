import Verif.Lemmas.FramesBound
import Verif.Lemmas.Dec
import Verif.Lemmas.Float64

/-!
# C75: how deep decoding nests its calls

`Model/Frames.lean` is the decoder with its event vector, its cursor by index and a call stack that can overflow.
`runStream stack` is `decode_stream_sync` in a stack of `stack` calls; `decodeStream` is the same function in the model
without a stack, about which the other properties are proved.
-/

namespace Toon

section
variable {F : Type} [F64 F]

theorem runStream_lines (stack indent : Nat) (strict : Bool) (source : List Str) :
    (∃ e, parseLines indent strict source 0 = .error e ∧ (runStream (F := F) stack indent strict source).result = .error (.failed e) ∧
      decodeStream (F := F) indent strict source = .error e) ∨
    ∃ lines blanks, ScansTo indent strict 0 source lines blanks ∧
      runStream (F := F) stack indent strict source = runLines ⟨strict, blanks⟩ lines stack ∧
      decodeStream (F := F) indent strict source = decodeLines ⟨strict, blanks⟩ lines := by
  cases h : parseLines indent strict source 0 with
  | error e => exact Or.inl ⟨e, rfl, by simp [runStream, h, liftErr], by simp [decodeStream, h, Bind.bind, Except.bind]⟩
  | ok r =>
    refine Or.inr ⟨r.1, r.2, (scansTo_iff _ _ _ _ _ _).mp h, ?_, ?_⟩
    · rw [runStream, h, Run.lift_ok_bind]
    · simp [decodeStream, h, Bind.bind, Except.bind]

variable [LawfulF64 F]

/-- C75.  Four nested calls for every level of indentation that occurs, and four more, are enough for every source,
whether it is accepted or not; and then the machine does what the model does: the same events or the same error. -/
theorem C75_frames (indent : Nat) (strict : Bool) (source : List Str) (levels : List Nat)
    (hlev : CoversLevels indent source levels) (stack : Nat) (hst : 4 * levels.length + 4 ≤ stack) :
    (runStream (F := F) stack indent strict source).result = liftErr (decodeStream indent strict source) := by
  rcases runStream_lines (F := F) stack indent strict source with ⟨e, _, h1, h2⟩ | ⟨lines, blanks, hsc, h1, h2⟩
  · rw [h1, h2]; rfl
  · rw [h1, h2]
    refine runLines_of _ _ levels (fun l hl hd => ?_) _ hst
    obtain ⟨spaces, ha, hb, hc, hdep⟩ := scansTo_level hsc l hl
    rw [hdep] at hd ⊢
    exact hlev spaces _ ha hb hc hd

/-- C75.  In particular, `4·D + 4` calls when no line is indented by more than `D` units. -/
theorem C75_depth (indent : Nat) (strict : Bool) (source : List Str) (D : Nat)
    (hD : ∀ spaces content, List.replicate spaces ' ' ++ content ∈ source → content.head? ≠ some ' ' → ¬ BlankLine content →
      spaces / indent ≤ D) (stack : Nat) (hst : 4 * D + 4 ≤ stack) :
    (runStream (F := F) stack indent strict source).result = liftErr (decodeStream indent strict source) := by
  refine C75_frames indent strict source ((List.range D).map (· + 1)) (fun spaces content h1 h2 h3 h4 => ?_) stack (by simpa using hst)
  have := hD spaces content h1 h2 h3
  exact List.mem_map.mpr ⟨spaces / indent - 1, by rw [List.mem_range]; omega, by omega⟩

/-- C75.  And `4·k + 4` calls when the text is shorter than `indent·(k + 1)·(k + 2) / 2` characters: the depth of the
stack grows with the square root of the length of the text only. -/
theorem C75_length (indent : Nat) (strict : Bool) (text : Str) (k : Nat) (hk : 2 * text.length < indent * ((k + 1) * (k + 2)))
    (stack : Nat) (hst : 4 * k + 4 ≤ stack) :
    (runStream (F := F) stack indent strict (splitOn '\n' text)).result = liftErr (decodeStream indent strict (splitOn '\n' text)) := by
  rcases runStream_lines (F := F) stack indent strict (splitOn '\n' text) with ⟨e, _, h1, h2⟩ | ⟨lines, blanks, hsc, h1, h2⟩
  · rw [h1, h2]; rfl
  · rw [h1, h2]
    refine runLines_of _ _ (levelsOf lines) (fun l hl hd => levelsOf_mem hl hd) _ ?_
    obtain ⟨h3, h4⟩ := scansTo_length hsc
    rw [sourceLength_split] at h3
    have h5 := nodup_sum _ _ (levelsOf_nodup lines) (levelsOf_pos lines) rfl
    have h6 := levelsOf_sum lines
    have h7 : indent * ((levelsOf lines).length * ((levelsOf lines).length + 1)) ≤ 2 * text.length := by
      have h8 := Nat.mul_le_mul_left indent (Nat.le_trans h5 (Nat.mul_le_mul_left 2 h6))
      rw [Nat.mul_left_comm indent 2] at h8
      cases lines with
      | nil => simp [levelsOf]
      | cons l ls =>
        simp only [List.length_cons] at h4
        omega
    have h9 : (levelsOf lines).length ≤ k := by
      apply Classical.byContradiction
      intro hn
      have := Nat.mul_le_mul_left indent (Nat.mul_le_mul (show k + 1 ≤ (levelsOf lines).length by omega)
        (show k + 2 ≤ (levelsOf lines).length + 1 by omega))
      omega
    omega

omit [LawfulF64 F] in
/-- C75.  No bound with fewer calls holds: for every `k` there is a source with `k` levels of indentation that overflows
every stack of fewer than `4·k + 4` calls. -/
theorem C75_needed (indent : Nat) (hi : 0 < indent) (strict : Bool) (k : Nat) :
    CoversLevels indent (staircase indent k) ((List.range k).map fun i => 2 * i + 1) ∧
    ∀ stack, stack < 4 * k + 4 → (runStream (F := F) stack indent strict (staircase indent k)).result = .error .overflow := by
  have hscan := staircase_scan indent k hi strict
  constructor
  · intro spaces content hm hc hb hpos
    simp only [staircase, List.mem_map, List.mem_range] at hm ⊢
    obtain ⟨i, hi', he⟩ := hm
    have hsp : spaces = indent * (2 * i - 1) := by
      have hw : ∀ (n : Nat) (w : Str), w.head? ≠ some ' ' →
          ((List.replicate n ' ' ++ w).takeWhile (· == ' ')).length = n := by
        intro n w hw
        rw [List.takeWhile_append_of_pos (by intro c hc; simp [List.eq_of_mem_replicate hc])]
        cases w with
        | nil => simp
        | cons x xs =>
          have : ¬ x = ' ' := fun h => hw (by simp [h])
          simp [this]
      have h1 := hw spaces content hc
      rw [← he, List.append_assoc, List.append_assoc, List.append_assoc, hw] at h1
      · exact h1.symm
      · split <;> simp
    subst hsp
    rw [Nat.mul_div_cancel_left _ hi] at hpos ⊢
    exact ⟨i - 1, by omega, by omega⟩
  · intro stack hs
    rw [runStream, hscan]
    exact stair_overflow _ k stack hs

/-- C75.  A stack that is too small is never noticed as anything else: the result is an overflow or the result. -/
theorem C75_overflow_or_same (stack indent : Nat) (strict : Bool) (source : List Str) :
    (runStream (F := F) stack indent strict source).result = .error .overflow ∨
      (runStream (F := F) stack indent strict source).result = liftErr (decodeStream indent strict source) := by
  rcases runStream_lines (F := F) stack indent strict source with ⟨e, _, h1, h2⟩ | ⟨lines, blanks, _, h1, h2⟩
  · rw [h1, h2]; exact Or.inr rfl
  · rw [h1, h2, ← runLines_of (F := F) ⟨strict, blanks⟩ lines (levelsOf lines) (fun l hl hd => levelsOf_mem hl hd)
      (stack + (4 * (levelsOf lines).length + 4)) (by omega)]
    exact (runLines_more (F := F) _ _ _ _).imp id (congrArg Run.result)

end

/-! ## Examples -/

/-- Two levels, twelve calls: eleven are not enough. -/
example : staircase 2 2 = ["a[1]:".toList, "  - a[1]:".toList, "      - a[0]:".toList] ∧
    (runStream (F := B64) 11 2 true (staircase 2 2)).result = .error .overflow ∧
    (runStream (F := B64) 12 2 true (staircase 2 2)).result = .ok [.startObj, .key ['a'] false, .startArr 1, .startObj, .key ['a'] false,
      .startArr 1, .startObj, .key ['a'] false, .startArr 0, .endArr, .endObj, .endArr, .endObj, .endArr, .endObj] := by
  decide +kernel

/-- Errors come out of the machine as well; here the row is too short. -/
example : (runStream (F := B64) 8 2 true (splitOn '\n' "a[1]{b,c}:\n  1".toList)).result =
    liftErr (decodeStream (F := B64) 2 true (splitOn '\n' "a[1]{b,c}:\n  1".toList)) ∧
    decodeStream (F := B64) 2 true (splitOn '\n' "a[1]{b,c}:\n  1".toList) = .error (.countMismatch 2 .rowValues 1) := by
  decide +kernel

/-- A text of a million characters: 4004 calls. -/
example (text : Str) (h : text.length ≤ 1000000) (strict : Bool) :
    (runStream (F := B64) 4004 2 strict (splitOn '\n' text)).result = liftErr (decodeStream 2 strict (splitOn '\n' text)) :=
  C75_length 2 strict text 1000 (by omega) 4004 (by omega)

end Toon
