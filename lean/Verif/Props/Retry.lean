import Verif.Lemmas.Retry
import Verif.Spec.Join
import Verif.Lemmas.Float64
import Verif.Lemmas.Dec

/-!
# C96: what a rejected text means for the caller

Which variant of the error type a caller can match on, what the entry points that panic say, and whether it helps to try again
without strict mode.  `strictOnly` is in `Spec/Retry.lean`, `WellIndented` in `Spec/Join.lean`.
-/

namespace Toon

section
variable {F : Type} [F64 F] [LawfulF64 F]

/-- C96.  Trying again without strict mode helps only if the error is one of those that strict mode alone reports: every other error
comes back, the same. -/
theorem C96_same_error (indent : Nat) (expand : Bool) (text : Str) (e : Err) (h : decode (F := F) ⟨indent, true, expand⟩ text = .error e)
    (he : strictOnly e = false) : decode (F := F) ⟨indent, false, expand⟩ text = .error e := by
  cases expand with
  | false =>
    rw [C60_exact _ rfl, ← C60_events] at h ⊢
    exact decodeStream_retry h he
  | true =>
    rw [C63_error _ rfl] at h ⊢
    rcases h with h | ⟨t, h1, h2⟩
    · left
      rw [← C60_events] at h ⊢
      exact decodeStream_retry h he
    · right
      refine ⟨t, ?_, firstFailure_retry h2 he⟩
      have := (C58_events _ _ _ _).mpr ⟨t, h1, rfl⟩
      obtain ⟨t', h3, h4⟩ := (C58_events _ _ _ _).mp (C17_events _ _ _ this)
      rwa [events_inj h4]

/-- C96.  Without strict mode none of those is reported. -/
theorem C96_lax (opts : DecOpts) (hs : opts.strict = false) (text : Str) (e : Err) (h : decode (F := F) opts text = .error e) :
    strictOnly e = false := by
  have := C60_says opts text e h
  rw [hs] at this
  cases e with
  | countMismatch n what m => cases what <;> simp [Complaint] at this
  | _ => first | rfl | simp [Complaint] at this

/-- C96.  So a text that is rejected in strict mode and accepted without has failed for a reason of strict mode. -/
theorem C96_helped (indent : Nat) (expand : Bool) (text : Str) (e : Err) (v : Json F)
    (h : decode (F := F) ⟨indent, true, expand⟩ text = .error e) (hv : decode ⟨indent, false, expand⟩ text = .ok v) : strictOnly e = true := by
  cases he : strictOnly e with
  | true => rfl
  | false => rw [C96_same_error indent expand text e h he] at hv; simp at hv

/-- C96.  A conflict of path expansion is always cured by trying again, unless the depth cap is met. -/
theorem C96_conflict (indent : Nat) (expand : Bool) (text : Str) (c : Conflict)
    (h : decode (F := F) ⟨indent, true, expand⟩ text = .error (.pathConflict c)) :
    (∃ v, decode (F := F) ⟨indent, false, expand⟩ text = .ok v) ∨ decode (F := F) ⟨indent, false, expand⟩ text = .error .expandDepth := by
  have hx : expand = true := (C60_says _ text _ h).2
  subst hx
  rcases (C63_error _ rfl text _).mp h with h | ⟨t, h1, _⟩
  · exact absurd (textFails_complaint h : Complaint true false indent _ (.pathConflict c)).2 (by simp)
  · have := (C58_events _ _ _ _).mpr ⟨t, h1, rfl⟩
    obtain ⟨t', h3, _⟩ := (C58_events _ _ _ _).mp (C17_events _ _ _ this)
    rw [C63_outcome ⟨indent, false, true⟩ rfl text t' h3]
    cases hf : firstFailure false (hurdles 1 t') with
    | none => exact Or.inl ⟨_, rfl⟩
    | some e => rw [firstFailure_lax hf]; exact Or.inr rfl

/-- C96.  The error of decoding is of the variant `Validation` or `Message`; the others are never returned. -/
theorem C96_kind (opts : DecOpts) (text : Str) (e : Err) (h : decode (F := F) opts text = .error e) :
    e.kind = some .validation ∨ e.kind = some .message := by
  have := C60_says opts text e h
  cases e <;> first | exact Or.inl rfl | exact Or.inr rfl | exact this.elim

/-- C96.  It is `Validation` exactly in strict mode for a text with a line, not blank, whose indentation is not a whole number of units
or has tabs, whatever else may be wrong with the text. -/
theorem C96_validation (opts : DecOpts) (text : Str) :
    (∃ e, decode (F := F) opts text = .error e ∧ e.kind = some .validation) ↔
      opts.strict = true ∧ ¬ WellIndented opts.indent (splitOn '\n' text) := by
  constructor
  · rintro ⟨e, he, hk⟩
    have hc := C60_says opts text e he
    have blank : ∀ {a : Nat} {x : Str}, ¬ BlankLine x → ¬ BlankLine (List.replicate a ' ' ++ x) :=
      fun hx hb => hx fun c hc => hb c (List.mem_append_right _ hc)
    cases e with
    | tabsInIndent n =>
      obtain ⟨hs, spaces, content, ⟨before, after, hl, _⟩, hb⟩ := hc
      refine ⟨hs, fun hw => ?_⟩
      obtain ⟨k, rest, h1, h2, h3⟩ := hw (List.replicate spaces ' ' ++ '\t' :: content) (by rw [hl]; simp)
        (blank fun hx => hb fun c hc => hx c (List.mem_cons_of_mem _ hc))
      obtain ⟨_, h4⟩ := spaces_unique (by simp) h2 h1
      subst h4
      simp at h3
    | badIndent n size found =>
      obtain ⟨hs, hi, hm, content, ⟨before, after, hl, _⟩, hh, hb⟩ := hc
      refine ⟨hs, fun hw => ?_⟩
      obtain ⟨k, rest, h1, h2, h3⟩ := hw (List.replicate found ' ' ++ content) (by rw [hl]; simp) (blank hb)
      obtain ⟨h4, _⟩ := spaces_unique hh h2 h1
      subst h4 hi
      simp at hm
    | _ => simp [Err.kind] at hk
  · rintro ⟨hs, hw⟩
    cases hp : parseLines opts.indent true (splitOn '\n' text) 0 with
    | ok out => exact absurd (parseLines_strict hp) hw
    | error e =>
      refine ⟨e, ?_, (parseLines_strictOnly hp).2⟩
      refine decodeFromLines_error ?_
      unfold decodeStream
      rw [hs, hp]
      rfl

/-- C96.  So without strict mode it is `Message`. -/
theorem C96_lax_kind (opts : DecOpts) (hs : opts.strict = false) (text : Str) (e : Err) (h : decode (F := F) opts text = .error e) :
    e.kind = some .message := by
  rcases C96_kind opts text e h with hk | hk
  · have := ((C96_validation opts text).mp ⟨e, h, hk⟩).1
    rw [hs] at this
    simp at this
  · exact hk

/-- C96.  The entry point that panics does so for the texts that are rejected and for no others, with the text of the error for a
message; for all others it returns the value. -/
theorem C96_panics (opts : DecOpts) (text : Str) :
    (∀ v : Json F, decodeOrPanic opts text = .returns v ↔ decode opts text = .ok v) ∧
    ∀ m, decodeOrPanic (F := F) opts text = .panics m ↔ ∃ e, decode (F := F) opts text = .error e ∧ e.text = some m := by
  unfold decodeOrPanic
  cases h : decode (F := F) opts text with
  | ok v => exact ⟨fun v' => by simp [orPanic], fun m => by simp [orPanic]⟩
  | error e =>
    refine ⟨fun v' => by simp [orPanic], fun m => ?_⟩
    have := C60_text opts text e h
    cases ht : e.text with
    | none => exact absurd ht this
    | some s =>
      simp only [orPanic, ht, Option.getD_some, Panicking.panics.injEq, Except.error.injEq, exists_eq_left', Option.some.injEq]

/-- C96.  In terms of the language (without path expansion): a value is returned exactly for a text that stands for one, and the panic
names the first fault. -/
theorem C96_panics_language (opts : DecOpts) (hx : opts.expand = false) (text : Str) :
    (∀ v : Json F, decodeOrPanic opts text = .returns v ↔
      ∃ t, TextMeans opts.indent opts.strict (splitOn '\n' text) t ∧ v = ETree.json t) ∧
    ∀ m, decodeOrPanic (F := F) opts text = .panics m ↔
      ∃ e, TextFails F opts.strict opts.indent (splitOn '\n' text) e ∧ e.text = some m := by
  refine ⟨fun v => (C96_panics opts text).1 v |>.trans (C58_value opts hx text v), fun m => ((C96_panics opts text).2 m).trans ?_⟩
  simp only [C60_exact opts hx text]

/-- C96.  The other entry points that panic: lines instead of a text, and events instead of a value. -/
theorem C96_panics_lines (opts : DecOpts) (text : Str) (lines : List Str) :
    decodeFromLinesOrPanic (F := F) opts (splitOn '\n' text) = decodeOrPanic opts text ∧
    (∀ evs : List (Ev F), decodeStreamOrPanic opts.indent opts.strict lines = .returns evs ↔
      ∃ t, TextMeans opts.indent opts.strict lines t ∧ evs = ETree.events t) ∧
    ∀ m, decodeStreamOrPanic (F := F) opts.indent opts.strict lines = .panics m ↔
      ∃ e, TextFails F opts.strict opts.indent lines e ∧ e.text = some m := by
  refine ⟨rfl, fun evs => ?_, fun m => ?_⟩
  · rw [← C58_events]
    unfold decodeStreamOrPanic
    cases decodeStream (F := F) opts.indent opts.strict lines <;> simp [orPanic]
  · simp only [← C60_events]
    unfold decodeStreamOrPanic
    cases h : decodeStream (F := F) opts.indent opts.strict lines with
    | ok v => simp [orPanic]
    | error e =>
      have ht : e.text ≠ none := by
        have := (textFails_complaint ((C60_events _ _ _ _).mp h) : Complaint opts.strict false opts.indent lines e)
        cases e with
        | badEscape c => cases c <;> exact Option.some_ne_none _
        | _ => first | exact Option.some_ne_none _ | exact this.elim
      cases hs : e.text with
      | none => exact absurd hs ht
      | some s =>
        simp only [orPanic, hs, Option.getD_some, Panicking.panics.injEq, Except.error.injEq, exists_eq_left', Option.some.injEq]

end

/-- Finding F47.  The integration guide has "Library errors are `ToonError::Message`": odd indentation is `Validation`, blank lines inside
an array are not. -/
theorem C96_not_message :
    (∃ e, decode (F := B64) ⟨2, true, false⟩ "a:\n   b: c".toList = .error e ∧ e.kind = some .validation) ∧
    (∃ e, decode (F := B64) ⟨2, true, false⟩ "[2]:\n  - x\n\n  - y".toList = .error e ∧ e.kind = some .message) :=
  ⟨⟨.badIndent 2 2 3, by decide +kernel, rfl⟩, ⟨.blankLine 3 false, by decide +kernel, rfl⟩⟩

/-! ### Examples -/

namespace RetryExample

def strict : DecOpts := ⟨2, true, true⟩
def lax : DecOpts := ⟨2, false, true⟩

/-- A fault of the text comes back, also if strict mode would have had more to say further down. -/
example : decode (F := B64) strict "a: \"x\nb[2]: y".toList = .error .unterminatedString ∧
    decode (F := B64) lax "a: \"x\nb[2]: y".toList = .error .unterminatedString := by decide +kernel

example : decode (F := B64) lax "a: \"x\nb[2]: y".toList = .error .unterminatedString :=
  C96_same_error 2 true _ _ (by decide +kernel) rfl

/-- A wrong count does not, and what comes after it may be wrong as well. -/
example : decode (F := B64) strict "b[2]: y".toList = .error (.countMismatch 2 .inlineItems 1) ∧
    decode (F := B64) lax "b[2]: y".toList = .ok (.obj [("b".toList, .arr [.prim (.str "y".toList)])]) ∧
    decode (F := B64) strict "b[2]: y\na: \"x".toList = .error (.countMismatch 2 .inlineItems 1) ∧
    decode (F := B64) lax "b[2]: y\na: \"x".toList = .error .unterminatedString := by decide +kernel

/-- A conflict. -/
example : decode (F := B64) strict "a.b: x\na: y".toList = .error (.pathConflict (.merge "a".toList .object .primitive)) ∧
    decode (F := B64) lax "a.b: x\na: y".toList = .ok (.obj [("a".toList, .prim (.str "y".toList))]) := by decide +kernel

/-- Indentation is looked at before everything else: the fault of the first line is not the one that is reported. -/
example : ∃ e, decode (F := B64) strict "a: \"x\n b: y".toList = .error e ∧ e.kind = some .validation :=
  (C96_validation strict _).mpr ⟨rfl, fun h => by
    obtain ⟨k, rest, h1, h2, _⟩ := h " b: y".toList (by decide +kernel) (by decide)
    obtain ⟨h3, _⟩ := spaces_unique (a := 1) (x := "b: y".toList) (by decide) h2 h1
    change 1 = k * 2 at h3
    omega⟩

example : decodeOrPanic (F := B64) strict "a: \"x".toList = .panics "Unterminated string: missing closing quote".toList :=
  ((C96_panics strict _).2 _).mpr ⟨.unterminatedString, by decide +kernel, rfl⟩

end RetryExample

end Toon
