import Verif.Lemmas.ScanSim
import Verif.Lemmas.ExpandSim
import Verif.Lemmas.DecodeValue
import Verif.Lemmas.Float64
import Verif.Lemmas.Dec

/-!
# C17, C19: strict and lax decoding, blank lines

For every text, well-formed or not.
-/

namespace Toon

section
variable {F : Type} [F64 F]

/-- Decoding depends on the lines only through the events. -/
theorem decodeFromLines_congr {opts : DecOpts} {a b : List Str}
    (h : decodeStream (F := F) opts.indent opts.strict a = decodeStream opts.indent opts.strict b) :
    decodeFromLines (F := F) opts a = decodeFromLines opts b := by
  unfold decodeFromLines
  rw [h]

theorem decodeFromLines_mono {opts : DecOpts} {a b : List Str} {v : Json F}
    (h : ∀ evs : List (Ev F), decodeStream opts.indent opts.strict a = .ok evs → decodeStream opts.indent opts.strict b = .ok evs)
    (hv : decodeFromLines opts a = .ok v) : decodeFromLines opts b = .ok v := by
  unfold decodeFromLines at hv ⊢
  cases hs : decodeStream (F := F) opts.indent opts.strict a with
  | error e => rw [hs] at hv; simp [bind, Except.bind] at hv
  | ok evs => rw [hs] at hv; rw [h evs hs]; exact hv

/-! ## C17 -/

/-- C17, events.  If strict event decoding succeeds, lax event decoding gives the same events. -/
theorem C17_events (indent : Nat) (lines : List Str) (evs : List (Ev F))
    (h : decodeStream indent true lines = .ok evs) : decodeStream indent false lines = .ok evs := decodeStream_lax h

/-- C17.  If strict decoding succeeds, lax decoding of the same text gives the same value, with or
without path expansion. -/
theorem C17_value (indent : Nat) (expand : Bool) (text : Str) (v : Json F)
    (h : decode { indent := indent, strict := true, expand := expand } text = .ok v) :
    decode { indent := indent, strict := false, expand := expand } text = .ok v := by
  unfold decode decodeFromLines at h ⊢
  obtain ⟨evs, h1, h⟩ := bind_ok.mp h
  obtain ⟨node, h2, h⟩ := bind_ok.mp h
  simp only at h1 ⊢
  rw [decodeStream_lax h1]
  simp only [bind, Except.bind, h2]
  cases expand with
  | false => exact h
  | true =>
    simp only [if_true] at h ⊢
    obtain ⟨node', h3, h⟩ := bind_ok.mp h
    unfold expandPathsSafe at h3 ⊢
    rw [expandInner_lax h3]; exact h

/-- C17, the other way round: an error of lax decoding is an error of strict decoding. -/
theorem C17_reject (indent : Nat) (expand : Bool) (text : Str) (e : Err)
    (h : decode (F := F) { indent := indent, strict := false, expand := expand } text = .error e) :
    ∃ e', decode (F := F) { indent := indent, strict := true, expand := expand } text = .error e' := by
  cases hs : decode (F := F) { indent := indent, strict := true, expand := expand } text with
  | error e' => exact ⟨e', rfl⟩
  | ok v => rw [C17_value indent expand text v hs] at h; simp at h

end

/-! Cases: a text that strict decoding accepts, with path expansion; one that only lax decoding
accepts (length mismatch, and a path conflict). -/

example : decode (F := B64) { indent := 2, strict := true, expand := true } "a.b: x\na.c[1]: y".toList =
    .ok (.obj [("a".toList, .obj [("b".toList, .prim (.str "x".toList)),
      ("c".toList, .arr [.prim (.str "y".toList)])])]) := by decide +kernel

example : decode (F := B64) { indent := 2, strict := false, expand := true } "a: x\na.c[2]: y".toList =
    .ok (.obj [("a".toList, .obj [("c".toList, .arr [.prim (.str "y".toList)])])]) := by decide +kernel

example : decode (F := B64) { indent := 2, strict := true, expand := true } "a: x\na.c[2]: y".toList =
    .error (.countMismatch 2 .inlineItems 1) := by decide +kernel

section
variable {F : Type} [F64 F]

/-! ## C19 -/

/-- C19, lax.  Deleting the blank lines never changes the outcome (value or error). -/
theorem C19_lax (opts : DecOpts) (hs : opts.strict = false) (lines : List Str) :
    decodeFromLines (F := F) opts (deleteBlank lines) = decodeFromLines opts lines := by
  apply decodeFromLines_congr
  rw [hs]
  exact decodeStream_lax_delete _ _

/-- C19, strict.  If decoding succeeds, it succeeds with the same value after deleting the blank lines. -/
theorem C19_strict (opts : DecOpts) (lines : List Str) (v : Json F) (h : decodeFromLines opts lines = .ok v) :
    decodeFromLines opts (deleteBlank lines) = .ok v :=
  decodeFromLines_mono (fun _ he => decodeStream_delete he) h

/-- C19.  Blank lines at the end never change the outcome (value or error), in either mode. -/
theorem C19_trailing (opts : DecOpts) (lines blanks : List Str) (hb : ∀ line ∈ blanks, BlankLine line) :
    decodeFromLines (F := F) opts (lines ++ blanks) = decodeFromLines opts lines :=
  decodeFromLines_congr (decodeStream_trailing _ _ hb _)

/-- C19.  Blank lines at the beginning never change the value, in either mode, nor whether there is one. -/
theorem C19_leading (opts : DecOpts) (lines blanks : List Str) (hb : ∀ line ∈ blanks, BlankLine line) (v : Json F) :
    decodeFromLines opts (blanks ++ lines) = .ok v ↔ decodeFromLines opts lines = .ok v :=
  ⟨decodeFromLines_mono fun evs h => (decodeStream_leading _ _ hb _ evs).mp h,
   decodeFromLines_mono fun evs h => (decodeStream_leading _ _ hb _ evs).mpr h⟩

theorem splitOn_snoc (c : Char) (s : Str) : splitOn c (s ++ [c]) = splitOn c s ++ [[]] := by
  induction s with
  | nil => simp [splitOn]
  | cons x s ih =>
    by_cases hx : x = c
    · subst hx; simp [splitOn, ih]
    · simp only [List.cons_append, splitOn]
      rw [ih]
      cases h : splitOn c s with
      | nil => exact absurd h (splitOn_ne_nil c s)
      | cons a r => simp [hx]

/-- C19, texts.  A newline at the end never changes the outcome, in either mode. -/
theorem C19_newline (opts : DecOpts) (text : Str) : decode (F := F) opts (text ++ ['\n']) = decode opts text := by
  unfold decode
  rw [splitOn_snoc]
  exact C19_trailing opts _ _ (by simp [BlankLine])

end

/-! Cases: a strict document with blank lines of several forms outside arrays; the strict error for a
blank line inside an array; the same document read laxly. -/

example : decode (F := B64) { indent := 2, strict := true, expand := false } "\n  \na:\n\n  b: x\n \t\nc[1]:\n  - y\n\n".toList =
    .ok (.obj [("a".toList, .obj [("b".toList, .prim (.str "x".toList))]),
      ("c".toList, .arr [.prim (.str "y".toList)])]) := by decide +kernel

example : decode (F := B64) { indent := 2, strict := true, expand := false } "c[2]:\n  - y\n\n  - z".toList =
    .error (.blankLine 3 false) := by decide +kernel

example : decode (F := B64) { indent := 2, strict := false, expand := false } "c[2]:\n  - y\n\n  - z".toList =
    .ok (.obj [("c".toList, .arr [.prim (.str "y".toList), .prim (.str "z".toList)])]) := by decide +kernel

end Toon
