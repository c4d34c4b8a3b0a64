import Verif.Props.Grammar
import Verif.Lemmas.Complaints
import Verif.Lemmas.Conflicts
import Verif.Lemmas.Message
import Verif.Model.Message

/-!
# C60: the error describes the first fault

`Spec/Faults.lean` describes the first fault of a text in reading order, `Spec/Conflicts.lean` the first conflict of path
expansion, `Spec/Complaints.lean` what the data of an error say about the lines of the text.
-/

namespace Toon

section
variable {F : Type} [F64 F] [LawfulF64 F]

/-- C60.  Event decoding fails with an error exactly if this error describes the first fault of the lines. -/
theorem C60_events (indent : Nat) (strict : Bool) (source : List Str) (e : Err) :
    decodeStream (F := F) indent strict source = .error e ↔ TextFails F strict indent source e :=
  decodeStream_error indent strict source e

/-- C60.  Decoding without path expansion likewise. -/
theorem C60_exact (opts : DecOpts) (hx : opts.expand = false) (text : Str) (e : Err) :
    decode (F := F) opts text = .error e ↔ TextFails F opts.strict opts.indent (splitOn '\n' text) e := by
  rw [← C60_events]
  constructor
  · intro h
    rcases C14_errors opts text e h with h | ⟨h, _⟩
    · exact h
    · rw [hx] at h; simp at h
  · intro h; exact decodeFromLines_error h

/-- C60.  Path expansion comes after the text has been read: a fault of the text is reported first. -/
theorem C60_fault_first (opts : DecOpts) (text : Str) (e : Err)
    (h : TextFails F opts.strict opts.indent (splitOn '\n' text) e) : decode (F := F) opts text = .error e :=
  decodeFromLines_error ((C60_events _ _ _ _).mpr h)

/-- C60.  With path expansion, an error is the first fault of the text or, if the text has none, the first conflict of
its tree (strict mode) or the depth cap. -/
theorem C60_expanded (opts : DecOpts) (hx : opts.expand = true) (text : Str) (e : Err)
    (h : decode (F := F) opts text = .error e) :
    TextFails F opts.strict opts.indent (splitOn '\n' text) e ∨
    ∃ t : ETree F, TextMeans opts.indent opts.strict (splitOn '\n' text) t ∧
      ((opts.strict = true ∧ ∃ c, e = .pathConflict c ∧ firstConflict t = some c) ∨
        (e = .expandDepth ∧ 255 < 2 * height t.json + pathHeight t)) := by
  cases hs : decodeStream (F := F) opts.indent opts.strict (splitOn '\n' text) with
  | error e' =>
    left
    rw [show decode (F := F) opts text = .error e' from decodeFromLines_error hs] at h
    simp only [Except.error.injEq] at h
    subst h
    exact (C60_events _ _ _ _).mp hs
  | ok evs =>
    right
    obtain ⟨t, ht, rfl⟩ := (C58_events _ _ _ _).mp hs
    refine ⟨t, ht, ?_⟩
    rcases C27_outcome opts hx text t hs with ⟨h1, _⟩ | ⟨c, h1, h2, _⟩ | ⟨h1, h2⟩
    · rw [h] at h1; simp at h1
    · left
      rw [h] at h1
      simp only [Except.error.injEq] at h1
      subst h1
      refine ⟨h2, c, rfl, ?_⟩
      unfold decode at h
      rw [decodeFromLines_expand hs, if_pos hx, h2] at h
      unfold expandPathsSafe at h
      refine (expandInner_told t 0).2 c ?_
      cases hi : expandInner true t.node 0 with
      | ok n => rw [hi] at h; simp at h
      | error e => rw [hi] at h; simpa using h
    · right
      rw [h] at h1
      simp only [Except.error.injEq] at h1
      exact ⟨h1, h2⟩

/-- C60.  Conversely a conflict in the tree of a text that is not too deep is reported, the first one. -/
theorem C60_conflict (opts : DecOpts) (hx : opts.expand = true) (hs : opts.strict = true) (text : Str) (t : ETree F) (c : Conflict)
    (h : TextMeans opts.indent opts.strict (splitOn '\n' text) t) (hc : firstConflict t = some c)
    (hd : 2 * height t.json + pathHeight t ≤ 255) : decode (F := F) opts text = .error (.pathConflict c) := by
  have hst := (C58_events _ _ _ _).mpr ⟨t, h, rfl⟩
  have hcf : conflicting t = true := by rw [← firstConflict_some, hc]; rfl
  rcases C27_outcome opts hx text t hst with ⟨_, h2⟩ | ⟨c', h1, _, _⟩ | ⟨_, h2⟩
  · rw [h2 hs] at hcf; simp at hcf
  · rcases C60_expanded opts hx text _ h1 with hf | ⟨t', ht', ⟨_, c'', h3, h4⟩ | ⟨h3, _⟩⟩
    · rw [← C60_events, hst] at hf; simp at hf
    · simp only [Err.pathConflict.injEq] at h3
      subst h3
      rw [C58_unique _ _ _ _ _ ht' h, hc] at h4
      simp only [Option.some.injEq] at h4
      subst h4
      exact h1
    · simp at h3
  · omega

/-- C60.  A text has one first fault. -/
theorem C60_unique (indent : Nat) (strict : Bool) (source : List Str) (e e' : Err)
    (h : TextFails F strict indent source e) (h' : TextFails F strict indent source e') : e = e' := by
  rw [← C60_events] at h h'
  rw [h] at h'
  simpa using h'

/-- C60.  A text stands for a tree or has a fault, and not both. -/
theorem C60_either (indent : Nat) (strict : Bool) (source : List Str) :
    (∃ t : ETree F, TextMeans indent strict source t) ↔ ¬ ∃ e, TextFails F strict indent source e := by
  cases h : decodeStream (F := F) indent strict source with
  | ok evs =>
    obtain ⟨t, ht, _⟩ := (C58_events _ _ _ _).mp h
    refine ⟨?_, fun _ => ⟨t, ht⟩⟩
    rintro _ ⟨e, he⟩
    rw [← C60_events, h] at he
    simp at he
  | error e =>
    have he := (C60_events _ _ _ _).mp h
    refine ⟨?_, fun hn => absurd ⟨e, he⟩ hn⟩
    rintro ⟨t, ht⟩
    have := (C58_events _ _ _ _).mpr ⟨t, ht, rfl⟩
    rw [h] at this
    simp at this

/-- C60.  What the error of decoding says about the text is true; the errors of which `Complaint` says `False` are never
reported. -/
theorem C60_says (opts : DecOpts) (text : Str) (e : Err) (h : decode (F := F) opts text = .error e) :
    Complaint opts.strict opts.expand opts.indent (splitOn '\n' text) e := by
  rcases C14_errors opts text e h with h | ⟨hx, rfl | ⟨hs, c, rfl⟩⟩
  · exact textFails_complaint ((C60_events _ _ _ _).mp h)
  · exact hx
  · exact ⟨hs, hx⟩

/-- C60.  Every error of decoding has a message. -/
theorem C60_text (opts : DecOpts) (text : Str) (e : Err) (h : decode (F := F) opts text = .error e) : e.text ≠ none := by
  have := C60_says opts text e h
  cases e with
  | badEscape c => cases c <;> exact Option.some_ne_none _
  | _ => first | exact Option.some_ne_none _ | exact this.elim

/-- C60.  Different errors have different messages: the error, with the numbers, the key and the character it
quotes, can be told from its text, also if the key contains quotation marks. -/
theorem C60_distinct (opts opts' : DecOpts) (text text' : Str) (e e' : Err) (h : decode (F := F) opts text = .error e)
    (h' : decode (F := F) opts' text' = .error e') (ht : e.text = e'.text) : e = e' := by
  cases hs : e.text with
  | none => exact absurd hs (C60_text opts text e h)
  | some s => exact err_distinct hs (ht ▸ hs)

/-- C60.  A message that names a line names a line of the text. -/
theorem C60_line (opts : DecOpts) (text : Str) (e : Err) (n : Nat) (h : decode (F := F) opts text = .error e)
    (hl : e.line = some n) : 1 ≤ n ∧ n ≤ (splitOn '\n' text).length := by
  have at' : ∀ {raw}, LineAt (splitOn '\n' text) n raw → 1 ≤ n ∧ n ≤ (splitOn '\n' text).length := by
    rintro raw ⟨b, a, hs, rfl⟩
    rw [hs]
    simp
  have := C60_says opts text e h
  cases e <;> simp only [Err.line, Option.some.injEq, reduceCtorEq] at hl <;> subst hl
  · obtain ⟨_, _, _, h, _⟩ := this; exact at' h
  · obtain ⟨_, _, _, _, h, _⟩ := this; exact at' h
  · obtain ⟨_, ⟨_, h, _⟩, _⟩ := this; exact at' h

end

/-! ## Messages -/

namespace DiagnosticsExample

/-- The message of decoding, if it fails. -/
def message (opts : DecOpts) (text : String) : Option String :=
  match decode (F := B64) opts text.toList with
  | .ok _ => none
  | .error e => e.text.map String.ofList

def expand : DecOpts := { defaultDec with expand := true }

example : message defaultDec "a[3]: x,y" = some "Expected 3 inline array items, but got 2" := by decide +kernel
example : message defaultDec "a[2]{k,l}:\n  1,2\n  3" = some "Expected 2 tabular row values, but got 1" := by decide +kernel
example : message defaultDec "a[2]{k,l}:\n  1,2\nb: 1" = some "Expected 2 tabular rows, but got 1" := by decide +kernel
example : message defaultDec "a[1]{k}:\n  1\n  2" = some "Expected 1 tabular rows, but found more" := by decide +kernel
example : message defaultDec "a[1]:\n  - x\n  - y" = some "Expected 1 list array items, but found more" := by decide +kernel
example : message defaultDec "a[2]:\n  - x\n\n  - y" = some "Line 3: Blank lines inside list array are not allowed in strict mode" := by
  decide +kernel
example : message defaultDec "a:\n   b: 1" =
    some "Validation error at line 2: Indentation must be exact multiple of 2, but found 3 spaces" := by decide +kernel
example : message { defaultDec with indent := 0 } "a:\n   b: 1" =
    some "Validation error at line 2: Indentation not allowed when indent size is 0, but found 3 spaces" := by decide +kernel
example : message defaultDec "a:\n\tb: 1" =
    some "Validation error at line 2: Tabs are not allowed in indentation in strict mode" := by decide +kernel
example : message defaultDec "a: \"x\\y\"" = some "Invalid escape sequence: \\y" := by decide +kernel
example : message defaultDec "a[100000001]:" = some "Declared array length 100000001 exceeds maximum allowed (100000000)" := by
  decide +kernel
example : message expand "a.b: 1\na: 2" = some "Path expansion conflict at key \"a\": cannot merge object with primitive" := by
  decide +kernel
example : message expand "a: 1\na.b.c: 2" = some "Path expansion conflict at segment \"a\": expected object but found primitive" := by
  decide +kernel
example : message expand "a[0]:\na.b.c: 2" = some "Path expansion conflict at segment \"a\": expected object but found array" := by
  decide +kernel

/-- A key that looks like the rest of a message. -/
example : message expand "\"a\\\": cannot merge array\": 1\n\"a\\\": cannot merge array\"[0]:" =
    some "Path expansion conflict at key \"a\": cannot merge array\": cannot merge primitive with array" := by
  decide +kernel

end DiagnosticsExample

/-- Finding F23.  Most messages name no line: the same fault on different lines has the same message. -/
theorem C60_no_line :
    DiagnosticsExample.message defaultDec "a: \"x\nb: 1\nc: 2" = some "Unterminated string: missing closing quote" ∧
    DiagnosticsExample.message defaultDec "b: 1\nc: 2\na: \"x" = some "Unterminated string: missing closing quote" := by
  decide +kernel

/-! ## Non-vacuity: a derivation of a fault, without the decoder -/

/-- `a:` with an inner line whose value is not closed. -/
example : TextFails B64 true 2 ["a:".toList, "  b: \"x".toList] .unterminatedString := by
  refine .document (lines := [⟨0, "a:".toList, 1⟩, ⟨1, "b: \"x".toList, 2⟩]) (blanks := []) ?_ ?_
  · refine .line (spaces := 0) (content := "a:".toList) ?_ (by decide) (by decide) ?_
    · intro h; exact absurd (h 'a' (by decide)) (by decide)
    · refine .line (spaces := 2) (content := "b: \"x".toList) ?_ (by decide) (by decide) (.nil 2)
      intro h; exact absurd (h 'b' (by decide)) (by decide)
  · have nobr : ∀ {c : Str}, '[' ∉ c → ¬ VisibleFirst '"' c → NoHeader c := by
      intro c h hq
      refine ⟨fun hv => absurd hv hq, ?_⟩
      rintro pre seg cols after ⟨rest, hb, _⟩
      exact absurd (by rw [(findBracketStart_before hb).1]; simp) h
    have notq : ∀ {x : Char} {c : Str}, isWs x = false → x ≠ '"' → ¬ VisibleFirst '"' (x :: c) := by
      rintro x c h1 h2 ⟨ws, r, hb, he⟩
      cases ws with
      | nil => simp at he; exact h2 he.1
      | cons w ws =>
        simp at he
        have := hb w (by simp)
        rw [← he.1, h1] at this
        simp at this
    refine .entry (fun _ _ => nobr (by decide) (notq (by decide) (by decide))) (by simp) ?_
    refine .object (k := "a".toList) (after := []) (q := false) (.inl (nobr (by decide) (notq (by decide) (by decide)))) ?_
      (by simp [BlankLine]) (by decide) ?_
    · exact .bare (a := "a".toList) (after := []) (by decide) (by decide)
    · refine .here rfl (by simp) ?_
      refine .value (k := "b".toList) (after := " \"x".toList) (q := false) (.inl (nobr (by decide) (notq (by decide) (by decide)))) ?_ ?_
      · exact .bare (a := "b".toList) (after := " \"x".toList) (by decide) (by decide)
      · have : trim " \"x".toList = '"' :: ['x'] := by decide
        rw [this]
        refine .unclosed ?_
        intro a b hab
        match a, hab with
        | [], _ => decide
        | [c], hab => simp at hab; rw [← hab.1]; decide
        | c :: d :: r, hab => simp at hab

/-- A conflict, found in the tree. -/
example : firstConflict (F := B64) (.obj [("a.b".toList, false, .prim .null), ("a".toList, false, .arr 0 [])]) =
    some (.merge "a".toList .object .array) := by decide +kernel

end Toon
