import Verif.Lemmas.Stderr
import Verif.Props.FileOutput
import Verif.Props.Diagnostics
import Verif.Props.Layout

/-!
# C61: what the command line tool says

For every input, every set of options and every failure: the lines on standard error and the exit status.
-/

namespace Toon

section
variable {F : Type} [F64 F] [JsonNum F]

theorem stderr_error {rd : Str → Option F} {args : Args} {world : World} {e : CliErr} (reasons : Reasons) {m : Str}
    (h : (runTool rd args world).result = .error e) (ht : e.text reasons args = some m) :
    exitStatus rd args world = 1 ∧ toolStderr rd reasons args world = some (m ++ ['\n']) := by
  unfold exitStatus toolStderr
  rw [h]
  dsimp only
  rw [ht]
  exact ⟨rfl, rfl⟩

theorem isStdin_eq (args : Args) : args.isStdin = true ↔ args.input = none ∨ args.input = some "-".toList := by
  unfold Args.isStdin
  cases args.input with
  | none => simp
  | some p => simp

theorem written_error {b : Prop} [Decidable b] {e : CliErr} (h : (if b then Except.ok () else .error CliErr.write) = .error e) :
    e = .write := by
  by_cases hb : b
  · rw [if_pos hb] at h; simp at h
  · rw [if_neg hb] at h; simpa using h.symm

/-! ## Failures -/

/-- C61.  Input that cannot be read or is not UTF-8. -/
theorem C61_unreadable (rd : Str → Option F) (reasons : Reasons) (args : Args) (world : World)
    (h : ¬ ∃ s, inputBytes args world = some (utf8Bytes s)) :
    exitStatus rd args world = 1 ∧
    (args.input = none ∨ args.input = some "-".toList →
      toolStderr rd reasons args world = some ("Failed to read stdin: ".toList ++ reasons.io ++ ['\n'])) ∧
    (∀ p, args.input = some p → p ≠ "-".toList →
      toolStderr rd reasons args world = some ("Failed to read file '".toList ++ p ++ "': ".toList ++ reasons.io ++ ['\n'])) := by
  have hr : readInput args world = none := by
    cases hr : readInput args world with
    | none => rfl
    | some s => rw [readInput_iff, C44_bytes] at hr; exact absurd ⟨s, hr⟩ h
  have he : (runTool rd args world).result = .error .read := by rw [runTool_eq, hr]
  refine ⟨(stderr_error reasons he rfl).1, fun hs => ?_, fun p hp hn => ?_⟩
  · refine (stderr_error reasons he ?_).2
    unfold CliErr.text
    rw [if_pos ((isStdin_eq args).mpr hs)]
    rfl
  · refine (stderr_error reasons he ?_).2
    unfold CliErr.text
    rw [if_neg (by rw [isStdin_eq, hp]; simp; exact hn), hp]
    simp [ioText]

omit [JsonNum F] in
theorem runEncode_error {rd : Str → Option F} {args : Args} {s : Str} {e : Err} (h : runEncode rd args s = .error e) : e = .jsonParse := by
  unfold runEncode encodeToToonLines at h
  dsimp only at h
  cases hs : hostFromStr rd s with
  | ok x => rw [hs] at h; simp at h
  | error e' =>
    rw [hs] at h
    simp only [Except.error.injEq] at h
    rw [← h]
    unfold hostFromStr at hs
    split at hs
    · simpa using hs.symm
    · split at hs
      · simp at hs
      · simpa using hs.symm

/-- C61.  Encoding a text that is not JSON, or nested too deeply. -/
theorem C61_not_json (rd : Str → Option F) (reasons : Reasons) (args : Args) (world : World) (s : Str)
    (hm : args.detectMode = .encode) (hs : inputBytes args world = some (utf8Bytes s))
    (h : ¬ ∃ v, JsonDoc rd v s ∧ height v < 128) :
    exitStatus rd args world = 1 ∧
    toolStderr rd reasons args world = some ("JSON error: Failed to parse JSON: ".toList ++ reasons.json ++ ['\n']) := by
  have he : runCli rd args s = .error .jsonParse := by
    unfold runCli
    rw [hm]
    dsimp only
    cases hr : runEncode rd args s with
    | ok out => obtain ⟨v, h1, h2, _⟩ := (C54_run_encode rd args s out).mp hr; exact absurd ⟨v, h1, h2⟩ h
    | error e => rw [runEncode_error hr]
  exact stderr_error reasons (C57_refused_error rd args world s _ hs he) rfl

theorem text_convert {reasons : Reasons} {args : Args} {e : Err} (h : e ≠ .jsonParse) :
    (CliErr.convert e).text reasons args = e.text := by
  cases e <;> first | rfl | exact absurd rfl h

/-- C61.  Decoding a text with a fault: the message of the error (C60), and no other text. -/
theorem C61_not_toon [LawfulF64 F] [LawfulJsonNum F] (rd : Str → Option F) (reasons : Reasons) (args : Args) (world : World)
    (s : Str) (hm : args.detectMode = .decode) (hs : inputBytes args world = some (utf8Bytes s)) (e : Err)
    (h : decode (F := F) args.decOpts s = .error e) :
    exitStatus rd args world = 1 ∧
    ∃ message, e.text = some message ∧ toolStderr rd reasons args world = some (message ++ ['\n']) := by
  have hr : runCli rd args s = .error e := by
    unfold runCli
    rw [hm]
    exact (C54_run_decode args s).1 e h
  have hj : e ≠ .jsonParse := by
    rintro rfl
    exact C60_text _ _ _ h rfl
  cases ht : e.text with
  | none => exact absurd ht (C60_text _ _ _ h)
  | some m =>
    have := stderr_error reasons (C57_refused_error rd args world s e hs hr) (by rw [text_convert hj]; exact ht)
    exact ⟨this.1, m, rfl, this.2⟩

/-- C61.  An output file that cannot be created. -/
theorem C61_not_created (rd : Str → Option F) (reasons : Reasons) (args : Args) (world : World) (text : Str)
    (ht : Converts rd args world text) (p : Str) (ho : args.output = some p) (hc : world.canCreate p = false) :
    exitStatus rd args world = 1 ∧
    toolStderr rd reasons args world = some ("Failed to create file '".toList ++ p ++ "': ".toList ++ reasons.io ++ ['\n']) := by
  obtain ⟨ps, _, h2⟩ := run_converts ht
  have he : (runTool rd args world).result = .error .create := by
    rw [h2]; unfold write; rw [ho]; dsimp only; rw [hc]; rfl
  refine stderr_error reasons he ?_
  unfold CliErr.text
  rw [ho]
  simp [ioText]

/-- C61.  In all other failures writing has failed. -/
theorem C61_not_written (rd : Str → Option F) (reasons : Reasons) (args : Args) (world : World) (text : Str)
    (ht : Converts rd args world text) (hc : ∀ p, args.output = some p → world.canCreate p = true)
    (h : exitStatus rd args world = 1) :
    toolStderr rd reasons args world = some ((match args.output with
      | some p => "Failed to write to file '".toList ++ p ++ "': ".toList
      | none => "Failed to write to stdout: ".toList) ++ reasons.io ++ ['\n']) := by
  obtain ⟨ps, _, h2⟩ := run_converts ht
  have he : (runTool rd args world).result = .error .write := by
    cases hr : (runTool rd args world).result with
    | ok u => unfold exitStatus at h; rw [hr] at h; simp at h
    | error e =>
      rw [h2] at hr
      unfold write at hr
      cases ho : args.output with
      | some p =>
        rw [ho] at hr
        dsimp only at hr
        rw [if_pos (hc p ho)] at hr
        dsimp only at hr
        rw [written_error hr]
      | none =>
        rw [ho] at hr
        dsimp only at hr
        rw [written_error hr]
  refine (stderr_error reasons he ?_).2
  unfold CliErr.text
  cases args.output <;> simp [ioText]

/-! ## Success -/

theorem stderr_ok {rd : Str → Option F} {args : Args} {world : World} {s : Str} (reasons : Reasons)
    (hs : inputBytes args world = some (utf8Bytes s)) (h : exitStatus rd args world = 0) :
    toolStderr rd reasons args world = some (successText rd args s) := by
  rw [← C44_bytes, ← readInput_iff] at hs
  unfold exitStatus at h
  unfold toolStderr
  cases hr : (runTool rd args world).result with
  | ok u => dsimp only; rw [hs]
  | error e => rw [hr] at h; simp at h

/-- C61.  A run that decodes and succeeds says where the result is, if that is a file, and nothing else. -/
theorem C61_decoded (rd : Str → Option F) (reasons : Reasons) (args : Args) (world : World) (hm : args.detectMode = .decode)
    (h : exitStatus rd args world = 0) :
    toolStderr rd reasons args world = some (unlines (noteLines "Decoded" args)) := by
  by_cases hs : ∃ s, inputBytes args world = some (utf8Bytes s)
  · obtain ⟨s, hs⟩ := hs
    rw [stderr_ok reasons hs h]
    unfold successText
    rw [hm, ← successNote_lines]
  · rw [(C61_unreadable rd reasons args world hs).1] at h; simp at h

/-- C61.  A run that encodes and succeeds prints with `--stats` an empty line, the estimates of the input and of the
output, and, exactly if the output is the smaller one, the difference and its percentage, to the nearest tenth; then it
says where the result is, if that is a file. -/
theorem C61_encoded (rd : Str → Option F) (reasons : Reasons) (args : Args) (world : World) (s toon : Str)
    (hm : args.detectMode = .encode) (hs : inputBytes args world = some (utf8Bytes s))
    (hc : runCli rd args s = .ok (toon ++ ['\n'])) (h : exitStatus rd args world = 0) :
    (args.stats = false → toolStderr rd reasons args world = some (unlines (noteLines "Encoded" args))) ∧
    (args.stats = true → ∃ j t p, Estimate s j ∧ Estimate toon t ∧ (t < j → j < 2 ^ 40 → NearestTenths (j - t) j p) ∧
      toolStderr rd reasons args world = some (unlines (statsLines j t p ++ noteLines "Encoded" args))) := by
  have h1 := stderr_ok reasons hs h
  unfold runCli at hc
  rw [hm] at hc
  dsimp only at hc
  unfold runEncode at hc
  dsimp only at hc
  unfold successText at h1
  rw [hm] at h1
  dsimp only at h1
  cases hl : encodeToToonLines rd s (some ⟨some args.indent, some args.delimiter, some args.keyFolding, args.flattenDepth⟩) with
  | error e => rw [hl] at hc; simp at hc
  | ok lines =>
    rw [hl] at hc h1
    dsimp only at hc h1
    rw [successNote_lines] at h1
    constructor
    · intro hst
      rw [hst] at h1
      exact h1
    · intro hst
      rw [hst] at h1 hc
      simp only [if_true, Except.ok.injEq] at h1 hc
      have ht : joinWith '\n' lines = toon := List.append_cancel_right hc
      rw [ht, statsText_lines] at h1
      refine ⟨estimateTokens s, estimateTokens toon, B64.savedTenths (estimateTokens s - estimateTokens toon) (estimateTokens s),
        (estimate_iff _ _).mpr rfl, (estimate_iff _ _).mpr rfl, ?_, ?_⟩
      · intro h3 h4
        exact B64.savedPercent_near (by omega) (by omega) h4
      · rw [h1]
        unfold unlines
        rw [List.map_append, List.flatten_append]

/-- C61.  Nothing is said exactly if the run succeeds, there is no output file, and it does not encode with `--stats`. -/
theorem C61_silent [LawfulF64 F] [LawfulJsonNum F] (rd : Str → Option F) (reasons : Reasons) (args : Args) (world : World) :
    toolStderr rd reasons args world = some [] ↔
      exitStatus rd args world = 0 ∧ args.output = none ∧ ¬ (args.stats = true ∧ args.detectMode = .encode) := by
  constructor
  · intro h
    have h0 : exitStatus rd args world = 0 := by
      unfold exitStatus
      cases hr : (runTool rd args world).result with
      | ok u => rfl
      | error e =>
        unfold toolStderr at h
        rw [hr] at h
        dsimp only at h
        cases ht : e.text reasons args with
        | none => rw [ht] at h; simp at h
        | some m => rw [ht] at h; simp at h
    have hnote : ∀ verb, unlines (noteLines verb args) = [] → args.output = none := by
      intro verb hn
      unfold noteLines at hn
      cases ho : args.output with
      | none => rfl
      | some p => rw [ho] at hn; simp [unlines] at hn
    refine ⟨h0, ?_⟩
    cases hm : args.detectMode with
    | decode =>
      rw [C61_decoded rd reasons args world hm h0] at h
      simp only [Option.some.injEq] at h
      exact ⟨hnote _ h, by simp⟩
    | encode =>
      have hc : ∃ text, Converts rd args world text := by
        refine Classical.byContradiction fun hn => ?_
        obtain ⟨e, he⟩ := run_refused hn
        unfold exitStatus at h0
        rw [he] at h0
        simp at h0
      obtain ⟨text, s, hs, hr⟩ := hc
      have htext : ∃ toon, text = toon ++ ['\n'] := by
        have hr' := hr
        unfold runCli at hr'
        rw [hm] at hr'
        obtain ⟨v, _, _, ht⟩ := (C54_run_encode rd args s text).mp hr'
        exact ⟨_, ht⟩
      obtain ⟨toon, rfl⟩ := htext
      obtain ⟨g1, g2⟩ := C61_encoded rd reasons args world s toon hm hs hr h0
      cases hst : args.stats with
      | false =>
        rw [g1 hst] at h
        simp only [Option.some.injEq] at h
        exact ⟨hnote _ h, by simp⟩
      | true =>
        obtain ⟨j, t, p, _, _, _, g⟩ := g2 hst
        rw [g] at h
        simp [unlines, statsLines] at h
  · rintro ⟨h0, ho, hn⟩
    have hnote : ∀ verb, unlines (noteLines verb args) = [] := by
      intro verb; unfold noteLines; rw [ho]; rfl
    have hs : ∃ s, inputBytes args world = some (utf8Bytes s) := by
      refine Classical.byContradiction fun hs => ?_
      rw [(C61_unreadable rd reasons args world hs).1] at h0
      simp at h0
    obtain ⟨s, hs⟩ := hs
    cases hm : args.detectMode with
    | decode => rw [C61_decoded rd reasons args world hm h0, hnote]
    | encode =>
      have hst : args.stats = false := by
        cases hst : args.stats with
        | false => rfl
        | true => exact absurd ⟨hst, hm⟩ hn
      rw [stderr_ok reasons hs h0]
      unfold successText
      rw [hm, hst]
      dsimp only
      split
      · rfl
      · rw [successNote_lines, hnote]; rfl

theorem nonempty_text {s : Str} (h : s.isEmpty = false) : some s ≠ some [] := by
  rintro he
  simp only [Option.some.injEq] at he
  subst he
  simp at h

/-- C61.  Every run that fails says why: standard error holds a text that ends with a newline and has something before it. -/
theorem C61_failure [LawfulF64 F] [LawfulJsonNum F] (rd : Str → Option F) (reasons : Reasons) (args : Args) (world : World)
    (h : exitStatus rd args world = 1) :
    ∃ message, message ≠ [] ∧ toolStderr rd reasons args world = some (message ++ ['\n']) := by
  by_cases hs : ∃ s, inputBytes args world = some (utf8Bytes s)
  · obtain ⟨s, hs⟩ := hs
    cases hr : runCli rd args s with
    | ok text =>
      have ht : Converts rd args world text := ⟨s, hs, hr⟩
      by_cases hc : ∀ p, args.output = some p → world.canCreate p = true
      · refine ⟨_, ?_, C61_not_written rd reasons args world text ht hc h⟩
        cases args.output <;> simp
      · simp only [Classical.not_forall] at hc
        obtain ⟨p, ho, hc⟩ := hc
        exact ⟨_, by simp, (C61_not_created rd reasons args world text ht p ho (by simpa using hc)).2⟩
    | error e =>
      cases hm : args.detectMode with
      | encode =>
        refine ⟨_, ?_, (C61_not_json rd reasons args world s hm hs ?_).2⟩
        · simp
        · rintro ⟨v, h1, h2⟩
          have := (C54_run_encode rd args s _).mpr ⟨v, h1, h2, rfl⟩
          unfold runCli at hr
          rw [hm] at hr
          dsimp only at hr
          rw [hr] at this
          simp at this
      | decode =>
        cases hd : decode (F := F) args.decOpts s with
        | ok v =>
          obtain ⟨json, hj, _⟩ := (C54_run_decode args s).2 v hd
          unfold runCli at hr
          rw [hm] at hr
          dsimp only at hr
          rw [hr] at hj
          simp at hj
        | error e' =>
          obtain ⟨_, m, hm1, hm2⟩ := C61_not_toon rd reasons args world s hm hs e' hd
          refine ⟨m, ?_, hm2⟩
          rintro rfl
          revert hm1
          cases e' with
          | badEscape c => cases c <;> exact nonempty_text rfl
          | pathConflict c => cases c <;> exact nonempty_text rfl
          | _ => first | exact nonempty_text rfl | exact fun h => nomatch h
  · by_cases hi : args.input = none ∨ args.input = some "-".toList
    · exact ⟨_, by simp, (C61_unreadable rd reasons args world hs).2.1 hi⟩
    · cases hp : args.input with
      | none => exact absurd (.inl hp) hi
      | some p => exact ⟨_, by simp, (C61_unreadable rd reasons args world hs).2.2 p hp (fun e => hi (.inr (by rw [hp, e])))⟩

/-- C61.  `--stats` changes nothing else: if nothing fails, the file or standard output holds the same text with and
without it, and the run succeeds. -/
theorem C61_stats_harmless (rd : Str → Option F) (args : Args) (world : World) (text : Str) (ht : Converts rd args world text)
    (hw : world.Healthy) (hc : ∀ p, args.output = some p → world.canCreate p = true) (stats : Bool) :
    exitStatus rd { args with stats := stats } world = 0 ∧
    (∀ p, args.output = some p →
      filesAfter world.files (runTool rd { args with stats := stats } world).ops p = some (utf8Bytes text)) ∧
    (args.output = none → (runTool rd { args with stats := stats } world).stdout.flatten = utf8Bytes text) := by
  have ht' : Converts rd { args with stats := stats } world text := by
    obtain ⟨s, hs, hr⟩ := ht
    refine ⟨s, hs, ?_⟩
    unfold runCli at hr ⊢
    have hm : Args.detectMode { args with stats := stats } = args.detectMode := rfl
    rw [hm]
    cases h : args.detectMode with
    | encode =>
      rw [h] at hr
      exact (C54_run_encode rd { args with stats := stats } s text).mpr ((C54_run_encode rd args s text).mp hr)
    | decode => rw [h] at hr; exact hr
  obtain ⟨h1, h2, h3⟩ := C57_success rd { args with stats := stats } world text ht' hw hc
  exact ⟨by unfold exitStatus; rw [h1], h2, h3⟩

end

/-! ## Estimates -/

/-- C61.  Every text has exactly one estimate; it is at least 1, and at most the number of visible characters if there
are any. -/
theorem C61_estimate (s : Str) :
    (∃ n, Estimate s n) ∧ (∀ n m, Estimate s n → Estimate s m → n = m) ∧
    ∀ n, Estimate s n → 1 ≤ n ∧ n ≤ max (s.countP (fun c => !isWs c)) 1 := by
  refine ⟨⟨_, (estimate_iff _ _).mpr rfl⟩, ?_, ?_⟩
  · intro n m h h'
    rw [estimate_iff] at h h'
    rw [← h, h']
  · rintro n ⟨words, hw, rfl⟩
    have hb : words.length ≤ s.countP (fun c => !isWs c) := by
      induction hw with
      | none => simp
      | word blank w rest words hb hw hn hr h ih =>
        have : 1 ≤ w.countP (fun c => !isWs c) := by
          cases w with
          | nil => exact absurd rfl hn
          | cons c cs => rw [List.countP_cons, if_pos (by simp [hw c])]; omega
        simp only [List.countP_append, List.length_cons]
        omega
    have := Nat.div_le_self (s.countP (fun c => !isWs c)) 4
    omega

/-- C61.  Additional white space anywhere never lowers the estimate. -/
theorem C61_white_space (a white b : Str) (hw : ∀ c ∈ white, isWs c = true) (n m : Nat) (h : Estimate (a ++ b) n)
    (h' : Estimate (a ++ white ++ b) m) : n ≤ m := by
  obtain ⟨ws, h1, rfl⟩ := h
  obtain ⟨ws', h2, rfl⟩ := h'
  have := words_insert hw h1 h2
  simp only [List.countP_append]
  have hz : white.countP (fun c => !isWs c) = 0 := by
    rw [List.countP_eq_zero]
    intro c hc
    simp [hw c hc]
  rw [hz, Nat.add_zero]
  omega

/-- C61 (F20).  The note about the output file appears also if the operating system has accepted only `k` bytes of it. -/
theorem C61_note_untrue {F : Type} [F64 F] [JsonNum F] (rd : Str → Option F) (reasons : Reasons) (args : Args) (world : World)
    (text : Str) (ht : Converts rd args world text) (p : Str) (ho : args.output = some p) (hc : world.canCreate p = true)
    (hm : args.detectMode = .decode) (hl : (utf8Bytes text).length < 8192)
    (k : Nat) (fates : List (Option Nat)) (hf : world.fates = some k :: fates) :
    toolStderr rd reasons args world = some (unlines (noteLines "Decoded" args)) ∧
    filesAfter world.files (runTool rd args world).ops p = some ((utf8Bytes text).take k) := by
  obtain ⟨h1, h2⟩ := C57_silent_loss rd args world text ht p ho hc (by rw [hm]; simp) hl k fates hf
  refine ⟨C61_decoded rd reasons args world hm ?_, h2⟩
  unfold exitStatus
  rw [h1]

/-! ## Concrete cases -/

namespace StderrExample

def tight : Str := "[true,true,true]".toList
def wide : Str := "[ true , true , true ]".toList
def toon : Str := "[3]: true,true,true".toList

def value : Json B64 := .arr [.prim (.bool true), .prim (.bool true), .prim (.bool true)]

def args (o : Option Str) : Args :=
  { input := none, output := o, encode := true, decode := false, delimiter := ',', indent := 2,
    noStrict := false, keyFolding := false, flattenDepth := none, expandPaths := false, stats := true }

def world (s : Str) : World :=
  { files := fun _ => none, stdin := some (Utf8.bytes s), canCreate := fun _ => true, fates := [] }

def reasons : Reasons := ⟨"no space".toList, "expected value at line 1 column 1".toList⟩

theorem encoded (o : Option Str) : encode (args o).encOpts value = toon := by
  rw [show (args o).encOpts = (args none).encOpts from rfl]
  unfold encode
  have hv : value.mapPrims Prim.plain = value := by
    rw [show value.mapPrims Prim.plain = normalize value by decide +kernel]; decide +kernel
  rw [C56_lines (args none).encOpts value (.inline [.bool true, .bool true, .bool true]) (by rw [hv]; exact .inline rfl)]
  simp only [Layout.documentRows, Layout.entryRows, inlineText, cellsText, tokenText_eq, List.map]
  decide +kernel

theorem denotes : JsonDoc (F := B64) (fun _ => none) value tight ∧ JsonDoc (F := B64) (fun _ => none) value wide :=
  ⟨(readJson_iff value tight).mp (by decide +kernel), (readJson_iff value wide).mp (by decide +kernel)⟩

theorem host : fromHost (lastWins value) = value := by decide +kernel

theorem run_encode {rd : Str → Option B64} {args : Args} {s : Str} (hm : args.detectMode = .encode) :
    runCli rd args s = runEncode rd args s := by
  unfold runCli
  rw [hm]

theorem run_same (o : Option Str) : runCli (F := B64) (fun _ => none) (args o) tight = .ok (toon ++ ['\n']) ∧
    runCli (F := B64) (fun _ => none) (args o) wide = .ok (toon ++ ['\n']) := by
  have hh : height value < 128 := by decide
  constructor
  · rw [run_encode rfl]
    exact (C54_run_encode _ (args o) tight _).mpr ⟨value, denotes.1, hh, by rw [host, encoded]⟩
  · rw [run_encode rfl]
    exact (C54_run_encode _ (args o) wide _).mpr ⟨value, denotes.2, hh, by rw [host, encoded]⟩

theorem said (s : Str) (o : Option Str) (j t : Nat) (hr : runCli (F := B64) (fun _ => none) (args o) s = .ok (toon ++ ['\n']))
    (hj : estimateTokens s = j) (ht : estimateTokens toon = t) :
    ∃ p, (t < j → j < 2 ^ 40 → NearestTenths (j - t) j p) ∧
      toolStderr (F := B64) (fun _ => none) reasons (args o) (world s) = some (unlines (statsLines j t p ++ noteLines "Encoded" (args o))) := by
  have hs : inputBytes (args o) (world s) = some (utf8Bytes s) := by rw [← C44_bytes]; rfl
  have hok := (C57_success (F := B64) (fun _ => none) (args o) (world s) _ ⟨s, hs, hr⟩ (by simp [World.Healthy, world])
    (fun _ _ => rfl)).1
  have h0 : exitStatus (F := B64) (fun _ => none) (args o) (world s) = 0 := by unfold exitStatus; rw [hok]
  obtain ⟨j', t', p, h1, h2, h3, h4⟩ := (C61_encoded (F := B64) _ reasons (args o) (world s) s toon rfl hs hr h0).2 rfl
  rw [estimate_iff] at h1 h2
  rw [hj] at h1
  rw [ht] at h2
  subst h1 h2
  exact ⟨p, h3, h4⟩

end StderrExample

open StderrExample in
/-- Finding F24.  The saving depends on how the JSON text is laid out, not only on the value: of two texts of one value,
with the same output, the tool reports a saving of 42.9 percent for one and none for the other. -/
theorem C61_layout_matters :
    JsonDoc (F := B64) (fun _ => none) value tight ∧ JsonDoc (F := B64) (fun _ => none) value wide ∧
    toolStderr (F := B64) (fun _ => none) reasons (args none) (world tight) =
      some (unlines ["", "Token estimates: ~4 (JSON) → ~4 (TOON)"]) ∧
    toolStderr (F := B64) (fun _ => none) reasons (args none) (world wide) =
      some (unlines ["", "Token estimates: ~7 (JSON) → ~4 (TOON)", "Saved ~3 tokens (-42.9%)"]) := by
  refine ⟨denotes.1, denotes.2, ?_, ?_⟩
  · obtain ⟨p, _, h⟩ := said tight none 4 4 (run_same none).1 (by decide +kernel) (by decide +kernel)
    rw [h, show statsLines 4 4 p = statsLines 4 4 0 by unfold statsLines; rw [if_neg (by decide), if_neg (by decide)]]
    exact congrArg some (by decide +kernel)
  · obtain ⟨p, hp, h⟩ := said wide none 7 4 (run_same none).2 (by decide +kernel) (by decide +kernel)
    obtain ⟨h1, h2⟩ := hp (by decide) (by decide)
    have : p = 429 := by omega
    rw [h, this]
    exact congrArg some (by decide +kernel)

namespace StderrExample

/-- With an output file the note follows. -/
example : ∃ p, toolStderr (F := B64) (fun _ => none) reasons (args (some "o.toon".toList)) (world tight) =
    some (unlines (statsLines 4 4 p ++ ["Encoded `stdin` → `o.toon`"])) := by
  obtain ⟨p, _, h⟩ := said tight (some "o.toon".toList) 4 4 (run_same _).1 (by decide +kernel) (by decide +kernel)
  exact ⟨p, h⟩

/-- A text that is not JSON. -/
example : toolStderr (F := B64) (fun _ => none) reasons (args none) (world "tru".toList) =
    some "JSON error: Failed to parse JSON: expected value at line 1 column 1\n".toList := by decide +kernel

/-- A text with a fault. -/
example : toolStderr (F := B64) (fun _ => none) reasons { args none with encode := false, decode := true } (world "a[2]: 1".toList) =
    some "Expected 2 inline array items, but got 1\n".toList := by decide +kernel

/-- Nothing said. -/
example : toolStderr (F := B64) (fun _ => none) reasons { args none with encode := false, decode := true } (world "a: 1".toList) =
    some [] := by decide +kernel

/-- A missing input file, a closed standard output. -/
example : toolStderr (F := B64) (fun _ => none) reasons { args none with input := some "a.json".toList } (world []) =
    some "Failed to read file 'a.json': no space\n".toList := by decide +kernel
example : toolStderr (F := B64) (fun _ => none) reasons { args none with encode := false, decode := true }
    { world "a: 1".toList with fates := [some 0] } = some "Failed to write to stdout: no space\n".toList := by decide +kernel

/-- The note appears although nothing has been written. -/
example : toolStderr (F := B64) (fun _ => none) reasons (FileExample.args (some "a.toon".toList) (some ['b'])) (FileExample.world [some 0]) =
    some "Decoded `a.toon` → `b`\n".toList ∧
    filesAfter (FileExample.world [some 0]).files (runTool (F := B64) (fun _ => none)
      (FileExample.args (some "a.toon".toList) (some ['b'])) (FileExample.world [some 0])).ops ['b'] = some [] := by
  obtain ⟨h1, h2⟩ := C61_note_untrue (F := B64) (fun _ => none) reasons _ _ _ (FileExample.converts (some ['b']) [some 0]) ['b'] rfl
    rfl rfl (by rw [← C44_bytes]; decide +kernel) 0 [] rfl
  exact ⟨by rw [h1]; exact congrArg some (by decide +kernel), h2⟩

end StderrExample

end Toon
