import Verif.Spec.Files
import Verif.Lemmas.FileOutput
import Verif.Props.Cli
import Verif.Props.Utf8

/-!
# C57: what the command line tool leaves behind

For every input, every set of options, every failure of the output and every point at which the process is
interrupted.
-/

namespace Toon

section
variable {F : Type} [F64 F] [JsonNum F]

theorem run_converts {rd : Str → Option F} {args : Args} {world : World} {text : Str} (h : Converts rd args world text) :
    ∃ ps, (ps ++ [['\n']]).flatten = text ∧ runTool rd args world = write args world args.unbuffered (ps ++ [['\n']]) := by
  obtain ⟨s, h1, h2⟩ := h
  rw [← C44_bytes, ← readInput_iff] at h1
  obtain ⟨ps, h3, h4⟩ := toolPieces_ok rd args s text h2
  refine ⟨ps, h4, ?_⟩
  rw [runTool_eq, h1]; dsimp only; rw [h3]

theorem run_refused {rd : Str → Option F} {args : Args} {world : World} (h : ¬ ∃ text, Converts rd args world text) :
    ∃ e, runTool rd args world = { result := .error e, ops := [], stdout := [] } := by
  rw [runTool_eq]
  cases hr : readInput args world with
  | none => exact ⟨_, rfl⟩
  | some s =>
    dsimp only
    rw [readInput_iff, C44_bytes] at hr
    cases hc : runCli rd args s with
    | ok text => exact absurd ⟨text, s, hr, hc⟩ h
    | error e => rw [toolPieces_error rd args s e hc]; exact ⟨_, rfl⟩

/-- C57.  If the input cannot be read, is not UTF-8, or is refused by the conversion, the run fails, and no file is
created, emptied or written (an existing output file keeps its contents) and nothing goes to standard output. -/
theorem C57_refused (rd : Str → Option F) (args : Args) (world : World) (h : ¬ ∃ text, Converts rd args world text) :
    (∃ e, (runTool rd args world).result = .error e) ∧ (runTool rd args world).ops = [] ∧
      (runTool rd args world).stdout = [] := by
  obtain ⟨e, he⟩ := run_refused h
  rw [he]; exact ⟨⟨e, rfl⟩, rfl, rfl⟩

/-- C57.  The error of the conversion is the one reported. -/
theorem C57_refused_error (rd : Str → Option F) (args : Args) (world : World) (s : Str) (e : Err)
    (hs : inputBytes args world = some (utf8Bytes s)) (he : runCli rd args s = .error e) :
    (runTool rd args world).result = .error (.convert e) := by
  rw [← C44_bytes, ← readInput_iff] at hs
  rw [runTool_eq, hs]; dsimp only; rw [toolPieces_error rd args s e he]

/-- C57 (at every crash point).  Whatever the output does and wherever the process is interrupted: files other than
the output file are as before; the output file is as before, or its contents are an initial part of the text that
should be written. -/
theorem C57_crash (rd : Str → Option F) (args : Args) (world : World) (files : Files)
    (h : CrashState world.files (runTool rd args world).ops files) :
    (∀ q, args.output ≠ some q → files q = world.files q) ∧
    (∀ p, args.output = some p → files p = world.files p ∨
      ∃ text bs, Converts rd args world text ∧ files p = some bs ∧ bs <+: utf8Bytes text) := by
  by_cases hc : ∃ text, Converts rd args world text
  · obtain ⟨text, ht⟩ := hc
    obtain ⟨ps, h1, h2⟩ := run_converts ht
    rw [h2] at h
    unfold write at h
    cases ho : args.output with
    | none =>
      rw [ho] at h
      cases h
      exact ⟨fun _ _ => rfl, fun p hp => by simp at hp⟩
    | some path =>
      rw [ho] at h
      dsimp only at h
      split at h
      · cases h with
        | stop => exact ⟨fun _ _ => rfl, fun _ _ => .inl rfl⟩
        | step _ _ _ _ h =>
          obtain ⟨h3, bs, h4, h5⟩ := crash_appends path _ _ files [] (by simp [FileOp.apply]) h
          refine ⟨fun q hq => ?_, fun p hp => .inr ⟨text, bs, ht, ?_, ?_⟩⟩
          · have hq : q ≠ path := fun e => hq (by rw [e])
            rw [h3 q hq]; simp [FileOp.apply, hq]
          · simp only [Option.some.injEq] at hp; rw [← hp, h4]; rfl
          · rw [← C44_bytes, ← h1]
            refine h5.trans ?_
            split
            · exact (writeFile_sent (ps ++ [['\n']]) ⟨world.fates, []⟩).2
            · exact (writeBuffered_sent (ps ++ [['\n']]) ⟨fileBuffer, [], ⟨world.fates, []⟩⟩ (by simp)).1
      · cases h
        exact ⟨fun _ _ => rfl, fun _ _ => .inl rfl⟩
  · obtain ⟨e, he⟩ := run_refused hc
    rw [he] at h
    cases h
    exact ⟨fun _ _ => rfl, fun _ _ => .inl rfl⟩

/-- C57.  What arrives at standard output is an initial part of the text that should be written; with an output
file it is nothing. -/
theorem C57_stdout (rd : Str → Option F) (args : Args) (world : World) :
    (runTool rd args world).stdout = [] ∨
    ∃ text, Converts rd args world text ∧ args.output = none ∧ (runTool rd args world).stdout.flatten <+: utf8Bytes text := by
  by_cases hc : ∃ text, Converts rd args world text
  · obtain ⟨text, ht⟩ := hc
    obtain ⟨ps, h1, h2⟩ := run_converts ht
    rw [h2]
    unfold write
    cases ho : args.output with
    | none =>
      refine .inr ⟨text, ht, rfl, ?_⟩
      rw [← C44_bytes, ← h1]
      exact writeStdout_prefix (ps ++ [['\n']]) ⟨stdoutBuffer, [], ⟨world.fates, []⟩⟩ (by simp)
    | some path => left; dsimp only; split <;> rfl
  · obtain ⟨e, he⟩ := run_refused hc
    rw [he]; exact .inl rfl

/-- C57 (nothing fails).  The output file, also when it is the input file, ends up with exactly the text; without
an output file exactly the text arrives at standard output; the run succeeds. -/
theorem C57_success (rd : Str → Option F) (args : Args) (world : World) (text : Str) (ht : Converts rd args world text)
    (hw : world.Healthy) (hc : ∀ p, args.output = some p → world.canCreate p = true) :
    (runTool rd args world).result = .ok () ∧
    (∀ p, args.output = some p → filesAfter world.files (runTool rd args world).ops p = some (utf8Bytes text)) ∧
    (args.output = none → (runTool rd args world).stdout.flatten = utf8Bytes text) := by
  obtain ⟨ps, h1, h2⟩ := run_converts ht
  rw [h2, ← C44_bytes, ← h1]
  unfold write
  cases ho : args.output with
  | none =>
    have h3 := writeStdout_healthy (ps ++ [['\n']]) ⟨stdoutBuffer, [], ⟨world.fates, []⟩⟩ hw
    refine ⟨by dsimp only; rw [if_pos h3], fun p hp => by simp at hp, fun _ => ?_⟩
    exact writeStdout_ok ps ⟨stdoutBuffer, [], ⟨world.fates, []⟩⟩ (by simp) h3
  | some path =>
    dsimp only
    rw [if_pos (hc path ho)]
    dsimp only
    have key : ∀ written : Device × Bool, written.2 = true → written.1.sent.flatten = Utf8.bytes (ps ++ [['\n']]).flatten →
        (if written.2 = true then Except.ok () else .error CliErr.write) = .ok () ∧
        (∀ p, some path = some p → filesAfter world.files (.create path :: written.1.sent.map (.append path)) p
          = some (Utf8.bytes (ps ++ [['\n']]).flatten)) := by
      intro written h3 h4
      refine ⟨by rw [if_pos h3], fun p hp => ?_⟩
      simp only [Option.some.injEq] at hp
      subst hp
      have := filesAfter_appends path written.1.sent ((FileOp.create path).apply world.files) [] (by simp [FileOp.apply])
      rw [h4] at this
      exact this
    have h5 := writeFile_healthy (ps ++ [['\n']]) ⟨world.fates, []⟩ hw
    have h6 := writeBuffered_healthy (ps ++ [['\n']]) ⟨fileBuffer, [], ⟨world.fates, []⟩⟩ (by simp) hw
    cases args.unbuffered with
    | true =>
      obtain ⟨h7, h8⟩ := key (writeFile ⟨world.fates, []⟩ (ps ++ [['\n']])) h5
        ((writeFile_sent (ps ++ [['\n']]) ⟨world.fates, []⟩).1 h5)
      exact ⟨h7, h8, fun h => by simp at h⟩
    | false =>
      obtain ⟨h7, h8⟩ := key (writeBuffered ⟨fileBuffer, [], ⟨world.fates, []⟩⟩ (ps ++ [['\n']])) h6.1 h6.2
      exact ⟨h7, h8, fun h => by simp at h⟩

/-- C57 (standard output).  A run that succeeds has written the whole text, whatever failures the output was liable
to. -/
theorem C57_stdout_complete (rd : Str → Option F) (args : Args) (world : World) (ho : args.output = none)
    (h : (runTool rd args world).result = .ok ()) :
    ∃ text, Converts rd args world text ∧ (runTool rd args world).stdout.flatten = utf8Bytes text := by
  by_cases hc : ∃ text, Converts rd args world text
  · obtain ⟨text, ht⟩ := hc
    obtain ⟨ps, h1, h2⟩ := run_converts ht
    refine ⟨text, ht, ?_⟩
    rw [h2] at h ⊢
    rw [← C44_bytes, ← h1]
    unfold write at h ⊢
    rw [ho] at h ⊢
    dsimp only at h ⊢
    split at h
    · rename_i h3
      exact writeStdout_ok ps ⟨stdoutBuffer, [], ⟨world.fates, []⟩⟩ (by simp) h3
    · simp at h
  · obtain ⟨e, he⟩ := run_refused hc
    rw [he] at h; simp at h

/-- C57 (`--stats`).  Encoding with `--stats` to a file: a run that succeeds has written the whole text. -/
theorem C57_stats_complete (rd : Str → Option F) (args : Args) (world : World) (p : Str) (ho : args.output = some p)
    (hm : args.detectMode = .encode) (hs : args.stats = true) (h : (runTool rd args world).result = .ok ()) :
    ∃ text, Converts rd args world text ∧
      filesAfter world.files (runTool rd args world).ops p = some (utf8Bytes text) := by
  by_cases hc : ∃ text, Converts rd args world text
  · obtain ⟨text, ht⟩ := hc
    obtain ⟨ps, h1, h2⟩ := run_converts ht
    refine ⟨text, ht, ?_⟩
    rw [h2] at h ⊢
    rw [← C44_bytes, ← h1]
    have hu : args.unbuffered = true := by unfold Args.unbuffered; rw [hs, hm]; rfl
    unfold write at h ⊢
    rw [ho, hu] at h ⊢
    dsimp only at h ⊢
    split at h
    · rename_i hcr
      rw [if_pos hcr]
      dsimp only at h ⊢
      simp only [if_true] at h ⊢
      split at h
      · rename_i h3
        have h4 := (writeFile_sent (ps ++ [['\n']]) ⟨world.fates, []⟩).1 h3
        have := filesAfter_appends p (writeFile ⟨world.fates, []⟩ (ps ++ [['\n']])).1.sent
          ((FileOp.create p).apply world.files) [] (by simp [FileOp.apply])
        rw [h4] at this
        exact this
      · simp at h
    · simp at h
  · obtain ⟨e, he⟩ := run_refused hc
    rw [he] at h; simp at h

/-- C57 (output file in general).  A run that succeeds has written an initial part of the text that misses at most
the last 8192 bytes. -/
theorem C57_file_nearly_complete (rd : Str → Option F) (args : Args) (world : World) (p : Str) (ho : args.output = some p)
    (h : (runTool rd args world).result = .ok ()) :
    ∃ text kept lost, Converts rd args world text ∧ utf8Bytes text = kept ++ lost ∧ lost.length ≤ 8192 ∧
      filesAfter world.files (runTool rd args world).ops p = some kept := by
  by_cases hc : ∃ text, Converts rd args world text
  · obtain ⟨text, ht⟩ := hc
    obtain ⟨ps, h1, h2⟩ := run_converts ht
    rw [h2] at h ⊢
    unfold write at h ⊢
    rw [ho] at h ⊢
    dsimp only at h ⊢
    split at h
    · rename_i hcr
      rw [if_pos hcr]
      dsimp only at h ⊢
      have key : ∀ sent : List (List UInt8),
          filesAfter world.files (.create p :: sent.map (.append p)) p = some sent.flatten := by
        intro sent
        exact filesAfter_appends p sent ((FileOp.create p).apply world.files) [] (by simp [FileOp.apply])
      cases hu : args.unbuffered with
      | true =>
        rw [hu] at h
        simp only [if_true] at h ⊢
        split at h
        · rename_i h3
          have h4 := (writeFile_sent (ps ++ [['\n']]) ⟨world.fates, []⟩).1 h3
          refine ⟨text, _, [], ht, ?_, by simp, key _⟩
          rw [← C44_bytes, ← h1, h4]; simp [pieceBytes]
        · simp at h
      | false =>
        rw [hu] at h
        simp only [Bool.false_eq_true, if_false] at h ⊢
        split at h
        · rename_i h3
          obtain ⟨lost, h4, h5⟩ :=
            (writeBuffered_sent (ps ++ [['\n']]) ⟨fileBuffer, [], ⟨world.fates, []⟩⟩ (by simp)).2 h3
          refine ⟨text, _, lost, ht, ?_, h4, key _⟩
          rw [← C44_bytes, ← h1, ← h5]; simp [pieceBytes, Buffered.text]
        · simp at h
    · simp at h
  · obtain ⟨e, he⟩ := run_refused hc
    rw [he] at h; simp at h

/-- C57 (a failure that is not reported; F20).  Writing a text of less than 8192 bytes to a file, other than encoding
with `--stats`: if the operating system accepts only `k` bytes, the run succeeds all the same and the file holds
those `k` bytes. -/
theorem C57_silent_loss (rd : Str → Option F) (args : Args) (world : World) (text : Str) (ht : Converts rd args world text)
    (p : Str) (ho : args.output = some p) (hc : world.canCreate p = true)
    (hs : ¬ (args.stats = true ∧ args.detectMode = .encode)) (hl : (utf8Bytes text).length < 8192)
    (k : Nat) (fates : List (Option Nat)) (hf : world.fates = some k :: fates) :
    (runTool rd args world).result = .ok () ∧
    filesAfter world.files (runTool rd args world).ops p = some ((utf8Bytes text).take k) := by
  obtain ⟨ps, h1, h2⟩ := run_converts ht
  have hu : args.unbuffered = false := by
    unfold Args.unbuffered
    cases h : args.stats with
    | false => rfl
    | true =>
      cases hm : args.detectMode with
      | encode => exact absurd ⟨h, hm⟩ hs
      | decode => rfl
  have hb : pieceBytes (ps ++ [['\n']]) = utf8Bytes text := by rw [← C44_bytes, ← h1]; rfl
  have h3 := writeBuffered_small (ps ++ [['\n']]) ⟨fileBuffer, [], ⟨world.fates, []⟩⟩ (by rw [hb]; simpa [fileBuffer] using hl)
  have h4 : (writeBuffered ⟨fileBuffer, [], ⟨world.fates, []⟩⟩ (ps ++ [['\n']])).1.sent.flatten
      = (utf8Bytes text).take k := by
    rw [h3, hf, ← hb]
    unfold Buffered.drop Buffered.flushBuf Device.writeAll
    rw [if_neg (by simp [pieceBytes, Utf8.bytes_append])]
    simp
  rw [h2]
  unfold write
  rw [ho, hu]
  dsimp only
  rw [if_pos hc]
  dsimp only
  simp only [Bool.false_eq_true, if_false]
  refine ⟨by rw [h3]; rfl, ?_⟩
  have := filesAfter_appends p (writeBuffered ⟨fileBuffer, [], ⟨world.fates, []⟩⟩ (ps ++ [['\n']])).1.sent
    ((FileOp.create p).apply world.files) [] (by simp [FileOp.apply])
  rw [h4] at this
  exact this

/-- C57 (not atomic).  Whenever the output file can be created there is a point at which an interrupted run leaves
it empty: the old contents are lost, also those of the input when converting in place. -/
theorem C57_not_atomic (rd : Str → Option F) (args : Args) (world : World) (text : Str) (ht : Converts rd args world text)
    (p : Str) (ho : args.output = some p) (hc : world.canCreate p = true) :
    ∃ files, CrashState world.files (runTool rd args world).ops files ∧ files p = some [] := by
  obtain ⟨ps, _, h2⟩ := run_converts ht
  rw [h2]
  unfold write
  rw [ho]
  dsimp only
  rw [if_pos hc]
  exact ⟨_, .step _ _ _ _ (.stop _ _), by simp [FileOp.apply]⟩

/-- C57.  Files after a run that is not interrupted are among those of `C57_crash`. -/
theorem C57_after (files : Files) (ops : List FileOp) : CrashState files ops (filesAfter files ops) := crash_after ops files

/-- C57 (two runs).  A run that encodes the JSON text in file `a` to file `b`, followed by a run that decodes file `b`
to file `c`, nothing failing: both succeed, and file `c` holds a JSON text with the value of the first, up to the
order of keys. -/
theorem C57_two_runs [LawfulF64 F] [LawfulJsonNum F] (rd : Str → Option F) (enc dec : Args) (first second : World)
    (a b c : Str) (hea : enc.input = some a) (heb : enc.output = some b) (hdb : dec.input = some b)
    (hdc : dec.output = some c) (ha : a ≠ "-".toList) (hb : b ≠ "-".toList)
    (h1 : first.Healthy) (h2 : second.Healthy) (hcb : first.canCreate b = true) (hcc : second.canCreate c = true)
    (hfiles : second.files = filesAfter first.files (runTool rd enc first).ops)
    (s : Str) (v : Json F) (hfa : first.files a = some (utf8Bytes s))
    (hme : enc.detectMode = .encode) (hmd : dec.detectMode = .decode)
    (hs : JsonDoc rd v s) (hh : height v < 128)
    (hi : 0 < enc.indent) (hid : dec.indent = enc.indent) (hd : ∃ t, parseDelimiter t = some enc.delimiter)
    (hf : enc.keyFolding = false) (hx : dec.expandPaths = false)
    (hk : DistinctKeys v) (hn : PlainNumbers v) (hw : Writable true v) :
    (runTool rd enc first).result = .ok () ∧ (runTool rd dec second).result = .ok () ∧
    ∃ json w, filesAfter second.files (runTool rd dec second).ops c = some (utf8Bytes json) ∧
      JsonDoc exactNumber w json ∧ w ≃ v := by
  obtain ⟨toon, json, w, g1, g2, g3, g4⟩ :=
    C54_command_line rd enc dec s v hme hmd hs hh hi hid hd hf hx hk hn hw
  have c1 : Converts rd enc first toon := ⟨s, by unfold inputBytes; rw [hea]; dsimp only; rw [if_neg ha]; exact hfa, g1⟩
  obtain ⟨r1, r2, _⟩ := C57_success rd enc first toon c1 h1 (fun p hp => by rw [heb] at hp; cases hp; exact hcb)
  have c2 : Converts rd dec second json := by
    refine ⟨toon, ?_, g2⟩
    unfold inputBytes; rw [hdb]; dsimp only; rw [if_neg hb, hfiles]; exact r2 b heb
  obtain ⟨r3, r4, _⟩ := C57_success rd dec second json c2 h2 (fun p hp => by rw [hdc] at hp; cases hp; exact hcc)
  exact ⟨r1, r3, json, w, r4 c hdc, g3, g4⟩

end

/-! ## Concrete cases -/

namespace FileExample

def toon : Str := "é: 1\nb[2]: x,y".toList

def world (fates : List (Option Nat)) : World :=
  { files := fun p => if p = "a.toon".toList then some (Utf8.bytes toon) else none
    stdin := some [0xC3], canCreate := fun _ => true, fates := fates }

def args (i o : Option Str) : Args :=
  { input := i, output := o, encode := false, decode := true, delimiter := ',', indent := 0,
    noStrict := false, keyFolding := false, flattenDepth := none, expandPaths := false, stats := false }

def json : Str := "{\"é\":1.0,\"b\":[\"x\",\"y\"]}\n".toList

theorem run_json (i o : Option Str) : runCli (F := B64) (fun _ => none) (args i o) toon = .ok json := by
  have h : runDecode B64 (args none none) toon = .ok json := by decide +kernel
  exact h

theorem converts (o : Option Str) (fates : List (Option Nat)) :
    Converts (F := B64) (fun _ => none) (args (some "a.toon".toList) o) (world fates) json :=
  ⟨toon, by rw [← C44_bytes]; rfl, run_json _ _⟩

/-- Converting in place. -/
example : filesAfter (world []).files
    (runTool (F := B64) (fun _ => none) (args (some "a.toon".toList) (some "a.toon".toList)) (world [])).ops
      "a.toon".toList = some (utf8Bytes json) :=
  (C57_success (F := B64) _ _ _ json (converts _ _) (by simp [World.Healthy, world]) (fun _ _ => rfl)).2.1 _ rfl

/-- A full device: nothing is written, and the run succeeds. -/
example : (runTool (F := B64) (fun _ => none) (args (some "a.toon".toList) (some ['b'])) (world [some 0])).result = .ok () ∧
    filesAfter (world [some 0]).files
      (runTool (F := B64) (fun _ => none) (args (some "a.toon".toList) (some ['b'])) (world [some 0])).ops ['b'] = some [] :=
  C57_silent_loss (F := B64) _ _ _ json (converts _ _) ['b'] rfl rfl (by decide)
    (by rw [← C44_bytes]; decide +kernel) 0 [] rfl

/-- On standard output the same failure is reported, and the bytes accepted are there. -/
example : (runTool (F := B64) (fun _ => none) (args (some "a.toon".toList) none) (world [some 3, some 0])).result
      = .error .write ∧
    (runTool (F := B64) (fun _ => none) (args (some "a.toon".toList) none) (world [some 3, some 0])).stdout.flatten
      = (utf8Bytes json).take 3 := by
  rw [← C44_bytes]; decide +kernel

/-- Standard input that is not UTF-8 is refused. -/
example : ¬ ∃ text, Converts (F := B64) (fun _ => none) (args none (some ['b'])) (world []) text := by
  rintro ⟨text, s, h, _⟩
  rw [← C44_bytes, ← readInput_iff] at h
  have hn : readInput (args none (some ['b'])) (world []) = none := by decide +kernel
  rw [hn] at h; simp at h

/-- An interrupted conversion in place: the first 7 bytes of the new text, in two portions. -/
example : ∃ bs, bs <+: utf8Bytes json ∧ bs.length = 7 ∧ CrashState (world []).files
    (runTool (F := B64) (fun _ => none) (args (some "a.toon".toList) (some "a.toon".toList)) (world [])).ops
    (fun q => if q = "a.toon".toList then some bs else none) := by
  have h : (runTool (F := B64) (fun _ => none) (args (some "a.toon".toList) (some "a.toon".toList)) (world [])).ops =
      [.create "a.toon".toList, .append "a.toon".toList (Utf8.bytes json)] := by decide +kernel
  refine ⟨(Utf8.bytes json).take 7, by rw [← C44_bytes]; exact List.take_prefix _ _, by decide +kernel, ?_⟩
  rw [h]
  refine .step _ _ _ _ ?_
  have := CrashState.torn "a.toon".toList (Utf8.bytes json) 7 [] ((FileOp.create "a.toon".toList).apply (world []).files)
  refine cast (congrArg _ ?_) this
  funext q
  by_cases hq : q = "a.toon".toList
  · subst hq; simp [FileOp.apply]
  · simp only [FileOp.apply, world, if_neg hq]

def encodeArgs : Args :=
  { CliExample.args (some "a.json".toList) with output := some "b.toon".toList, stats := true }

def decodeArgs : Args := { CliExample.args (some "b.toon".toList) with output := some "a.json".toList }

noncomputable def first : World :=
  { files := fun _ => some (utf8Bytes CliExample.json), stdin := none, canCreate := fun _ => true, fates := [] }

/-- The files are those the first run leaves. -/
noncomputable def second : World :=
  { files := filesAfter first.files (runTool (F := B64) exactNumber encodeArgs first).ops,
    stdin := none, canCreate := fun _ => true, fates := [none] }

/-- `C57_two_runs` applies to the JSON text of C54, encoded with `--stats` and decoded back to the first file. -/
example : ∃ (out : Str) (w : Json B64),
    filesAfter second.files (runTool (F := B64) exactNumber decodeArgs second).ops "a.json".toList
      = some (utf8Bytes out) ∧ JsonDoc exactNumber w out ∧ w ≃ RoundTripExample.value :=
  (C57_two_runs (F := B64) exactNumber encodeArgs decodeArgs first second
    "a.json".toList "b.toon".toList "a.json".toList rfl rfl rfl rfl (by decide +kernel) (by decide +kernel)
    (by simp [World.Healthy, first]) (by simp [World.Healthy, second]) rfl rfl (by rw [second])
    CliExample.json RoundTripExample.value (by rw [first])
    (by decide +kernel) (by decide +kernel) CliExample.json_denotes (by decide +kernel) (by decide +kernel) rfl ⟨"comma".toList, by decide⟩ rfl rfl
    RoundTripExample.distinct RoundTripExample.plain RoundTripExample.writable).2.2

end FileExample

end Toon
