import Verif.Props.Host

/-!
# C43: arguments of the command line tool; C54: the tool reading and writing texts
-/

namespace Toon

/-! ## C43 -/

/-- C43.  The tool decodes exactly when `--encode` is not given and either `--decode` is given or the input path has
the extension `toon`, in any case; otherwise it encodes. -/
theorem C43_mode (args : Args) : args.detectMode = .decode ↔
    args.encode = false ∧ (args.decode = true ∨
      ∃ path ext, args.input = some path ∧ HasExtension path ext ∧ ext.map Char.toLower = "toon".toList) := by
  unfold Args.detectMode
  cases args.encode with
  | true => simp
  | false =>
    cases args.decode with
    | true => simp
    | false =>
      simp only [Bool.false_eq_true, if_false, true_and, false_or]
      constructor
      · intro h
        cases hi : args.input with
        | none => simp [hi] at h
        | some path =>
          cases he : pathExtension path with
          | none => simp [hi, he] at h
          | some ext =>
            simp only [hi, Option.bind_some, he] at h
            refine ⟨path, ext, rfl, (pathExtension_iff _ _).1 he, ?_⟩
            by_cases h1 : toLowercase ext = "json".toList
            · rw [if_pos h1] at h; exact absurd h (by decide)
            · rw [if_neg h1] at h
              by_cases h2 : toLowercase ext = "toon".toList
              · exact h2
              · rw [if_neg h2] at h; exact absurd h (by decide)
      · rintro ⟨path, ext, h1, h2, h3⟩
        have he := (pathExtension_iff _ _).2 h2
        simp only [h1, Option.bind_some, he]
        have h4 : toLowercase ext = "toon".toList := h3
        have h5 : toLowercase ext ≠ "json".toList := by rw [h4]; decide
        rw [if_neg h5, if_pos h4]

/-- C43.  A flag decides, whatever the path. -/
theorem C43_flags (args : Args) (h : args.encode = true ∨ args.decode = true) :
    args.detectMode = if args.encode = true then .encode else .decode := by
  unfold Args.detectMode
  cases he : args.encode with
  | true => rfl
  | false =>
    rw [he] at h
    have hd : args.decode = true := by simpa using h
    rw [hd]
    rfl

/-- C43.  Standard input is read exactly when no path or the path `-` is given; it is encoded unless a flag
says otherwise. -/
theorem C43_stdin (args : Args) : (args.isStdin = true ↔ args.input = none ∨ args.input = some ['-']) ∧
    (args.isStdin = true → args.decode = false → args.detectMode = .encode) := by
  have h1 : args.isStdin = true ↔ args.input = none ∨ args.input = some ['-'] := by
    unfold Args.isStdin
    cases args.input <;> simp
  refine ⟨h1, fun h hd => ?_⟩
  cases hm : args.detectMode with
  | encode => rfl
  | decode =>
    obtain ⟨_, h2 | ⟨path, ext, h2, h3, _⟩⟩ := (C43_mode args).1 hm
    · simp [hd] at h2
    · rcases h1.1 h with h4 | h4
      · simp [h4] at h2
      · rw [h4, Option.some.injEq] at h2
        have := (pathExtension_iff _ _).2 h3
        rw [← h2, show pathExtension ['-'] = none by decide] at this
        simp at this

/-- C43.  The delimiter option accepts exactly the listed spellings. -/
theorem C43_delimiter (s : Str) (c : Char) : parseDelimiter s = some c ↔ (s, c) ∈ delimiterSpellings := by
  constructor
  · intro h
    unfold parseDelimiter at h
    by_cases h1 : s = ",".toList ∨ s = "comma".toList
    · rw [if_pos h1, Option.some.injEq] at h
      subst h
      rcases h1 with rfl | rfl <;> decide
    · rw [if_neg h1] at h
      by_cases h2 : s = "|".toList ∨ s = "pipe".toList
      · rw [if_pos h2, Option.some.injEq] at h
        subst h
        rcases h2 with rfl | rfl <;> decide
      · rw [if_neg h2] at h
        by_cases h3 : s = "\\t".toList ∨ s = "\t".toList ∨ s = "tab".toList
        · rw [if_pos h3, Option.some.injEq] at h
          subst h
          rcases h3 with rfl | rfl | rfl <;> decide
        · rw [if_neg h3] at h
          exact absurd h (by simp)
  · intro h
    simp only [delimiterSpellings, List.mem_cons, Prod.mk.injEq, List.not_mem_nil, or_false] at h
    rcases h with ⟨rfl, rfl⟩ | ⟨rfl, rfl⟩ | ⟨rfl, rfl⟩ | ⟨rfl, rfl⟩ | ⟨rfl, rfl⟩ | ⟨rfl, rfl⟩ | ⟨rfl, rfl⟩ <;> decide

/-- C43.  Every accepted delimiter is one the format knows. -/
theorem C43_delimiter_good (s : Str) (c : Char) (h : parseDelimiter s = some c) : GoodDelim c := by
  rw [C43_delimiter] at h
  simp only [delimiterSpellings, List.mem_cons, Prod.mk.injEq, List.not_mem_nil, or_false] at h
  unfold GoodDelim
  rcases h with h | h | h | h | h | h | h <;> simp [h.2]

namespace CliExample

/-- The arguments of `toon` without options. -/
def args (input : Option Str) : Args :=
  { input := input, output := none, encode := false, decode := false, delimiter := ',', indent := 2,
    noStrict := false, keyFolding := false, flattenDepth := none, expandPaths := false, stats := false }

end CliExample
open CliExample

example : (args (some "dir.d/data.TooN/.".toList)).detectMode = .decode := by decide
example : (args (some "a.b.json".toList)).detectMode = .encode := by decide
example : (args (some "x.toon/y".toList)).detectMode = .encode := by decide
example : (args (some ".toon".toList)).detectMode = .encode := by decide
example : (args (some "..".toList)).detectMode = .encode := by decide
example : (args (some "-".toList)).isStdin = true ∧ (args (some "./-".toList)).isStdin = false := by decide
example : HasExtension "dir.d/data.TooN/.".toList "TooN".toList := by
  rw [← pathExtension_iff]; decide
example : parseDelimiter "tab".toList = some '\t' ∧ parseDelimiter "Tab".toList = none ∧ parseDelimiter ";".toList = none := by
  decide

/-! ## C54 -/

section
variable {F : Type} [F64 F] [JsonNum F]

/-- The options `run_decode` uses. -/
def Args.decOpts (args : Args) : DecOpts := ⟨args.indent, !args.noStrict, args.expandPaths⟩

/-- The options `run_encode` uses. -/
def Args.encOpts (args : Args) : EncOpts :=
  ⟨args.indent, args.delimiter, args.keyFolding, args.flattenDepth.getD (2 ^ 64 - 1)⟩

theorem jsonDoc_newline {rd : Str → Option F} {v : Json F} {s : Str} (h : JsonDoc rd v s) : JsonDoc rd v (s ++ ['\n']) := by
  obtain ⟨w, t, w', rfl, h1, h2, h3⟩ := h
  refine ⟨w, t, w' ++ ['\n'], by simp, h1, h2, ?_⟩
  intro c hc
  rcases List.mem_append.1 hc with hc | hc
  · exact h3 c hc
  · simp at hc; simp [hc]

/-- C54.  `toon` decoding: it fails exactly when `decode` with the same options fails, with the same error;
otherwise what it prints denotes the decoded value and no other. -/
theorem C54_run_decode [LawfulF64 F] [LawfulJsonNum F] (args : Args) (toon : Str) :
    (∀ e, decode (F := F) args.decOpts toon = .error e → runDecode F args toon = .error e) ∧
    ∀ v : Json F, decode args.decOpts toon = .ok v →
      ∃ json, runDecode F args toon = .ok json ∧ ∀ w : Json F, JsonDoc exactNumber w json ↔ w = v := by
  have hopts : resolveDecodeOptions (some ⟨some args.indent, some (!args.noStrict), some args.expandPaths⟩) =
      args.decOpts := rfl
  unfold runDecode decodeToJsonChunks
  simp only [hopts]
  cases hx : args.expandPaths with
  | true =>
    have hx' : args.decOpts.expand = true := hx
    have hv : decodeToValue F toon args.decOpts = decode args.decOpts toon := rfl
    simp only [hx', if_true, hv]
    constructor
    · intro e h
      simp only [h]
    · intro v h
      simp only [h, writeChunks_eq]
      refine ⟨_, rfl, fun w => ?_⟩
      have he := C35_exact v (finite_of_plain (C20_plain_numbers _ _ v h)) args.decOpts.indent
      constructor
      · intro h2
        exact jsonDoc_unique h2 (jsonDoc_newline ((he v).2 rfl))
      · rintro rfl
        exact jsonDoc_newline ((he w).2 rfl)
  | false =>
    have hx' : args.decOpts.expand = false := hx
    simp only [hx', Bool.false_eq_true, if_false]
    constructor
    · intro e h
      rcases C14_errors _ _ _ h with h1 | ⟨h1, _⟩
      · have h2 : decodeEvents F toon args.decOpts.indent args.decOpts.strict = .error e := h1
        simp only [h2]
      · rw [hx'] at h1; simp at h1
    · intro v h
      obtain ⟨evs, cs, h1, h2, h3, _⟩ := C36_denotes _ hx' _ v h args.decOpts.indent
      have h1' : decodeEvents F toon args.decOpts.indent args.decOpts.strict = .ok evs := h1
      simp only [h1', h2, writeChunks_eq]
      refine ⟨_, rfl, fun w => ?_⟩
      constructor
      · intro h4
        exact jsonDoc_unique h4 (jsonDoc_newline ((h3 v).2 rfl))
      · rintro rfl
        exact jsonDoc_newline ((h3 w).2 rfl)

omit [JsonNum F] in
/-- C54.  `toon` encoding: it fails exactly on text that is not JSON or nested more than 127 deep; otherwise it prints
the encoding of the value the text denotes (with the last of duplicate members) and a newline, with or without
`--stats`. -/
theorem C54_run_encode (rd : Str → Option F) (args : Args) (s out : Str) :
    runEncode rd args s = .ok out ↔ ∃ v, JsonDoc rd v s ∧ height v < 128 ∧
      out = encode args.encOpts (fromHost (lastWins v)) ++ ['\n'] := by
  have hopts : resolveEncodeOptions (some ⟨some args.indent, some args.delimiter, some args.keyFolding, args.flattenDepth⟩) =
      args.encOpts := rfl
  have hout : ∀ ls, (if args.stats then writeOutput (joinWith '\n' ls) else writeLinesFrom 0 ls) =
      joinWith '\n' ls ++ ['\n'] := by
    intro ls
    by_cases h : args.stats = true
    · rw [if_pos h]; rfl
    · rw [if_neg h, writeLines_eq]
  unfold runEncode encodeToToonLines
  simp only [hopts, hout]
  constructor
  · intro h
    cases hs : hostFromStr rd s with
    | error e => simp [hs] at h
    | ok x =>
      simp only [hs, Except.ok.injEq] at h
      obtain ⟨v, h1, h2, h3⟩ := (C42_from_text rd s x).1 hs
      exact ⟨v, h1, h2, by rw [← h, h3]; rfl⟩
  · rintro ⟨v, h1, h2, rfl⟩
    simp only [(C42_from_text rd s _).2 ⟨v, h1, h2, rfl⟩]
    rfl

/-- C54 (command line).  Encoding a JSON text and decoding the result with the same indent and `--key-folding off`,
any accepted delimiter, strict or not: the printed JSON denotes the value of the original text, up to the order
of keys. -/
theorem C54_command_line [LawfulF64 F] [LawfulJsonNum F] (rd : Str → Option F) (enc dec : Args) (s : Str) (v : Json F)
    (hme : enc.detectMode = .encode) (hmd : dec.detectMode = .decode)
    (hs : JsonDoc rd v s) (hh : height v < 128)
    (hi : 0 < enc.indent) (hid : dec.indent = enc.indent) (hd : ∃ t, parseDelimiter t = some enc.delimiter)
    (hf : enc.keyFolding = false) (hx : dec.expandPaths = false)
    (hk : DistinctKeys v) (hn : PlainNumbers v) (hw : Writable true v) :
    ∃ toon json w, runCli rd enc s = .ok toon ∧ runCli rd dec toon = .ok json ∧
      JsonDoc exactNumber w json ∧ w ≃ v := by
  obtain ⟨t, ht⟩ := hd
  have h1 := (C54_run_encode rd enc s _).2 ⟨v, hs, hh, rfl⟩
  rw [lastWins_id v hk, fromHost_eq, normalize_normal ((normal_iff v).2 hn)] at h1
  obtain ⟨w, h2, h3⟩ := C01_round_trip enc.encOpts (!dec.noStrict) v hi (C43_delimiter_good t _ ht) hf hw hk hn
  have ho : dec.decOpts = { indent := enc.encOpts.indent, strict := !dec.noStrict, expand := false } := by
    unfold Args.decOpts; rw [hx, hid]; rfl
  rw [← ho, ← C19_newline] at h2
  obtain ⟨json, h4, h5⟩ := (C54_run_decode dec _).2 w h2
  exact ⟨_, json, w, by unfold runCli; rw [hme]; exact h1, by unfold runCli; rw [hmd]; exact h4, (h5 w).2 rfl, h3⟩

/-- C54 (command line with folding).  The same with `--key-folding safe` (any `--flatten-depth`) or off, and
`--expand-paths safe`, for values none of whose keys is a dotted path of identifiers. -/
theorem C54_command_line_folded [LawfulF64 F] [LawfulJsonNum F] (rd : Str → Option F) (enc dec : Args) (s : Str) (v : Json F)
    (hme : enc.detectMode = .encode) (hmd : dec.detectMode = .decode)
    (hs : JsonDoc rd v s) (hh : height v < 128)
    (hi : 0 < enc.indent) (hid : dec.indent = enc.indent) (hd : ∃ t, parseDelimiter t = some enc.delimiter)
    (hx : dec.expandPaths = true)
    (hk : DistinctKeys v) (hn : PlainNumbers v) (hw : Writable true v) (hdot : NoDottedKeys v) :
    ∃ toon json w, runCli rd enc s = .ok toon ∧ runCli rd dec toon = .ok json ∧
      JsonDoc exactNumber w json ∧ w ≃ v := by
  obtain ⟨t, ht⟩ := hd
  have h1 := (C54_run_encode rd enc s _).2 ⟨v, hs, hh, rfl⟩
  rw [lastWins_id v hk, fromHost_eq, normalize_normal ((normal_iff v).2 hn)] at h1
  obtain ⟨w, h2, h3⟩ := C23_lossless enc.encOpts (!dec.noStrict) v hi (C43_delimiter_good t _ ht) hw hk hn hdot (by omega)
  have ho : dec.decOpts = { indent := enc.encOpts.indent, strict := !dec.noStrict, expand := true } := by
    unfold Args.decOpts; rw [hx, hid]; rfl
  rw [← ho, ← C19_newline] at h2
  obtain ⟨json, h4, h5⟩ := (C54_run_decode dec _).2 w h2
  exact ⟨_, json, w, by unfold runCli; rw [hme]; exact h1, by unfold runCli; rw [hmd]; exact h4, (h5 w).2 rfl, h3⟩

end

/-! ## Concrete cases -/

namespace CliExample

/-- A JSON text with white space, an escape, a table with different key orders and a number with exponent. -/
def json : Str :=
  "{ \"rows\": [{\"id\":15e-1,\"na:me\":\"a,b\"} , {\"na:me\":\"\\u002d\",\"id\":null}],\n\"\":\"[3]: x\",\"list\":[true,{},[\"\",[]]]}".toList

theorem json_denotes : JsonDoc (exactNumber (F := B64)) RoundTripExample.value json := by
  rw [← readJson_iff]; decide +kernel

/-- C54 applies to it, with a pipe as delimiter and indent 4. -/
example : ∃ toon out w, runCli (F := B64) exactNumber { args none with delimiter := '|', indent := 4 } json = .ok toon ∧
    runCli (F := B64) exactNumber { args none with decode := true, indent := 4, noStrict := true } toon = .ok out ∧
    JsonDoc exactNumber w out ∧ w ≃ RoundTripExample.value :=
  C54_command_line exactNumber { args none with delimiter := '|', indent := 4 }
    { args none with decode := true, indent := 4, noStrict := true } json RoundTripExample.value (by decide) (by decide)
    json_denotes (by decide +kernel) (by decide) rfl ⟨"pipe".toList, by decide⟩ rfl rfl RoundTripExample.distinct
    RoundTripExample.plain RoundTripExample.writable

example : ∃ toon out w, jsonToToon (F := B64) exactNumber json = .ok toon ∧ toonToJson B64 toon = .ok out ∧
    JsonDoc exactNumber w out ∧ w ≃ RoundTripExample.value :=
  C54_library_plain exactNumber json RoundTripExample.value json_denotes (by decide +kernel) RoundTripExample.distinct
    RoundTripExample.plain RoundTripExample.writable

/-- A JSON text with two chains that fold and a dotted key that is no path. -/
def chains : Str :=
  "{\"a\":{\"b\":{\"c\":1}},\"a b.c\":{\"d\":{}},\"t\":{\"rows\":[{\"k\":null},{\"k\":true}]},\"x\":[{\"m\":{\"n\":1.0},\"p\":{\"q.\":\"1\"}},2]}".toList

example : ∃ toon out w,
    runCli (F := B64) exactNumber { args (some "a.json".toList) with delimiter := '\t', keyFolding := true, flattenDepth := some 2 } chains = .ok toon ∧
    runCli (F := B64) exactNumber { args (some "a.toon".toList) with expandPaths := true } toon = .ok out ∧
    JsonDoc exactNumber w out ∧ w ≃ FoldExample.value :=
  C54_command_line_folded exactNumber { args (some "a.json".toList) with delimiter := '\t', keyFolding := true, flattenDepth := some 2 }
    { args (some "a.toon".toList) with expandPaths := true } chains FoldExample.value (by decide) (by decide)
    (by rw [← readJson_iff]; decide +kernel) (by decide +kernel) (by decide) rfl ⟨"tab".toList, by decide⟩ rfl
    FoldExample.distinct FoldExample.plain FoldExample.writable FoldExample.undotted

def out (r : Except Err Str) : Option String := r.toOption.map String.ofList

/-- **Duplicate keys (F17).**  The library keeps the last value at the first position, the command line tool prints
all members. -/
theorem C54_duplicates_differ :
    out (toonToJson B64 "a: 1\nb: x\na: 3".toList) = some "{\"a\":3.0,\"b\":\"x\"}" ∧
    out (runDecode B64 { args none with decode := true, indent := 0 } "a: 1\nb: x\na: 3".toList) =
      some "{\"a\":1.0,\"b\":\"x\",\"a\":3.0}\n" := by decide +kernel

/-- **Numbers (F18).**  Every number of the output is written as a float; two integers beyond 2^53 are read as the
same number. -/
theorem C54_integers :
    out (toonToJson B64 "1".toList) = some "1.0" ∧
    readJson (F := B64) exactNumber "9007199254740993".toList = readJson exactNumber "9007199254740992".toList ∧
    out (toonToJson B64 "9007199254740993".toList) = some "9007199254740992.0" := by decide +kernel

def nest (n : Nat) : Str := List.replicate n '[' ++ List.replicate n ']'

/-- `a:` nested `n` deep. -/
def deepDoc (n : Nat) : Str :=
  joinWith '\n' ((List.range n).map fun i => List.replicate (2 * i) ' ' ++ ['a', ':'])

/-- **Nesting (F19).**  JSON input nested 128 deep is refused, 127 is accepted; the output can be nested deeper than
what is accepted as input. -/
theorem C54_nesting :
    (hostFromStr (F := B64) exactNumber (nest 127)).isOk = true ∧
    hostFromStr (F := B64) exactNumber (nest 128) = .error .jsonParse ∧
    (match toonToJson B64 (deepDoc 130) with
      | .ok s => (hostFromStr (F := B64) exactNumber s).isOk
      | .error _ => true) = false := by decide +kernel

end CliExample

end Toon
