import Verif.Spec.Files

/-! # What the command line tool should say -/

namespace Toon

/-- `words` are the words of the text: the longest parts without white space, in order. -/
inductive Words : Str → List Str → Prop where
  | none (blank : Str) (hb : ∀ c ∈ blank, isWs c = true) : Words blank []
  | word (blank w rest : Str) (words : List Str) (hb : ∀ c ∈ blank, isWs c = true) (hw : ∀ c ∈ w, isWs c = false) (hn : w ≠ [])
      (hr : ∀ c, rest.head? = some c → isWs c = true) (h : Words rest words) : Words (blank ++ w ++ rest) (w :: words)

/-- `n` is the estimated number of tokens: a quarter of the visible characters, at least the number of words, at least
one. -/
def Estimate (s : Str) (n : Nat) : Prop :=
  ∃ words, Words s words ∧ n = max (max (s.countP (fun c => !isWs c) / 4) words.length) 1

/-- `p` tenths are a nearest number of tenths to `100 · part / whole`. -/
def NearestTenths (part whole p : Nat) : Prop :=
  2 * (1000 * part - p * whole) ≤ whole ∧ 2 * (p * whole - 1000 * part) ≤ whole

/-- Lines, each with its end. -/
def unlines (lines : List String) : Str := (lines.map (fun l => l.toList ++ ['\n'])).flatten

/-- The lines of `--stats` for estimates of `json` and `toon` tokens; `p` are the tenths of a percent. -/
def statsLines (json toon p : Nat) : List String :=
  ["", s!"Token estimates: ~{json} (JSON) → ~{toon} (TOON)"] ++
    if toon < json then [s!"Saved ~{json - toon} tokens (-{p / 10}.{p % 10}%)"] else []

/-- The name of the input. -/
def inputName (args : Args) : String :=
  match args.input with
  | none => "stdin"
  | some path => if path = "-".toList then "stdin" else String.ofList path

/-- The note about the output file. -/
def noteLines (verb : String) (args : Args) : List String :=
  match args.output with
  | none => []
  | some path => [s!"{verb} `{inputName args}` → `{String.ofList path}`"]

end Toon
