import Verif.Lemmas.Script
import Verif.Props.Grammar
import Verif.Props.RoundTrip
import Verif.Props.Cells

/-!
# C84: spelling does not matter

`Spec/Script.lean` says what a text in any spelling looks like and which value it shows.
-/

namespace Toon

section
variable {F : Type} [F64 F] [LawfulF64 F]

/-- C84.  Whatever the spelling, both modes read the value the text shows. -/
theorem C84_value {indent : Nat} (hi : 0 < indent) (strict : Bool) (S : Script F) (h : S.RightDocument) :
    decode ⟨indent, strict, false⟩ (S.written indent) = .ok S.value := by
  obtain ⟨t, h1, h2⟩ := text_script hi strict S h
  exact (C58_value ⟨indent, strict, false⟩ rfl _ _).mpr ⟨t, h1, h2.symm⟩

/-- C84.  Two spellings of the same value, with any widths of indentation, are read alike. -/
theorem C84_same {i j : Nat} (hi : 0 < i) (hj : 0 < j) (s t : Bool) (S T : Script F) (hS : S.RightDocument) (hT : T.RightDocument)
    (h : S.value = T.value) :
    decode ⟨i, s, false⟩ (S.written i) = decode (F := F) ⟨j, t, false⟩ (T.written j) := by
  rw [C84_value hi s S hS, C84_value hj t T hT, h]

/-- C84.  Respell what the encoder wrote in any way: the value that comes back is the same. -/
theorem C84_respelled (opts : EncOpts) (hi : 0 < opts.indent) (hd : GoodDelim opts.delim) (hf : opts.fold = false) (v : Json F)
    (hw : Writable true v) (hk : DistinctKeys v) (ha : Aligned true v) (hn : PlainNumbers v) (strict : Bool) {indent : Nat} (hj : 0 < indent)
    (S : Script F) (hS : S.RightDocument) (hv : S.value = v) :
    decode (F := F) ⟨indent, strict, false⟩ (S.written indent) = decode ⟨opts.indent, strict, false⟩ (encode opts v) := by
  rw [C84_value hj strict S hS, C01_round_trip_exact opts strict v hi hd hf hw hk ha hn, hv]

end

/-! ## Examples -/

namespace ScriptExample

/-- Spaces before and after a word. -/
def word (before : Nat) (text : String) (after : Nat) : Padded := ⟨before, text.toList, after⟩

def say (before : Nat) (text : String) (after : Nat) (p : Prim B64) : Word B64 := ⟨word before text after, p⟩

def str (s : String) : Prim B64 := .str s.toList

/-- `1`, however it is spelled. -/
def one : Prim B64 := match parsePrimitiveToken "1".toList with | .ok p => p | .error _ => .null

def script : Script B64 := .object
  [(⟨"name ".toList, "name".toList⟩, .prim (say 2 "\"Ada\"" 1 (str "Ada"))),
   (⟨"\"at\"".toList, "at".toList⟩, .prim (say 0 "12:30" 0 (str "12:30"))),
   (⟨"tags ".toList, "tags".toList⟩, .inline '|' "+3|".toList [say 1 "a,b" 1 (str "a,b"), say 1 "\"c|d\"" 0 (str "c|d"), say 0 "1e0" 2 one]),
   (⟨"t".toList, "t".toList⟩, .table ',' "02".toList [⟨word 1 "id" 1, "id".toList⟩, ⟨word 1 "\"n,m\"" 0, "n,m".toList⟩]
     [[say 0 "1.0" 0 one, say 2 "x" 0 (str "x")], [say 0 "10e-1" 1 one, say 0 "\"true\"" 0 (str "true")]]),
   (⟨"l".toList, "l".toList⟩, .list '\t' "3\t".toList [.prim (say 3 "\"a: b\"" 0 (str "a: b")), .object [],
     .object [(⟨"k".toList, "k".toList⟩, .inline ',' "2".toList [say 0 "1" 0 one, say 0 "true" 0 (.bool true)])]])]

/-- The text, and the value it shows. -/
example : script.written 2 = ("name :  \"Ada\" \n\"at\":12:30\ntags [+3|]: a,b | \"c|d\"|1e0  \nt[02]{ id , \"n,m\"}:\n  1.0,  x\n" ++
    "  10e-1 ,\"true\"\nl[3\t]:\n  -    \"a: b\"\n  -\n  - k[2]:1,true").toList := by decide +kernel

example : script.value = .obj [("name".toList, .prim (str "Ada")), ("at".toList, .prim (str "12:30")),
    ("tags".toList, .arr [.prim (str "a,b"), .prim (str "c|d"), .prim one]),
    ("t".toList, .arr [.obj [("id".toList, .prim one), ("n,m".toList, .prim (str "x"))],
      .obj [("id".toList, .prim one), ("n,m".toList, .prim (str "true"))]]),
    ("l".toList, .arr [.prim (str "a: b"), .obj [], .obj [("k".toList, .arr [.prim one, .prim (.bool true)])]])] := by decide +kernel

theorem visible {t : Str} (h : (t ≠ [] ∧ '\n' ∉ t) ∧ (t.head?.all fun c => !isWs c) = true ∧ (t.getLast?.all fun c => !isWs c) = true) : Visible t := by
  refine ⟨h.1.1, h.1.2, ?_, ?_⟩
  · intro c hc
    have := h.2.1
    rw [hc] at this
    simpa using this
  · intro c hc
    have := h.2.2
    rw [hc] at this
    simpa using this

theorem right {w : Word B64} (h : ((w.word.text ≠ [] ∧ '\n' ∉ w.word.text) ∧ (w.word.text.head?.all fun c => !isWs c) = true ∧
    (w.word.text.getLast?.all fun c => !isWs c) = true) ∧ parsePrimitiveToken w.word.text = .ok w.prim) : w.Right := by
  have hv := visible h.1
  refine ⟨hv, ?_⟩
  have := (C46_token _ _).mp h.2
  rwa [trim_eq_self hv.noEdge] at this

theorem denotes {body s : Str} (hb : '\\' ∉ body) (hq : '"' ∉ body) (h : body = s) : QuotedDenotes body s := by
  subst h
  induction body with
  | nil => exact .nil
  | cons c t ih =>
    simp only [List.mem_cons, not_or] at hb hq
    exact .plain (Ne.symm hb.1) (Ne.symm hq.1) (ih hb.2 hq.2)

theorem len (digits mark : String) (n : Nat) (d : Char) (plus : Str) (hp : plus = [] ∨ plus = ['+'])
    (h : (digits.toList ≠ [] ∧ digits.toList.all Char.isDigit = true) ∧ decimalValue digits.toList 0 = n ∧ n < 2 ^ 64 ∧
      (mark.toList = [] ∧ d = ',' ∨ mark.toList = ['|'] ∧ d = '|' ∨ mark.toList = ['\t'] ∧ d = '\t')) :
    LengthMeans (plus ++ digits.toList ++ mark.toList) n d :=
  ⟨plus, digits.toList, mark.toList, rfl, hp, ⟨h.1.1, fun c hc => List.all_eq_true.mp h.1.2 c hc⟩, h.2.1, h.2.2.1, h.2.2.2⟩

theorem script_right : script.RightDocument := by
  have hne : ∀ w : Word B64, script ≠ .prim w := by intro w h; simp [script] at h
  refine ⟨?_, fun w hw => absurd hw (hne w)⟩
  simp only [script, Script.Right, Script.RightEntries, Script.RightItems]
  refine ⟨.bare (name := "name".toList) 1 (visible (by decide)) (by decide) (by decide) (by decide) (by decide), ?_, right (by decide +kernel), ?_⟩
  · intro w hw; cases hw; exact Or.inr (Or.inl (by decide))
  refine ⟨.quoted (body := "at".toList) (denotes (by decide) (by decide) rfl) (by decide), fun _ _ => Or.inl rfl, right (by decide +kernel), ?_⟩
  refine ⟨.bare (name := "tags".toList) 1 (visible (by decide)) (by decide) (by decide) (by decide) (by decide), by simp, ⟨?_, by decide, ?_⟩, ?_⟩
  · exact len "3" "|" 3 '|' ['+'] (Or.inr rfl) (by decide)
  · intro w hw
    simp only [List.mem_cons, List.not_mem_nil, or_false] at hw
    rcases hw with rfl | rfl | rfl
    · exact ⟨right (by decide +kernel), Or.inr (by decide)⟩
    · exact ⟨right (by decide +kernel), Or.inl ⟨"c|d".toList, "c|d".toList, rfl, denotes (by decide) (by decide) rfl⟩⟩
    · exact ⟨right (by decide +kernel), Or.inr (by decide)⟩
  refine ⟨.bare (name := "t".toList) 0 (visible (by decide)) (by decide) (by decide) (by decide) (by decide), by simp,
    ⟨len "02" "" 2 ',' [] (Or.inl rfl) (by decide), by decide, by simp, ?_, ?_⟩, ?_⟩
  · intro c hc
    simp only [List.mem_cons, List.not_mem_nil, or_false] at hc
    rcases hc with rfl | rfl
    · exact ⟨visible (by decide), Or.inr (by decide), by decide, false, .bare (by decide)⟩
    · exact ⟨visible (by decide), Or.inl ⟨"n,m".toList, "n,m".toList, rfl, denotes (by decide) (by decide) rfl⟩, by decide, true,
        .quoted (body := "n,m".toList) (denotes (by decide) (by decide) rfl)⟩
  · intro row hrow
    simp only [List.mem_cons, List.not_mem_nil, or_false] at hrow
    rcases hrow with rfl | rfl
    · refine ⟨rfl, by intro w hw; simp at hw; subst hw; rfl, ?_⟩
      intro w hw
      simp only [List.mem_cons, List.not_mem_nil, or_false] at hw
      rcases hw with rfl | rfl <;> exact ⟨right (by decide +kernel), Or.inr (by decide)⟩
    · refine ⟨rfl, by intro w hw; simp at hw; subst hw; rfl, ?_⟩
      intro w hw
      simp only [List.mem_cons, List.not_mem_nil, or_false] at hw
      rcases hw with rfl | rfl
      · exact ⟨right (by decide +kernel), Or.inr (by decide)⟩
      · exact ⟨right (by decide +kernel), Or.inl ⟨"true".toList, "true".toList, rfl, denotes (by decide) (by decide) rfl⟩⟩
  refine ⟨.bare (name := "l".toList) 0 (visible (by decide)) (by decide) (by decide) (by decide) (by decide), by simp,
    ⟨len "3" "\t" 3 '\t' [] (Or.inl rfl) (by decide), by decide, ?_, right (by decide +kernel), by simp, trivial, by simp, ?_, trivial⟩, trivial⟩
  · intro w hw; cases hw; exact Or.inl rfl
  · refine ⟨.bare (name := "k".toList) 0 (visible (by decide)) (by decide) (by decide) (by decide) (by decide), by simp,
      ⟨len "2" "" 2 ',' [] (Or.inl rfl) (by decide), by decide, ?_⟩, trivial⟩
    intro w hw
    simp only [List.mem_cons, List.not_mem_nil, or_false] at hw
    rcases hw with rfl | rfl <;> exact ⟨right (by decide +kernel), Or.inr (by decide)⟩

example (strict : Bool) : decode ⟨2, strict, false⟩ (script.written 2) = .ok script.value := C84_value (by decide) strict script script_right

/-- Where quotes do matter: an element of a list with a colon is an object. -/
example : decode (F := B64) ⟨2, true, false⟩ "l[1]:\n  - a: b".toList =
    .ok (.obj [("l".toList, .arr [.obj [("a".toList, .prim (str "b"))]])]) := by decide +kernel

/-- A bracket and a colon under a plain key make a header. -/
example : decode (F := B64) ⟨2, true, false⟩ "k: x[1]: y".toList = .ok (.obj [("k: x".toList, .arr [.prim (str "y")])]) := by decide +kernel

end ScriptExample

end Toon
