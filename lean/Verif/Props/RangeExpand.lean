import Verif.Props.Range
import Verif.Props.ExpandExact
import Verif.Props.JsonFrames
import Verif.Lemmas.Deepest

/-!
# C100: which values have a text with path expansion

C74 answers the question for decoding without path expansion.  With it a value has distinct keys and cannot need more than 256
levels; `plainLevels` and `leastLevels` (`Spec/Levels.lean`) say how many levels a value takes if its keys stand for themselves and
how many it takes whatever its keys are joined to.
-/

namespace Toon

section
variable {F : Type} [F64 F] [LawfulF64 F]

/-- C100.  What comes out of path expansion: distinct keys, plain numbers, arrays that can be declared, no more than 256 of the levels
that cannot be avoided, and at most 16 132 arrays and objects inside each other. -/
theorem C100_only (opts : DecOpts) (hx : opts.expand = true) (text : Str) (v : Json F) (h : decode opts text = .ok v) :
    DistinctKeys v ∧ PlainNumbers v ∧ Declarable opts.strict v ∧ leastLevels false v ≤ 256 ∧ height v ≤ 16132 := by
  obtain ⟨t, h1, rfl, _⟩ := (C63_value opts hx text v).mp h
  obtain ⟨t', h3, hn, hh⟩ := C29_cap opts hx text _ h
  have hst := (C58_events _ _ _ _).mpr ⟨t, h1, rfl⟩
  rw [hst] at h3
  simp only [Except.ok.injEq] at h3
  obtain rfl : t = t' := events_inj h3
  refine ⟨C26_distinct opts hx text _ h, C20_plain_numbers _ _ _ h, ?_, Nat.le_trans (expanded_least t) hn, hh⟩
  obtain ⟨lines, blanks, rest', _, hd⟩ := h1
  exact expanded_declarable t (document_declarable hd)

private theorem quoted_decode {indent : Nat} {strict strict' : Bool} {os : List OutLine} {t : ETree F} (hi : 0 < indent)
    (hk : DistinctKeys t.json) (hl : plainLevels t.json ≤ 256) (h1 : Quoted t) (h2 : LinesOk os) (hs : strict = true → strict' = true)
    (h3 : ∀ ctx : Ctx, ctx.blanks = [] → (ctx.strict = true → strict' = true) → ∀ lines, Proj lines os →
      decodeLines ctx lines = .ok (ETree.events t)) (expand : Bool) :
    decode { indent := indent, strict := strict, expand := expand } (joinWith '\n' (os.map (renderLine indent))) = .ok t.json := by
  have hst := linesOk_text (strict := strict) hi h2 hs h3
  cases expand with
  | false => exact decodeFromLines_ok rfl hst
  | true =>
    obtain ⟨t', ht, he⟩ := (C58_events _ _ _ _).mp hst
    obtain rfl := events_inj he
    rw [C63_plain _ rfl _ t ht hk, if_pos (by rw [depthNeeded_quoted h1]; exact hl)]
    exact treeKeys_mono (fun _ _ h => Or.inl h) h1

/-- C100.  Every value with these properties that takes no more than 256 levels has a text, which is read as it with and without
path expansion. -/
theorem C100_every (indent : Nat) (hi : 0 < indent) (strict : Bool) (v : Json F) (hk : DistinctKeys v) (hn : PlainNumbers v)
    (hc : Declarable strict v) (hl : plainLevels v ≤ 256) :
    ∃ text, ∀ expand, decode { indent := indent, strict := strict, expand := expand } text = .ok v := by
  obtain ⟨os, t, rfl, h1, h2, h3⟩ := value_quotedText strict v ((normal_iff v).mpr hn) hc
  exact ⟨_, quoted_decode hi hk hl h1 h2 (fun h => h) h3⟩

/-- C100.  If no array is too long one text serves all modes. -/
theorem C100_all_modes (indent : Nat) (hi : 0 < indent) (v : Json F) (hk : DistinctKeys v) (hn : PlainNumbers v)
    (hc : Declarable true v) (hl : plainLevels v ≤ 256) :
    ∃ text, ∀ strict expand, decode { indent := indent, strict := strict, expand := expand } text = .ok v := by
  obtain ⟨os, t, rfl, h1, h2, h3⟩ := value_quotedText true v ((normal_iff v).mpr hn) hc
  exact ⟨_, fun strict => quoted_decode hi hk hl h1 h2 (fun _ => rfl) h3⟩

/-- C100.  For values nested at most 127 deep the answer is that of C74, and the keys have to be distinct. -/
theorem C100_range (indent : Nat) (hi : 0 < indent) (strict : Bool) (v : Json F) (hh : height v ≤ 127) :
    (∃ text, decode { indent := indent, strict := strict, expand := true } text = .ok v) ↔
      DistinctKeys v ∧ PlainNumbers v ∧ Declarable strict v := by
  constructor
  · rintro ⟨text, h⟩
    obtain ⟨h1, h2, h3, _⟩ := C100_only _ rfl text v h
    exact ⟨h1, h2, h3⟩
  · rintro ⟨h1, h2, h3⟩
    have := plainLevels_height v
    obtain ⟨text, h⟩ := C100_every indent hi strict v h1 h2 h3 (by omega)
    exact ⟨text, h true⟩

/-- C100.  For values none of whose keys is an identifier the number of levels decides. -/
theorem C100_literal (indent : Nat) (hi : 0 < indent) (strict : Bool) (v : Json F) (hv : AllKeys (fun k => identifier k = false) v) :
    (∃ text, decode { indent := indent, strict := strict, expand := true } text = .ok v) ↔
      DistinctKeys v ∧ PlainNumbers v ∧ Declarable strict v ∧ plainLevels v ≤ 256 := by
  constructor
  · rintro ⟨text, h⟩
    obtain ⟨h1, h2, h3, h4, _⟩ := C100_only _ rfl text v h
    exact ⟨h1, h2, h3, leastLevels_plain hv ▸ h4⟩
  · rintro ⟨h1, h2, h3, h4⟩
    obtain ⟨text, h⟩ := C100_every indent hi strict v h1 h2 h3 h4
    exact ⟨text, h true⟩

/-- C100.  The bound on the nesting is sharp: a text is read as a value that is nested 16 132 deep. -/
theorem C100_deepest (indent : Nat) (hi : 0 < indent) : ∃ (text : Str) (v : Json F), height v = 16132 ∧
    ∀ strict, decode { indent := indent, strict := strict, expand := true } text = .ok v := by
  obtain ⟨os, h1, h2⟩ := deepTree_entries (F := F) 125 0
  refine ⟨joinWith '\n' (os.map (renderLine indent)), expanded (deepTree 126), deepTree_height 126, fun strict => ?_⟩
  have hst := linesOk_text (F := F) (t := deepTree 126) (strict := strict) (strict' := true) hi h1 (fun _ => rfl) (by
    intro ctx hb _ lines hp
    rw [deepTree_events 125]
    exact decodeLines_object (h2 ctx hb) hp)
  obtain ⟨t', ht, he⟩ := (C58_events _ _ _ _).mp hst
  obtain rfl := events_inj he
  have hl := deepTree_hurdles (F := F) 126 1 (by decide)
  refine (C63_value _ rfl _ _).mpr ⟨_, ht, rfl, ?_, fun _ => ?_⟩
  · intro h hm
    obtain ⟨m, rfl, h3⟩ := hl h hm
    exact h3
  · rw [← firstConflict_some, ← hurdles_conflict _ 1]
    have : (hurdles 1 (deepTree (F := F) 126)).findSome? conflictOf = none := by
      rw [List.findSome?_eq_none_iff]
      intro h hm
      obtain ⟨m, rfl, _⟩ := hl h hm
      rfl
    rw [this]
    rfl

/-- C85.  Nearly all of the stack of `C85_expanded` may be needed: for this text fewer than 32 264 calls overflow. -/
theorem C85_expanded_needed [JsonNum F] (indent : Nat) (hi : 0 < indent) : ∃ (text : Str) (v : Json F),
    (∀ strict, decode { indent := indent, strict := strict, expand := true } text = .ok v) ∧
      ∀ width stack, stack < 32264 → (runJsonLines stack v width).result = .error .overflow := by
  obtain ⟨text, v, h1, h2⟩ := C100_deepest (F := F) indent hi
  exact ⟨text, v, h2, fun width stack hs => C85_needed width v stack (by omega)⟩

/-- C100.  What is read with path expansion and is nested at most 127 deep has a text that needs no path expansion. -/
theorem C100_no_need (opts : DecOpts) (hi : 0 < opts.indent) (hx : opts.expand = true) (text : Str) (v : Json F)
    (h : decode opts text = .ok v) (hh : height v ≤ 127) :
    ∃ text', ∀ expand, decode { opts with expand := expand } text' = .ok v := by
  obtain ⟨h1, h2, h3, _⟩ := C100_only opts hx text v h
  have := plainLevels_height v
  exact C100_every opts.indent hi opts.strict v h1 h2 h3 (by omega)

/-- Objects inside each other with a key that is no identifier. -/
def dashes : Nat → Json F
  | 0 => .prim .null
  | n + 1 => .obj [(['-'], dashes n)]

omit [F64 F] [LawfulF64 F] in
theorem dashes_facts : ∀ n, height (dashes (F := F) n) = n ∧ plainLevels (dashes (F := F) n) = 2 * n + 1 ∧
    AllKeys (fun k => identifier k = false) (dashes (F := F) n) ∧ DistinctKeys (dashes (F := F) n) ∧
    Declarable true (dashes (F := F) n)
  | 0 => by simp [dashes, height, plainLevels, AllKeys, DistinctKeys, Declarable]
  | n + 1 => by
    obtain ⟨h1, h2, h3, h4, h5⟩ := dashes_facts n
    refine ⟨by simp [dashes, height, heightEntries, h1], by simp [dashes, plainLevels, plainLevelsEntries, h2]; omega, ?_, ?_, ?_⟩
    · simp only [dashes, AllKeys, AllKeysEntries, and_true]
      exact ⟨by decide, h3⟩
    · simp [dashes, DistinctKeys, DistinctKeysEntries, h4]
    · simp [dashes, Declarable, DeclarableEntries, h5]

omit [LawfulF64 F] in
theorem dashes_plain : ∀ n, PlainNumbers (dashes (F := F) n)
  | 0 => by simp [dashes, PlainNumbers, AllPrims, PlainPrim]
  | n + 1 => by
    have := dashes_plain n
    simp only [PlainNumbers] at this ⊢
    simp only [dashes, AllPrims, AllPrimsEntries, and_true]
    exact this

/-- C100.  128 levels are too many: this value is nested 128 deep, it has a text without path expansion and none with it, while with
127 levels it has both. -/
theorem C100_limit (indent : Nat) (hi : 0 < indent) (strict : Bool) :
    (∃ text, decode { indent := indent, strict := strict, expand := false } text = .ok (dashes (F := F) 128)) ∧
      (¬ ∃ text, decode { indent := indent, strict := strict, expand := true } text = .ok (dashes (F := F) 128)) ∧
      ∃ text, decode { indent := indent, strict := strict, expand := true } text = .ok (dashes (F := F) 127) := by
  have hs : ∀ n, Declarable strict (dashes (F := F) n) := by
    intro n
    induction n with
    | zero => simp [dashes, Declarable]
    | succ n ih => simpa [dashes, Declarable, DeclarableEntries] using ih
  refine ⟨(C74_range indent hi strict _).mpr ⟨dashes_plain 128, hs 128⟩, ?_, ?_⟩
  · rw [C100_literal indent hi strict _ (dashes_facts 128).2.2.1, (dashes_facts (F := F) 128).2.1]
    omega
  · exact (C100_range indent hi strict _ (by rw [(dashes_facts 127).1]; omega)).mpr
      ⟨(dashes_facts 127).2.2.2.1, dashes_plain 127, hs 127⟩

end

/-! ## Cases -/

/-- A value with a dotted key beside its parts, a dotted key of an array and one of an object. -/
def besideParts : Json B64 :=
  .obj [("a".toList, .obj [("b".toList, .prim .null)]),
    ("a.b".toList, .prim (.bool true)),
    ("a.c".toList, .arr [.prim (.str "x".toList), .obj [("d.e".toList, .obj [])]]),
    ("a.d".toList, .obj [("f".toList, .arr [])])]

/-- The hypotheses of `C100_all_modes`. -/
example : DistinctKeys besideParts ∧ PlainNumbers besideParts ∧ Declarable true besideParts ∧ plainLevels besideParts = 7 := by
  refine ⟨?_, ?_, ?_, by decide +kernel⟩
  · simp only [besideParts, DistinctKeys, DistinctKeysEntries, DistinctKeysItems, and_true]
    decide
  · simp [besideParts, PlainNumbers, AllPrims, AllPrimsEntries, AllPrimsItems, PlainPrim]
  · simp [besideParts, Declarable, DeclarableEntries, DeclarableItems]

/-- A text for it, the keys of which are all in quotes. -/
def besideText : Str :=
  ("\"a\":\n  \"b\": null\n\"a.b\": true\n\"a.c\"[2]:\n  - x\n  - \"d.e\":\n" ++
    "\"a.d\":\n  \"f\"[0]:").toList

example : ∀ strict expand, decode (F := B64) ⟨2, strict, expand⟩ besideText = .ok besideParts := by
  decide +kernel

/-- The encoder's text for it is read as something else with path expansion. -/
example : decode (F := B64) ⟨2, false, true⟩ "a:\n  b: null\na.b: true\n".toList =
    .ok (.obj [("a".toList, .obj [("b".toList, .prim (.bool true))])]) := by decide +kernel

/-- The levels of a small value: with plain keys, and those that cannot be avoided. -/
example : let v : Json B64 := .obj [("a".toList, .obj [("b".toList, .obj [("-".toList, .arr [])])])]
    plainLevels v = 7 ∧ leastLevels false v = 3 := by decide +kernel

end Toon
