import Verif.Lemmas.ExpandBasic
import Verif.Lemmas.Declared
import Verif.Lemmas.Scan
import Verif.Lemmas.Float64
import Verif.Lemmas.Dec

/-!
# C13-C16, C18, C20: what decoding can return, for every text

Specifications: `Spec/Events.lean` (event lists of trees), `Spec/Values.lean` (`PlainNumbers`),
`Spec/Declares.lean` (lengths written in a line).
-/

namespace Toon

section
variable {F : Type} [F64 F] [LawfulF64 F]

/-! ## C13 -/

/-- C13.  Decoding any text under any options returns a value or a genuine error: the recursion
budget of the model, `5 * lines + 5`, never runs out. -/
theorem C13_total (opts : DecOpts) (text : Str) :
    (∃ v : Json F, decode opts text = .ok v) ∨ ∃ e, decode (F := F) opts text = .error e ∧ e ≠ .fuel := by
  cases h : decode (F := F) opts text with
  | ok v => exact Or.inl ⟨v, rfl⟩
  | error e =>
    refine Or.inr ⟨e, rfl, ?_⟩
    rintro rfl
    unfold decode at h
    cases hs : decodeStream (F := F) opts.indent opts.strict (splitOn '\n' text) with
    | error e =>
      rw [decodeFromLines_error hs] at h
      simp only [Except.error.injEq] at h
      subst h
      exact nf_decodeStream _ _ _ hs
    | ok evs =>
      obtain ⟨t, rfl, _⟩ := decodeStream_tree hs
      rw [decodeFromLines_expand hs] at h
      split at h
      · split at h
        · rename_i e he
          simp only [Except.error.injEq] at h
          subst h
          rcases expandInner_err he with h | ⟨_, _, h⟩ <;> cases h
        · simp at h
      · simp at h

/-- C13, for the event stream. -/
theorem C13_total_events (indent : Nat) (strict : Bool) (source : List Str) :
    decodeStream (F := F) indent strict source ≠ .error .fuel := nf_decodeStream indent strict source

/-! ## C14 -/

/-- C14.  A successful run of the decoder gives the events of one tree: balanced, every key followed
by exactly one value, keys only in objects. -/
theorem C14_well_formed (indent : Nat) (strict : Bool) (source : List Str) (evs : List (Ev F))
    (h : decodeStream indent strict source = .ok evs) : ∃ t : ETree F, evs = t.events :=
  let ⟨t, ht, _⟩ := decodeStream_tree h; ⟨t, ht⟩

/-- C14.  Building a value from the decoder's events never fails: an error of `decode` is an error of
the event decoder or, with path expansion on, the depth cap or (in strict mode) a path conflict. -/
theorem C14_errors (opts : DecOpts) (text : Str) (e : Err) (h : decode (F := F) opts text = .error e) :
    decodeStream (F := F) opts.indent opts.strict (splitOn '\n' text) = .error e ∨
    (opts.expand = true ∧ (e = .expandDepth ∨ (opts.strict = true ∧ ∃ c, e = .pathConflict c))) := by
  unfold decode at h
  cases hs : decodeStream (F := F) opts.indent opts.strict (splitOn '\n' text) with
  | error e' =>
    rw [decodeFromLines_error hs] at h
    simp only [Except.error.injEq] at h
    exact Or.inl (by rw [h])
  | ok evs =>
    obtain ⟨t, rfl, _⟩ := decodeStream_tree hs
    rw [decodeFromLines_expand hs] at h
    split at h
    · rename_i hx
      split at h
      · rename_i e he
        simp only [Except.error.injEq] at h
        subst h
        exact Or.inr ⟨hx, expandInner_err he⟩
      · simp at h
    · simp at h

/-- C14.  The decoded value is the value of the event tree (path expansion off). -/
theorem C14_value (opts : DecOpts) (hx : opts.expand = false) (text : Str) (v : Json F) :
    decode opts text = .ok v ↔
      ∃ t : ETree F, decodeStream opts.indent opts.strict (splitOn '\n' text) = .ok t.events ∧ v = t.json := by
  constructor
  · intro h
    obtain ⟨t, h1, _, h2⟩ := decodeFromLines_tree hx h
    exact ⟨t, h1, h2⟩
  · rintro ⟨t, h1, rfl⟩
    exact decodeFromLines_ok hx h1

/-- A document in which all kinds of lines occur. -/
def EventsExample.doc : Str := "a: 1\nb[2]: x,-0\nc[1]{p,\"q r\"}:\n  1,2\nd:\n  f[1]:\n    - g: null".toList

example : (decodeStream (F := B64) 2 true (splitOn '\n' EventsExample.doc)).map List.length = .ok 28 := by decide +kernel

/-! ## C15 -/

omit [F64 F] [LawfulF64 F] in
/-- C15.  Building a value from the events of a value gives the value back, duplicate keys and key
order included. -/
theorem C15_build_emit (v : Json F) : (buildNode (emitEvents v)).map nodeToJson = .ok v := by
  obtain ⟨n, h1, _, h2⟩ := build_emit v
  rw [h1]
  simp only [Except.map, h2]

omit [F64 F] [LawfulF64 F] in
/-- C15, for the events of any tree (any declared lengths and quoted flags). -/
theorem C15_build_tree (t : ETree F) : (buildNode t.events).map nodeToJson = .ok t.json := by
  rw [buildNode_events]
  simp only [Except.map, nodeToJson_node]

/-! ## C16 -/

/-- C16.  In the events of a successful run every array has a declared length of at most 100 000 000
that is written in brackets in some line of the text; in strict mode it is the number of its
elements. -/
theorem C16_declared (indent : Nat) (strict : Bool) (source : List Str) (evs : List (Ev F))
    (h : decodeStream indent strict source = .ok evs) :
    ∃ t : ETree F, evs = t.events ∧ t.AllArrays fun declared actual =>
      (declared ≤ 100000000 ∧ (strict = true → declared = actual)) ∧ ∃ line ∈ source, Declares line declared := by
  obtain ⟨t, rfl, ht⟩ := decodeStream_tree h
  exact ⟨t, rfl, allArrays_and t ht.arrays (allArrays_startIn t (decodeStream_startIn h))⟩

/-- C16.  A root array header that declares more than 100 000 000 elements is an error, in both
modes. -/
example : decode (F := B64) ⟨2, false, false⟩ "[100000001]: 1".toList = .error (.lengthCap 100000001) := by decide +kernel
example : decode (F := B64) ⟨2, true, false⟩ "[3]: 1,2".toList = .error (.countMismatch 3 .inlineItems 2) := by decide +kernel
example : decode (F := B64) ⟨2, false, false⟩ "[3]: a,b".toList =
    .ok (.arr [.prim (.str "a".toList), .prim (.str "b".toList)]) := by decide +kernel
example : (decodeStream (F := B64) 2 true (splitOn '\n' EventsExample.doc)).map (·.contains (.startArr 2)) = .ok true := by
  decide +kernel

/-! ## C18 -/

omit [LawfulF64 F] in
/-- C18.  If strict decoding succeeds, every line that is not blank starts with a multiple of the
indent size of spaces, followed by neither a space nor a tab. -/
theorem C18_strict_indent (opts : DecOpts) (hs : opts.strict = true) (text : Str) (v : Json F)
    (h : decode opts text = .ok v) : ∀ line ∈ splitOn '\n' text, ¬ BlankLine line →
    ∃ k rest, line = List.replicate (k * opts.indent) ' ' ++ rest ∧
      rest.head? ≠ some ' ' ∧ rest.head? ≠ some '\t' := by
  unfold decode decodeFromLines at h
  obtain ⟨evs, h, _⟩ := bind_ok.mp h
  unfold decodeStream at h
  rw [hs] at h
  obtain ⟨out, h, _⟩ := bind_ok.mp h
  exact parseLines_strict h

example : decode (F := B64) ⟨2, true, false⟩ "a:\n   b: 1".toList = .error (.badIndent 2 2 3) := by decide +kernel
example : decode (F := B64) ⟨2, true, false⟩ "a:\n\tb: 1".toList = .error (.tabsInIndent 2) := by decide +kernel
example : decode (F := B64) ⟨2, true, false⟩ "a:\n  b: x".toList =
    .ok (.obj [("a".toList, .obj [("b".toList, .prim (.str "x".toList))])]) := by decide +kernel

/-! ## C20 -/

/-- C20.  No decoded value contains NaN, an infinity or negative zero, under any options. -/
theorem C20_plain_numbers (opts : DecOpts) (text : Str) (v : Json F) (h : decode opts text = .ok v) :
    PlainNumbers v := by
  unfold decode at h
  cases hs : decodeStream (F := F) opts.indent opts.strict (splitOn '\n' text) with
  | error e => rw [decodeFromLines_error hs] at h; simp at h
  | ok evs =>
    obtain ⟨t, rfl, ht⟩ := decodeStream_tree hs
    have hp : AllPrims PlainPrim t.json := (allPrims_json _ t).mpr ht.prims
    rw [decodeFromLines_expand hs] at h
    split at h
    · split at h
      · simp at h
      · rename_i n hn
        simp only [Except.ok.injEq] at h
        subst h
        exact expandInner_prims hn (by rw [nodeToJson_node]; exact hp)
    · simp only [Except.ok.injEq] at h
      subst h
      exact hp

example : decode (F := B64) ⟨2, true, true⟩ "a.b: -0\na.c: 1e999\na.d: NaN".toList =
    .ok (.obj [("a".toList, .obj [("b".toList, .prim (.num F64.zero)), ("c".toList, .prim (.str "1e999".toList)),
      ("d".toList, .prim (.str "NaN".toList))])]) := by decide +kernel

end

end Toon
