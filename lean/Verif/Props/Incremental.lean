import Verif.Lemmas.IncrementalAgree
import Verif.Lemmas.Float64
import Verif.Lemmas.Dec
import Verif.Lemmas.EventsInj

/-!
# Incremental decoding, exactly (C64)

For every list of lines: what each poll of the incremental decode stream answers, and how many lines the stream has
taken from its source by then.
-/

namespace Toon

variable {F : Type} [F64 F] [LawfulF64 F]

/-- The polls of a new stream over the lines. -/
abbrev Shows (indent : Nat) (strict : Bool) (lines : List Str) : List (Except Err (Ev F) × Nat) → Option (Except Err (Ev F)) × Nat → Prop :=
  Observes (DecodeStream.poll indent strict) (fun st => st.lines.length) (DecodeStream.new lines)

/-- **C64 (every document).**  The specification says something about every list of lines. -/
theorem C64_total (indent : Nat) (strict : Bool) (lines : List Str) : ∃ items tail, Streams F indent strict lines items tail :=
  streams_total indent strict lines

/-- **C64 (exactly).**  What it says is what polling shows: the same answers, each with the same number of lines still
unread. -/
theorem C64_exact (indent : Nat) (strict : Bool) (lines : List Str) (items : List (Except Err (Ev F) × Nat))
    (tail : Option (Except Err (Ev F)) × Nat) (h : Streams F indent strict lines items tail) : Shows indent strict lines items tail :=
  streams_observes h

/-- **C64 (no lookahead).**  The answers due to the first lines of a document come before any other line is taken, and do
not depend on the others. -/
theorem C64_prefix (indent : Nat) (strict : Bool) (pre : List Str) (items : List (Except Err (Ev F) × Nat)) (stage : Stage)
    (kept : List Str) (h : TakesLines F indent strict 0 .start [] 0 pre items stage kept) (post : List Str) :
    observe (DecodeStream.poll indent strict) (fun st => st.lines.length) items.length (DecodeStream.new (F := F) (pre ++ post)) =
      items.map fun x => (some x.1, x.2 + post.length) := by
  obtain ⟨items', tail, hs, _⟩ := streams_prefix h post
  rw [C64_exact _ _ _ _ _ hs items.length]
  apply List.ext_getElem?
  intro i
  by_cases hi : i < items.length
  · simp [hi, List.getElem?_append]
  · simp [hi]

/-- **C64 (waiting).**  Once a line has put the reader into the buffering stage, no event comes before all lines are
taken. -/
theorem C64_waits (indent : Nat) (strict : Bool) (pre : List Str) (items : List (Except Err (Ev F) × Nat))
    (kept : List Str) (h : TakesLines F indent strict 0 .start [] 0 pre items .buffering kept) (post : List Str)
    (n i : Nat) (hi : items.length ≤ i) (e : Ev F) (u : Nat)
    (ho : (observe (DecodeStream.poll indent strict) (fun st => st.lines.length) n (DecodeStream.new (pre ++ post)))[i]? =
      some (some (.ok e), u)) : u = 0 := by
  obtain ⟨items', tail, hs, h1, h2⟩ := streams_prefix h post
  rw [C64_exact _ _ _ _ _ hs n] at ho
  simp only [List.getElem?_map, Option.map_eq_some_iff] at ho
  obtain ⟨j, hj, ho⟩ := ho
  have hji : j = i := by
    obtain ⟨hl, hj⟩ := List.getElem?_eq_some_iff.mp hj
    simpa using hj.symm
  subst hji
  rw [List.getElem?_append_right (by simpa using hi)] at ho
  simp only [List.length_map] at ho
  cases hx : items'[j - items.length]? with
  | none =>
    rw [hx] at ho
    simp only [Option.map_none, Option.getD_none] at ho
    have := h2 rfl
    rw [ho] at this
    exact this
  | some x =>
    rw [hx] at ho
    simp only [Option.map_some, Option.getD_some, Prod.mk.injEq, Option.some.injEq] at ho
    rcases h1 rfl x (List.mem_of_getElem? hx) with ⟨e', he⟩ | h0
    · rw [ho.1] at he; simp at he
    · rw [← ho.2]; exact h0

/-- **C64 (arrays are not streamed).**  If the first line with text is the header of an array, no event of the document
comes before all its lines are taken. -/
theorem C64_array_waits (indent : Nat) (strict : Bool) (blanks : List Str) (hb : ∀ l ∈ blanks, BlankLine l) (raw content : Str)
    (h : Header) (hi : Indented indent strict raw content) (hc : Bracketed content) (hh : HeaderMeans content h)
    (post : List Str) (n : Nat) (e : Ev F) (u : Nat)
    (ho : (some (.ok e), u) ∈ observe (DecodeStream.poll indent strict) (fun st => st.lines.length) n
      (DecodeStream.new (blanks ++ raw :: post))) : u = 0 := by
  have ht : TakesLines F indent strict 0 .start [] 0 (blanks ++ [raw]) [] .buffering [raw] := by
    have key : ∀ (bs : List Str) (m : Nat), (∀ l ∈ bs, BlankLine l) →
        TakesLines F indent strict 0 .start [] m (bs ++ [raw]) [] .buffering [raw] := by
      intro bs
      induction bs with
      | nil => intro m _; exact .cons (.header (Or.inl rfl) hi hc hh) (.nil _ _ _)
      | cons b bs ih =>
        intro m hb
        exact .cons (.blank (by simp) (hb b (by simp))) (ih (m + 1) fun l hl => hb l (by simp [hl]))
    exact key blanks 0 hb
  rw [show blanks ++ raw :: post = (blanks ++ [raw]) ++ post by simp] at ho
  obtain ⟨i, hi⟩ := List.mem_iff_getElem?.mp ho
  exact C64_waits indent strict _ [] _ ht post n i (by simp) e u hi

/-- **C64 (entries are streamed).**  After plain entries, of which the first shows that there is an object, polling has
shown the events of each entry when the lines after it were still unread, whatever these are. -/
theorem C64_entries_stream (indent : Nat) (strict : Bool) (lines : List Str) (entries : List (Str × Bool × Prim F))
    (h : Pointwise (PlainEntry indent strict) lines entries) (hne : lines ≠ [])
    (hf : ∀ raw content, lines.head? = some raw → Indented indent strict raw content → EntryLike content) (post : List Str) :
    observe (DecodeStream.poll indent strict) (fun st => st.lines.length) (2 * entries.length + 1)
        (DecodeStream.new (F := F) (lines ++ post)) =
      (some (.ok .startObj), entries.length - 1 + post.length) ::
        (plainItems post.length entries).map fun x => (some x.1, x.2) := by
  have len : ∀ (es : List (Str × Bool × Prim F)) (a : Nat), (plainItems a es).length = 2 * es.length := by
    intro es a
    induction es with
    | nil => rfl
    | cons e es ih => obtain ⟨k, q, p⟩ := e; simp [plainItems, ih]; omega
  have shift : ∀ (es : List (Str × Bool × Prim F)) (a : Nat),
      (plainItems 0 es).map (fun x => (some x.1, x.2 + a)) = (plainItems a es).map fun x => (some x.1, x.2) := by
    intro es a
    induction es with
    | nil => rfl
    | cons e es ih => obtain ⟨k, q, p⟩ := e; simp [plainItems, ih]
  have lens : ∀ {ls : List Str} {es : List (Str × Bool × Prim F)}, Pointwise (PlainEntry indent strict) ls es → ls.length = es.length := by
    intro ls es h
    induction h with
    | nil => rfl
    | cons _ _ ih => simp [ih]
  have takes : ∀ {ls : List Str} {es : List (Str × Bool × Prim F)}, Pointwise (PlainEntry indent strict) ls es → ∀ n,
      TakesLines F indent strict 0 .object [] n ls (plainItems 0 es) .object [] := by
    intro ls es h
    induction h with
    | nil => intro n; exact .nil _ _ _
    | @cons raw e ls es h1 h2 ih =>
      intro n
      obtain ⟨content, after, hi, hn, hd, hk, hb, ht⟩ := h1
      obtain ⟨k, q, p⟩ := e
      have hc : ([] : List Str) ++ keep Stage.object raw = [] := rfl
      have := TakesLines.cons (after := 0) (kept := []) (.next hi hn (.entry hd hk hb ht)) (hc.symm ▸ ih (n + 1))
      simpa [answers, plainItems, lens h2, keep] using this
  cases h with
  | nil => exact absurd rfl hne
  | @cons raw e ls es h1 h2 =>
    obtain ⟨content, after, hi, hn, hd, hk, hb, ht⟩ := h1
    obtain ⟨k, q, p⟩ := e
    have hc : ([] : List Str) ++ keep Stage.object raw = [] := rfl
    have hl := hf raw content rfl hi
    have := TakesLines.cons (after := 0) (kept := []) (.first hi hn hl (.entry hd hk hb ht)) (hc.symm ▸ takes h2 1)
    have := C64_prefix indent strict _ _ _ _ this post
    simp only [answers, Option.map_none, Option.toList_none, List.nil_append, List.map_cons, List.map_nil, List.length_append,
      List.length_cons, List.length_nil, len] at this
    rw [List.length_cons, show 2 * (es.length + 1) + 1 = 0 + 1 + 1 + 1 + 2 * es.length by omega]
    rw [this]
    simp [plainItems, lens h2, shift]

/-- **C64 (a root primitive ends the stream).**  The lines after it are never taken. -/
theorem C64_root_primitive (indent : Nat) (strict : Bool) (raw content : Str) (p : Prim F) (hi : Indented indent strict raw content)
    (hn : Bracketed content → NoHeader content) (he : ¬ EntryLike content) (ht : TokenMeans (trim content) p) (post : List Str) :
    Shows (F := F) indent strict (raw :: post) [(.ok (.prim p), post.length)] (none, post.length) := by
  refine C64_exact _ _ _ _ _ (.stops (pre := [raw]) (rest := post) (kept := []) ?_)
  have := TakesLines.cons (F := F) (after := post.length) (num := 0) (kept := []) (.root hi hn he ht) (.nil .finished ([] ++ []) 1)
  simpa using this

/-- **C64 (trees).**  The stream yields the events of a tree and ends exactly if the document is one of the three kinds
that are streamed as trees. -/
theorem C64_tree (indent : Nat) (strict : Bool) (lines : List Str) (t : ETree F) :
    Polls (DecodeStream.poll indent strict) (DecodeStream.new lines) (t.events.map .ok) ↔
      StreamsTree indent strict (deleteBlank lines) t := by
  constructor
  · intro h
    rcases polls_shape h with ⟨t', h1, h2⟩ | ⟨pre, raw, post, entries, t', _, _, _, h2⟩
    · rw [events_inj h2]; exact h1
    · have h3 := evBalance_tree t
      rw [h2] at h3
      simp only [List.cons_append, evBalance, evBalance_append, evBalance_plain, evBalance_tree] at h3
      omega
  · exact streamsTree_polls

/-- **C64 (without an error).**  A stream that ends without an error has yielded the events of a tree, or those of a
flat object that is never closed followed by those of a second document, the rest of the lines. -/
theorem C64_no_error (indent : Nat) (strict : Bool) (lines : List Str) (evs : List (Ev F))
    (h : Polls (DecodeStream.poll indent strict) (DecodeStream.new lines) (evs.map .ok)) :
    (∃ t, StreamsTree indent strict (deleteBlank lines) t ∧ evs = t.events) ∨
    ∃ pre raw post entries, ∃ t : ETree F, deleteBlank lines = pre ++ raw :: post ∧ Pointwise (PlainEntry indent strict) pre entries ∧
      TextMeans indent strict (raw :: post) t ∧ evs = .startObj :: plainEvents entries ++ t.events :=
  polls_shape h

/-! ## Cases -/

private def look (strict : Bool) (n : Nat) (lines : List String) : List (Option (Except Err (Ev B64)) × Nat) :=
  observe (DecodeStream.poll 2 strict) (fun st => st.lines.length) n (DecodeStream.new (lines.map String.toList))

/-- Entries come one by one. -/
example : look true 7 ["a: x", "", "b: y", "c: z"] =
    [(some (.ok .startObj), 3), (some (.ok (.key "a".toList false)), 3), (some (.ok (.prim (.str "x".toList))), 3),
      (some (.ok (.key "b".toList false)), 1), (some (.ok (.prim (.str "y".toList))), 1),
      (some (.ok (.key "c".toList false)), 0), (some (.ok (.prim (.str "z".toList))), 0)] := by decide +kernel

/-- The elements of an array come after its last line. -/
example : look true 5 ["[2]:", "  - x", "  - y"] =
    [(some (.ok (.startArr 2)), 0), (some (.ok (.prim (.str "x".toList))), 0), (some (.ok (.prim (.str "y".toList))), 0),
      (some (.ok .endArr), 0), (none, 0)] := by decide +kernel

/-- A faulty line in the kept lines is reported at once and dropped; the rest is a document without it. -/
example : look true 5 ["[1]:", "   - x", "  - y"] =
    [(some (.error (.badIndent 2 2 3)), 1), (some (.ok (.startArr 1)), 0), (some (.ok (.prim (.str "y".toList))), 0),
      (some (.ok .endArr), 0), (none, 0)] := by decide +kernel

/-- A key whose quote is not closed: in the first line it is a value, in a later one a faulty key. -/
example : look true 3 ["\"a: x", "b: y"] = [(some (.error .unterminatedString), 1), (none, 1), (none, 1)] ∧
    look true 5 ["b: y", "\"a: x"] =
      [(some (.ok .startObj), 1), (some (.ok (.key "b".toList false)), 1), (some (.ok (.prim (.str "y".toList))), 1),
        (some (.error .unterminatedKey), 0), (some (.ok .endObj), 0)] := by decide +kernel

/-- The kept lines are no document: the error comes for ever. -/
example : look true 6 ["a: x", "b:", "  c"] =
    [(some (.ok .startObj), 2), (some (.ok (.key "a".toList false)), 2), (some (.ok (.prim (.str "x".toList))), 2),
      (some (.error .missingColon), 0), (some (.error .missingColon), 0), (some (.error .missingColon), 0)] := by decide +kernel

/-- Lines that meet the hypotheses of the theorems above. -/
example : PlainEntry (F := B64) 2 true "  a: x".toList ("a".toList, false, .str "x".toList) := by
  refine ⟨"a: x".toList, " x".toList, ⟨2, rfl, by decide, by decide, by decide⟩, fun h => ?_, ?_, ?_, by decide, ?_⟩
  · exact (noHeader_iff _).mp (by decide +kernel)
  · rw [← hyphenSpace_iff]; decide
  · exact .bare (a := "a".toList) (by decide) (by decide)
  · exact (parsePrimitiveToken_iff " x".toList _).mp (by decide +kernel)

example : EntryLike "a: x".toList := entryLike_iff.mp (by decide +kernel)

example : Indented 2 true "[2]{a}:".toList "[2]{a}:".toList ∧ Bracketed "[2]{a}:".toList ∧
    HeaderMeans "[2]{a}:".toList ⟨none, false, 2, ',', some [⟨"a".toList, false⟩], none⟩ := by
  refine ⟨⟨0, rfl, by decide, by decide, by decide⟩, (isArrayHeaderContent_iff _).mp (by decide +kernel), ?_⟩
  exact (headerMeans_iff _ _).mp (by decide +kernel)

example : ¬ EntryLike "hello".toList := fun h => absurd (entryLike_iff.mpr h) (by decide +kernel)

example : TakesLines B64 2 true 0 .start [] 0 ["a: x".toList, "b:".toList]
    [(.ok .startObj, 1), (.ok (.key "a".toList false), 1), (.ok (.prim (.str "x".toList)), 1)] .buffering ["b:".toList] := by
  have hn : ∀ s : Str, parseArrayHeaderLine s ',' = .ok none → Bracketed s → NoHeader s := fun s h _ => (noHeader_iff s).mp h
  have hd : ∀ s : Str, startsWithDash s = false → ¬ HyphenSpace s := fun s h h' => by
    rw [(hyphenSpace_iff s).mpr h'] at h; simp at h
  have h2 : TakesLines B64 2 true 0 .object [] 1 ["b:".toList] [] .buffering ["b:".toList] :=
    .cons (.next ⟨0, rfl, by decide, by decide, by decide⟩ (hn "b:".toList (by decide +kernel))
      (.nested (hd "b:".toList (by decide)) (.bare (a := "b".toList) (by decide) (by decide)) (by decide))) (.nil _ _ _)
  refine .cons (kept := []) (.first (content := "a: x".toList) ⟨0, rfl, by decide, by decide, by decide⟩
    (hn "a: x".toList (by decide +kernel)) (entryLike_iff.mp (by decide +kernel))
    (.entry (hd _ (by decide)) (.bare (a := "a".toList) (after := " x".toList) (by decide) (by decide)) (by decide)
      ((parsePrimitiveToken_iff " x".toList _).mp (by decide +kernel)))) h2

end Toon
