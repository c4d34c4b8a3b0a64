import Verif.Lemmas.Cut
import Verif.Lemmas.FoldOff
import Verif.Lemmas.Cli
import Verif.Lemmas.ResourcesTable
import Verif.Lemmas.Dec
import Verif.Props.RoundTrip

/-!
# C70: a text that was cut off after one of its lines

`Cut`, `ValueCut` and `Closed` are in `Spec/Cut.lean`; they do not mention the encoder or the decoder.
-/

namespace Toon

section
variable {F : Type} [F64 F] [LawfulF64 F]

/-- C70 for events.  If the first lines of a source, not all blank, and the whole source are both accepted by strict
decoding, then the first lines give the tree of the source, cut at its end. -/
theorem C70_events (indent : Nat) (first more : List Str) (hb : ∃ line ∈ first, ¬ BlankLine line) (part whole : ETree F)
    (hp : decodeStream indent true first = .ok part.events) (hw : decodeStream indent true (first ++ more) = .ok whole.events) :
    Cut whole part := by
  obtain ⟨t, h1, h2⟩ := (C58_events _ _ _ _).mp hp
  obtain ⟨t', h3, h4⟩ := (C58_events _ _ _ _).mp hw
  cases events_inj h2
  cases events_inj h4
  exact textMeans_cut hb h1 h3

omit [F64 F] [LawfulF64 F] in
theorem jsonItems_append (a b : List (ETree F)) : ETree.jsonItems (a ++ b) = ETree.jsonItems a ++ ETree.jsonItems b := by
  induction a with
  | nil => rfl
  | cons t a ih => simp [ETree.jsonItems, ih]

omit [F64 F] [LawfulF64 F] in
theorem jsonEntries_append (a b : List (Str × Bool × ETree F)) :
    ETree.jsonEntries (a ++ b) = ETree.jsonEntries a ++ ETree.jsonEntries b := by
  induction a with
  | nil => rfl
  | cons t a ih => simp [ETree.jsonEntries, ih]

omit [F64 F] [LawfulF64 F] in
theorem cut_json {t' t : ETree F} (h : Cut t' t) : ValueCut t'.json t.json := by
  induction h with
  | whole => exact .whole _
  | entries es more => simp only [ETree.json, jsonEntries_append]; exact .entries _ _
  | entry es more k q _ ih => simp only [ETree.json, jsonEntries_append, ETree.jsonEntries]; exact .entry _ _ k ih
  | element n ts _ ih => simp only [ETree.json, jsonItems_append, ETree.jsonItems]; exact .element _ ih

/-- C70.  A text whose first lines, not blank, are decoded on their own: strict decoding refuses them or returns the
value of the whole text with entries missing at its end.  Every array has all its elements. -/
theorem C70_value (opts : DecOpts) (hs : opts.strict = true) (hx : opts.expand = false) (first more : Str)
    (hb : ¬ BlankLine first) (part whole : Json F) (hp : decode opts first = .ok part)
    (hw : decode opts (first ++ '\n' :: more) = .ok whole) : ValueCut whole part := by
  obtain ⟨t, h1, rfl⟩ := (C58_value opts hx _ _).mp hp
  obtain ⟨t', h2, rfl⟩ := (C58_value opts hx _ _).mp hw
  rw [splitOn_append_any, hs] at h2
  rw [hs] at h1
  refine cut_json (textMeans_cut ?_ h1 h2)
  apply Classical.byContradiction
  intro hn
  apply hb
  rw [← joinWith_splitOn '\n' first]
  intro c hc
  rcases joinWith_mem hc with rfl | ⟨w, h3, h4⟩
  · decide
  · have : BlankLine w := Classical.byContradiction fun h => hn ⟨w, h3, h⟩
    exact this c h4

omit [F64 F] [LawfulF64 F] in
theorem closed_cut {v' v : Json F} (hc : Closed v') (h : ValueCut v' v) : v = v' := by
  induction h with
  | whole => rfl
  | entries es more => cases hc
  | entry es more k _ _ => cases hc
  | @element vs v' v _ ih =>
    generalize hx : Json.arr (vs ++ [v']) = x at hc
    cases hc with
    | prim => simp at hx
    | nil => simp at hx
    | last us hc =>
      simp only [Json.arr.injEq] at hx
      obtain ⟨rfl, h2⟩ := List.append_inj' hx rfl
      simp only [List.cons.injEq, and_true] at h2
      subst h2
      rw [ih hc]

/-- C70.  If the value of the whole text does not end in an object, the first lines are refused, or the missing lines
did not matter. -/
theorem C70_closed (opts : DecOpts) (hs : opts.strict = true) (hx : opts.expand = false) (first more : Str)
    (hb : ¬ BlankLine first) (whole : Json F) (hc : Closed whole) (hw : decode opts (first ++ '\n' :: more) = .ok whole) :
    (∃ e, decode (F := F) opts first = .error e) ∨ decode opts first = .ok whole := by
  cases h : decode (F := F) opts first with
  | error e => exact .inl ⟨e, rfl⟩
  | ok part => rw [closed_cut hc (C70_value opts hs hx first more hb part whole h hw)]; exact .inr rfl

/-- C70 for written texts: what strict decoding returns for the first lines of the text of a value is this value with
entries missing at its end. -/
theorem C70_written (opts : EncOpts) (v : Json F) (hi : 0 < opts.indent) (hd : GoodDelim opts.delim) (hf : opts.fold = false)
    (hw : Writable true v) (hk : DistinctKeys v) (ha : Aligned true v) (hn : PlainNumbers v) (first more : Str)
    (hb : ¬ BlankLine first) (ht : encode opts v = first ++ '\n' :: more) (part : Json F)
    (hp : decode { indent := opts.indent, strict := true, expand := false } first = .ok part) : ValueCut v part := by
  have h := C01_round_trip_exact opts true v hi hd hf hw hk ha hn
  rw [ht] at h
  exact C70_value _ rfl rfl first more hb part v hp h

omit [LawfulF64 F] in
theorem encodeEntries_append (opts : EncOpts) (sib : List Str) (rlk : Option (List Str)) (pp : Option Str) (fd : Nat)
    (a b : List (Str × Json F)) (depth : Nat) : encodeEntries opts sib rlk pp fd (a ++ b) depth =
      encodeEntries opts sib rlk pp fd a depth ++ encodeEntries opts sib rlk pp fd b depth := by
  induction a with
  | nil => rw [List.nil_append, encodeEntries.eq_1, List.nil_append]
  | cons e a ih =>
    obtain ⟨k, v⟩ := e
    rw [List.cons_append, encodeEntries, ih, encodeEntries.eq_2, List.append_assoc]

/-- C70.  Without key folding the text of an object is the lines of its entries one after another. -/
theorem C70_entries (opts : EncOpts) (hf : opts.fold = false) (a b : List (Str × Json F)) :
    encodeLines opts (.obj (a ++ b)) = encodeLines opts (.obj a) ++ encodeLines opts (.obj b) := by
  have ho : NoFold { opts with flattenDepth := 0 } opts := ⟨rfl, rfl, by simp, hf⟩
  have hm : ∀ es : List (Str × Json F), encodeLines opts (.obj es) =
      (encodeEntries { opts with flattenDepth := 0 } [] none none 0 (normalizeEntries es) 0).map (renderLine opts.indent) := by
    intro es
    simp only [encodeLines, encodeJsonValue, normalize, encodeValue, encodeObject]
    rw [fo_entries ho [] _ none _ none _ 0 _ _ 0 (by decide)]
  have hn : ∀ x y : List (Str × Json F), normalizeEntries (x ++ y) = normalizeEntries x ++ normalizeEntries y := by
    intro x y
    induction x with
    | nil => rfl
    | cons e x ih => simp [normalizeEntries, ih]
  rw [hm, hm, hm, hn, encodeEntries_append, List.map_append]

/-- C70.  A cut between two entries of the outermost object is never noticed: the lines of the first entries are
decoded to the object of these entries. -/
theorem C70_unnoticed (opts : EncOpts) (hi : 0 < opts.indent) (hd : GoodDelim opts.delim) (hf : opts.fold = false)
    (a b : List (Str × Json F)) (hw : Writable true (.obj a)) (hk : DistinctKeys (.obj a)) (ha : Aligned true (.obj a))
    (hn : PlainNumbers (.obj a)) :
    decodeFromLines { indent := opts.indent, strict := true, expand := false }
      ((encodeLines opts (.obj (a ++ b))).take (encodeLines opts (.obj a)).length) = .ok (.obj a) := by
  rw [C70_entries opts hf, List.take_left' rfl, decodeFromLines_encodeLines hi hd true hw,
    shape_eq hf ((distinct_normalize _).mpr hk) ((aligned_normalize true _).mpr ha), normalize_normal ((normal_iff _).mpr hn)]

end

/-! ## Cuts that are noticed and cuts that are not -/

/-- Finding F30.  A list with an object at its end, cut in this object; an object cut after its first entry, or after
the line of a key: all are accepted.  A cut inside a line can change a value without an error, even in an array.
Without strict mode, missing elements are not noticed. -/
theorem C70_silent :
    decode (F := B64) defaultDec "[2]:\n  - x\n  - a: u\n    b: v".toList =
      .ok (.arr [.prim (.str "x".toList), .obj [("a".toList, .prim (.str "u".toList)), ("b".toList, .prim (.str "v".toList))]]) ∧
    decode (F := B64) defaultDec "[2]:\n  - x\n  - a: u".toList =
      .ok (.arr [.prim (.str "x".toList), .obj [("a".toList, .prim (.str "u".toList))]]) ∧
    decode (F := B64) defaultDec "a:\n  b: u".toList = .ok (.obj [("a".toList, .obj [("b".toList, .prim (.str "u".toList))])]) ∧
    decode (F := B64) defaultDec "a:".toList = .ok (.obj [("a".toList, .obj [])]) ∧
    decode (F := B64) defaultDec "[2]: red,blue".toList = .ok (.arr [.prim (.str "red".toList), .prim (.str "blue".toList)]) ∧
    decode (F := B64) defaultDec "[2]: red,blu".toList = .ok (.arr [.prim (.str "red".toList), .prim (.str "blu".toList)]) ∧
    decode (F := B64) { defaultDec with strict := false } "[2]:\n  - x".toList = .ok (.arr [.prim (.str "x".toList)]) := by
  refine ⟨by decide +kernel, by decide +kernel, by decide +kernel, by decide +kernel, by decide +kernel, by decide +kernel,
    by decide +kernel⟩

/-! ## Non-vacuity -/

/-- The hypotheses of `C70_value`, and a value that is missing an entry. -/
example : decode (F := B64) defaultDec "[2]:\n  - x\n  - a: u".toList =
      .ok (.arr [.prim (.str "x".toList), .obj [("a".toList, .prim (.str "u".toList))]]) ∧
    ValueCut (F := B64)
      (.arr [.prim (.str "x".toList), .obj [("a".toList, .prim (.str "u".toList)), ("b".toList, .prim (.str "v".toList))]])
      (.arr [.prim (.str "x".toList), .obj [("a".toList, .prim (.str "u".toList))]]) :=
  ⟨C70_silent.2.1, C70_value defaultDec rfl rfl "[2]:\n  - x\n  - a: u".toList "    b: v".toList (by decide) _ _
    C70_silent.2.1 C70_silent.1⟩

/-- A list that does not end in an object: the first lines are refused. -/
example : (∃ e, decode (F := B64) defaultDec "[2]:\n  - a: u".toList = .error e) ∧
    decode (F := B64) defaultDec "[2]:\n  - a: u\n  - y".toList =
      .ok (.arr ([.obj [("a".toList, .prim (.str "u".toList))]] ++ [.prim (.str "y".toList)])) ∧
    Closed (F := B64) (.arr ([.obj [("a".toList, .prim (.str "u".toList))]] ++ [.prim (.str "y".toList)])) :=
  ⟨⟨.countMismatch 2 .listItems 1, by decide +kernel⟩, by decide +kernel, .last _ (.prim _)⟩

/-- The hypotheses of `C70_unnoticed`; the entries that are lost are arbitrary. -/
example (b : List (Str × Json B64)) :
    decodeFromLines (F := B64) defaultDec ((encodeLines defaultEnc (.obj ([("a".toList, .obj [("b".toList, .prim .null)])] ++ b))).take
      (encodeLines defaultEnc (.obj [("a".toList, .obj [("b".toList, .prim (.null (F := B64)))])])).length) =
      .ok (.obj [("a".toList, .obj [("b".toList, .prim .null)])]) :=
  C70_unnoticed (F := B64) defaultEnc (by decide) (by decide) rfl _ b
    (by simp [Writable, WritableEntries]) (by simp [DistinctKeys, DistinctKeysEntries])
    (by simp [Aligned, AlignedEntries]) (by simp [PlainNumbers, AllPrims, AllPrimsEntries, PlainPrim])

/-- The hypotheses of `C70_written`. -/
example (first more : Str) (hb : ¬ BlankLine first) (part : Json B64)
    (ht : encode defaultEnc (.obj [("a".toList, .prim .null), ("b".toList, .prim (.null (F := B64)))]) = first ++ '\n' :: more)
    (hp : decode defaultDec first = .ok part) :
    ValueCut (.obj [("a".toList, .prim .null), ("b".toList, .prim (.null (F := B64)))]) part :=
  C70_written defaultEnc _ (by decide) (by decide) rfl
    (by simp [Writable, WritableEntries]) (by simp [DistinctKeys, DistinctKeysEntries])
    (by simp [Aligned, AlignedEntries]) (by simp [PlainNumbers, AllPrims, AllPrimsEntries, PlainPrim])
    first more hb ht part hp

/-- Something else is not a cut: an element missing, a changed value. -/
example : ¬ ValueCut (F := B64) (.arr [.prim .null, .prim .null]) (.arr [.prim .null]) ∧
    ¬ ValueCut (F := B64) (.obj [("a".toList, .prim .null)]) (.obj [("a".toList, .prim (.bool true))]) := by
  constructor
  · intro h
    have := closed_cut (.last [.prim .null] (.prim .null)) h
    simp at this
  · intro h
    generalize hx : Json.obj [("a".toList, Json.prim (Prim.null (F := B64)))] = x at h
    generalize hy : Json.obj [("a".toList, Json.prim (Prim.bool (F := B64) true))] = y at h
    cases h with
    | whole => rw [← hy] at hx; simp at hx
    | entries es more =>
      simp only [Json.obj.injEq] at hx hy
      rw [← hy] at hx; simp at hx
    | entry es more k hc =>
      simp only [Json.obj.injEq] at hx hy
      cases es with
      | nil =>
        simp only [List.nil_append, List.cons.injEq, Prod.mk.injEq] at hx hy
        obtain ⟨⟨_, h1⟩, _⟩ := hx
        obtain ⟨⟨_, h2⟩, _⟩ := hy
        subst h1 h2
        exact absurd (closed_cut (.prim .null) hc) (by simp)
      | cons e es => simp at hx
    | element => simp at hx

end Toon
