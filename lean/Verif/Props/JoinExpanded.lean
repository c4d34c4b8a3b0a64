import Verif.Lemmas.Quotes
import Verif.Props.ExpandExact
import Verif.Props.Join

/-!
# C102: parts of a text, with path expansion

`mergeObj` (deep merge) and `clashEntries` (the merge would replace something) are in `Spec/Expansion.lean`,
`SameQuotes` and `Unmixed` (a dotted key is quoted everywhere or nowhere) in `Spec/Quotes.lean`.
-/

namespace Toon

section
variable {F : Type} [F64 F] [LawfulF64 F]

/-- The tree of two texts of objects, one after the other. -/
theorem joined_means {i : Nat} {strict : Bool} {s₁ s₂ : List Str} {es es' : List (Str × Bool × ETree F)}
    (h₁ : decodeStreamUnread i strict s₁ = .ok ((ETree.obj es).events, 0))
    (h₂ : decodeStream i strict s₂ = .ok (ETree.obj es').events) (hm : StartsAtMargin s₂) :
    TextMeans i strict (s₁ ++ s₂) (.obj (es ++ es')) := by
  obtain ⟨t, h3, h4⟩ := decodeStreamUnread_sound _ _ _ _ _ h₁
  cases events_inj h4
  have h₂' := h₂
  rw [← C38_same_events] at h₂'
  cases h5 : decodeStreamUnread (F := F) i strict s₂ with
  | error e => rw [h5] at h₂'; simp [Except.map] at h₂'
  | ok r =>
    obtain ⟨evs, u⟩ := r
    rw [h5] at h₂'
    simp only [Except.map, Except.ok.injEq] at h₂'
    subst h₂'
    obtain ⟨t', h6, h7⟩ := decodeStreamUnread_sound _ _ _ _ _ h5
    cases events_inj h7
    rcases reads_objects h3 h6 hm with h8 | h8
    · exact reads_means h8
    · have h9 : decodeStream (F := F) i strict s₁ = .ok (ETree.obj es).events := by rw [← C38_same_events, h₁]; rfl
      have h10 : decodeStream (F := F) i strict [] = .ok (ETree.obj []).events :=
        (C58_events _ _ _ _).mpr ⟨.obj [], ⟨[], [], [], .nil _, .empty⟩, rfl⟩
      have h11 := decodeStream_trailing (F := F) i strict h8 []
      rw [List.nil_append, h9, h10] at h11
      simp only [Except.ok.injEq] at h11
      cases events_inj h11
      obtain ⟨t, h12, h13⟩ := (C58_events _ _ _ _).mp ((decodeStream_leading i strict h8 s₂ _).mpr h₂)
      cases events_inj h13
      exact h12

/-- The tree of a text that strict decoding with path expansion accepts. -/
theorem strict_tree {opts : DecOpts} (hx : opts.expand = true) (hs : opts.strict = true) {text : Str} {t : ETree F} {v : Json F}
    (h : decode opts text = .ok v) (h' : decodeStream (F := F) opts.indent opts.strict (splitOn '\n' text) = .ok t.events) :
    expanded t = v ∧ conflicting t = false := by
  obtain ⟨t', h3, h4, h5⟩ := C27_value opts hx text v h
  rw [h'] at h3
  simp only [Except.ok.injEq] at h3
  cases events_inj h3
  exact ⟨h4.symm, h5 hs⟩

/-- C102.  Values nested at most 127 deep, dotted keys counted with all their segments, are never too deep for path
expansion. -/
theorem C102_depth (opts : DecOpts) (hx : opts.expand = true) (text : Str) (t : ETree F)
    (h : TextMeans opts.indent opts.strict (splitOn '\n' text) t) (hd : pathHeight t ≤ 127) :
    (decode opts text = .ok (expanded t) ∧ (opts.strict = true → conflicting t = false)) ∨
      (opts.strict = true ∧ conflicting t = true ∧ ∃ c, decode (F := F) opts text = .error (.pathConflict c)) := by
  rcases C27_outcome opts hx text t ((C58_events _ _ _ _).mpr ⟨t, h, rfl⟩) with h1 | ⟨c, h1, h2, h3⟩ | ⟨h1, _⟩
  · exact .inl h1
  · exact .inr ⟨h2, h3, c, h1⟩
  · obtain ⟨before, n, after, h2, h3, _⟩ := C63_depth opts hx text t h h1
    have := hurdles_levels t 1 (.level n) (by rw [h2]; simp)
    simp only [levelOf] at this
    omega

/-- C102.  Two texts of objects, one after the other, in strict mode with path expansion: the result is the deep merge of
the two objects, or a conflict exactly if the merge would replace something. -/
theorem C102_joined (opts : DecOpts) (hx : opts.expand = true) (hs : opts.strict = true) (first second : Str)
    (es es' : List (Str × Bool × ETree F)) (a b : List (Str × Json F))
    (h₁ : decode opts first = .ok (.obj a)) (h₂ : decode opts second = .ok (.obj b))
    (hr : decodeStreamUnread opts.indent opts.strict (splitOn '\n' first) = .ok ((ETree.obj es).events, 0))
    (hr' : decodeStream opts.indent opts.strict (splitOn '\n' second) = .ok (ETree.obj es').events)
    (hm : StartsAtMargin (splitOn '\n' second)) (hq : SameQuotes (es ++ es'))
    (ha : height (.obj a) ≤ 127) (hb : height (.obj b) ≤ 127) :
    (clashEntries a b = false → decode opts (first ++ '\n' :: second) = .ok (.obj (mergeObj a b))) ∧
    (clashEntries a b = true → ∃ c, decode (F := F) opts (first ++ '\n' :: second) = .error (.pathConflict c)) := by
  have hr0 : decodeStream (F := F) opts.indent opts.strict (splitOn '\n' first) = .ok (ETree.obj es).events := by
    rw [← C38_same_events, hr]; rfl
  obtain ⟨e1, c1⟩ := strict_tree hx hs h₁ hr0
  obtain ⟨e2, c2⟩ := strict_tree hx hs h₂ hr'
  obtain ⟨e3, c3⟩ := expanded_joined hq e1 e2 c1 c2
  have hj := joined_means hr hr' hm
  rw [← splitOn_append_any] at hj
  have hp : pathHeight (ETree.obj (es ++ es')) ≤ 127 := by
    have hp1 := expanded_heights _ c1
    have hp2 := expanded_heights _ c2
    rw [e1] at hp1
    rw [e2] at hp2
    rw [hp1] at ha
    rw [hp2] at hb
    rw [pathHeight_joined hq]
    omega
  rcases C102_depth opts hx _ _ hj hp with ⟨h3, h4⟩ | ⟨_, h3, h4⟩
  · rw [e3] at h3
    have h5 := h4 hs
    rw [c3] at h5
    exact ⟨fun _ => h3, fun h => by rw [h5] at h; simp at h⟩
  · rw [c3] at h3
    exact ⟨fun h => by rw [h3] at h; simp at h, fun _ => h4⟩

/-- C102.  Conversely, if the two texts one after the other are accepted, each of them is, nothing of the one is replaced
by the other, and the value is the deep merge. -/
theorem C102_parts (opts : DecOpts) (hx : opts.expand = true) (hs : opts.strict = true) (first second : Str)
    (es es' : List (Str × Bool × ETree F)) (v : Json F) (h : decode opts (first ++ '\n' :: second) = .ok v)
    (hr : decodeStreamUnread opts.indent opts.strict (splitOn '\n' first) = .ok ((ETree.obj es).events, 0))
    (hr' : decodeStream opts.indent opts.strict (splitOn '\n' second) = .ok (ETree.obj es').events)
    (hm : StartsAtMargin (splitOn '\n' second)) (hq : SameQuotes (es ++ es')) (hv : height v ≤ 127) :
    ∃ a b, decode opts first = .ok (.obj a) ∧ decode opts second = .ok (.obj b) ∧ clashEntries a b = false ∧
      v = .obj (mergeObj a b) := by
  have hr0 : decodeStream (F := F) opts.indent opts.strict (splitOn '\n' first) = .ok (ETree.obj es).events := by
    rw [← C38_same_events, hr]; rfl
  have hj := joined_means hr hr' hm
  rw [← splitOn_append_any] at hj
  obtain ⟨e3, c3⟩ := strict_tree hx hs h ((C58_events _ _ _ _).mpr ⟨_, hj, rfl⟩)
  obtain ⟨c1, c2⟩ := conflicting_parts hq c3
  have hp := expanded_heights _ c3
  rw [e3, pathHeight_joined hq] at hp
  obtain ⟨t, h1, h2⟩ := (C58_events _ _ _ _).mp hr0
  cases events_inj h2
  obtain ⟨t', h3, h4⟩ := (C58_events _ _ _ _).mp hr'
  cases events_inj h4
  obtain ⟨e4, c4⟩ := expanded_joined hq (expanded.eq_3 es) (expanded.eq_3 es') c1 c2
  refine ⟨_, _, ?_, ?_, c4.symm.trans c3, by rw [← e3, e4]⟩
  · rcases C102_depth opts hx _ _ h1 (by omega) with ⟨h5, _⟩ | ⟨_, h5, _⟩
    · rw [h5, expanded]
    · rw [c1] at h5; simp at h5
  · rcases C102_depth opts hx _ _ h3 (by omega) with ⟨h5, _⟩ | ⟨_, h5, _⟩
    · rw [h5, expanded]
    · rw [c2] at h5; simp at h5

/-- C102.  What strict decoding with path expansion accepts of a text that was cut off after one of its lines has no
primitive and no empty array that the whole does not have at the same place. -/
theorem C102_cut (opts : DecOpts) (hx : opts.expand = true) (hs : opts.strict = true) (first more : Str)
    (hb : ¬ BlankLine first) (part whole : Json F) (hp : decode opts first = .ok part)
    (hw : decode opts (first ++ '\n' :: more) = .ok whole) (t : ETree F)
    (ht : decodeStream opts.indent opts.strict (splitOn '\n' (first ++ '\n' :: more)) = .ok t.events) (hu : Unmixed t) :
    solid (leaves part) ⊆ solid (leaves whole) := by
  obtain ⟨t₁, h1, h2⟩ := C27_strict_leaves opts hx hs first part hp
  obtain ⟨t₂, h3, h4⟩ := C27_strict_leaves opts hx hs _ whole hw
  rw [ht] at h3
  simp only [Except.ok.injEq] at h3
  cases events_inj h3
  obtain ⟨t₁', h5, h6⟩ := (C58_events _ _ _ _).mp h1
  cases events_inj h6
  obtain ⟨t', h7, h8⟩ := (C58_events _ _ _ _).mp ht
  cases events_inj h8
  rw [splitOn_append_any, hs] at h7
  rw [hs] at h5
  have hc : Cut t t₁ := by
    refine textMeans_cut ?_ h5 h7
    apply Classical.byContradiction
    intro hn
    apply hb
    rw [← joinWith_splitOn '\n' first]
    intro c hc
    rcases joinWith_mem hc with rfl | ⟨w, h3, h4⟩
    · decide
    · exact Classical.byContradiction fun h5 => hn ⟨w, h3, fun h6 => h5 (h6 c h4)⟩
  exact fun l hl => h4.symm.subset (cut_leaves hc hu (h2.subset hl))

end

/-! ## Where the conditions are needed -/

namespace JoinExpanded

def strictly : DecOpts := { indent := 2, strict := true, expand := true }
def laxly : DecOpts := { strictly with strict := false }

def str (s : String) : Json B64 := .prim (.str s.toList)

/-- Finding F53.  In lax mode the texts one after the other are not the merge of the two: what the second text has
replaced in itself is lost from the first. -/
theorem C102_lax :
    decode laxly "a.x: u".toList = .ok (.obj [("a".toList, .obj [("x".toList, str "u")])]) ∧
    decode laxly "a: v\na.b: w".toList = .ok (.obj [("a".toList, .obj [("b".toList, str "w")])]) ∧
    decode laxly "a.x: u\na: v\na.b: w".toList = .ok (.obj [("a".toList, .obj [("b".toList, str "w")])]) ∧
    mergeObj [("a".toList, .obj [("x".toList, str "u")])] [("a".toList, .obj [("b".toList, str "w")])] =
      [("a".toList, .obj [("x".toList, str "u"), ("b".toList, str "w")])] := by
  refine ⟨by decide +kernel, by decide +kernel, by decide +kernel, by decide +kernel⟩

/-- Finding F53.  A quoted key in the second text takes back the expansion of the same key in the first. -/
theorem C102_quotes :
    decode strictly "a.b:\n  x: u".toList = .ok (.obj [("a".toList, .obj [("b".toList, .obj [("x".toList, str "u")])])]) ∧
    decode strictly "\"a.b\":\n  y: v".toList = .ok (.obj [("a.b".toList, .obj [("y".toList, str "v")])]) ∧
    decode strictly "a.b:\n  x: u\n\"a.b\":\n  y: v".toList =
      .ok (.obj [("a.b".toList, .obj [("x".toList, str "u"), ("y".toList, str "v")])]) := by
  refine ⟨by decide +kernel, by decide +kernel, by decide +kernel⟩

/-- `n` segments with a dot after each. -/
def segments : Nat → Str
  | 0 => []
  | n + 1 => 'a' :: '.' :: segments n

/-- A key of 200 segments with an object whose key has 101. -/
def deepText (c : Char) : Str := segments 199 ++ "a:\n  ".toList ++ segments 100 ++ [c] ++ ": u".toList

def accepted (text : Str) : Bool :=
  match decode (F := B64) strictly text with
  | .ok _ => true
  | .error _ => false

/-- Two texts that are accepted can be too deep one after the other, without any conflict. -/
theorem C102_deep : accepted (deepText 'y') = true ∧ accepted (deepText 'z') = true ∧
    decode (F := B64) strictly (deepText 'y' ++ '\n' :: deepText 'z') = .error .expandDepth := by
  refine ⟨by decide +kernel, by decide +kernel, by decide +kernel⟩

/-! ## Non-vacuity -/

theorem unquoted_same {es : List (Str × Bool × ETree B64)} (h : ∀ e ∈ es, e.2.1 = false) : SameQuotes es :=
  fun e he f hf _ _ => by rw [h e he, h f hf]

def firstEntries : List (Str × Bool × ETree B64) :=
  [("a.b".toList, false, .prim (.str "u".toList)), ("c".toList, false, .obj [("x".toList, false, .prim (.str "v".toList))])]
def secondEntries : List (Str × Bool × ETree B64) :=
  [("a.d".toList, false, .prim (.str "w".toList)), ("c.y".toList, false, .arr 1 [.prim (.str "z".toList)])]

/-- C102_joined: both objects of the first text get entries from the second. -/
example : decode strictly ("a.b: u\nc:\n  x: v".toList ++ '\n' :: "a.d: w\nc.y[1]: z".toList) =
    .ok (.obj [("a".toList, .obj [("b".toList, str "u"), ("d".toList, str "w")]),
      ("c".toList, .obj [("x".toList, str "v"), ("y".toList, .arr [str "z"])])]) :=
  (C102_joined strictly rfl rfl "a.b: u\nc:\n  x: v".toList "a.d: w\nc.y[1]: z".toList firstEntries secondEntries
    [("a".toList, .obj [("b".toList, str "u")]), ("c".toList, .obj [("x".toList, str "v")])]
    [("a".toList, .obj [("d".toList, str "w")]), ("c".toList, .obj [("y".toList, .arr [str "z"])])]
    (by decide +kernel) (by decide +kernel) (by decide +kernel) (by decide +kernel)
    (margin_cons (line := "a.d: w".toList) (b := ["c.y[1]: z".toList]) (by decide) (by decide))
    (unquoted_same (by decide)) (by decide) (by decide)).1 (by decide)

/-- C102_joined: the second text would replace something. -/
example : ∃ c, decode (F := B64) strictly ("a.b: u\nc:\n  x: v".toList ++ '\n' :: "a: w".toList) = .error (.pathConflict c) :=
  (C102_joined strictly rfl rfl "a.b: u\nc:\n  x: v".toList "a: w".toList firstEntries [("a".toList, false, .prim (.str "w".toList))]
    [("a".toList, .obj [("b".toList, str "u")]), ("c".toList, .obj [("x".toList, str "v")])] [("a".toList, str "w")]
    (by decide +kernel) (by decide +kernel) (by decide +kernel) (by decide +kernel)
    (margin_cons (line := "a: w".toList) (b := []) (by decide) (by decide))
    (unquoted_same (by decide)) (by decide) (by decide)).2 (by decide)

def joinedValue : Json B64 := .obj [("a".toList, .obj [("b".toList, str "u"), ("d".toList, str "w")]),
  ("c".toList, .obj [("x".toList, str "v"), ("y".toList, .arr [str "z"])])]

/-- C102_parts. -/
example : ∃ a b, decode strictly "a.b: u\nc:\n  x: v".toList = .ok (.obj a) ∧ decode strictly "a.d: w\nc.y[1]: z".toList = .ok (.obj b) ∧
    clashEntries a b = false ∧ joinedValue = .obj (mergeObj a b) :=
  C102_parts strictly rfl rfl _ _ firstEntries secondEntries joinedValue (by decide +kernel) (by decide +kernel) (by decide +kernel)
    (margin_cons (line := "a.d: w".toList) (b := ["c.y[1]: z".toList]) (by decide) (by decide))
    (unquoted_same (by decide)) (by decide)

/-- C102_cut: the text is cut inside the object at the path. -/
example : solid (leaves (.obj [("a".toList, .obj [("b".toList, .obj [("x".toList, str "u")])])])) ⊆
    solid (leaves (.obj [("a".toList, .obj [("b".toList, .obj [("x".toList, str "u"), ("y".toList, str "v")]), ("c".toList, str "w")])])) :=
  C102_cut strictly rfl rfl "a.b:\n  x: u".toList "  y: v\na.c: w".toList (by decide) _ _ (by decide +kernel) (by decide +kernel)
    (.obj [("a.b".toList, false, .obj [("x".toList, false, .prim (.str "u".toList)), ("y".toList, false, .prim (.str "v".toList))]),
      ("a.c".toList, false, .prim (.str "w".toList))]) (by decide +kernel)
    ⟨unquoted_same (by decide), ⟨unquoted_same (by decide), trivial, trivial, trivial⟩, trivial, trivial⟩

/-- C102_depth: 127 segments. -/
example : pathHeight (ETree.obj [(segments 126 ++ ['a'], false, .prim (.null (F := B64)))]) = 127 := by decide +kernel

end JoinExpanded

end Toon
