import Verif.Lemmas.ExpandDepth
import Verif.Lemmas.DecodeValue
import Verif.Lemmas.EventsInj
import Verif.Lemmas.Dec
import Verif.Lemmas.Float64

/-!
# C26, C27, C28, C29: path expansion

The specification is in `Spec/Expansion.lean`: `expanded` (deep merge of what the keys stand for),
`conflicting` (the merge replaces something), `pathLeaves`, `pathHeight`, `depthNeeded`.  They are functions
of the tree of the decoder's events (`ETree`, `Spec/Events.lean`), in which every key tells whether it was
quoted; `t.json` is the value of the tree without expansion (C14).
-/

namespace Toon

section
variable {F : Type} [F64 F] [LawfulF64 F]

/-- C27.  The three outcomes of decoding with path expansion, for every text with a valid event stream: the
merged value, and then in strict mode nothing was replaced; the conflict error, only in strict mode and only
if something would be replaced; the depth error, only for deep nesting. -/
theorem C27_outcome (opts : DecOpts) (hx : opts.expand = true) (text : Str) (t : ETree F)
    (h : decodeStream opts.indent opts.strict (splitOn '\n' text) = .ok t.events) :
    (decode opts text = .ok (expanded t) ∧ (opts.strict = true → conflicting t = false)) ∨
    (∃ c, decode (F := F) opts text = .error (.pathConflict c) ∧ opts.strict = true ∧ conflicting t = true) ∨
    (decode (F := F) opts text = .error .expandDepth ∧ 255 < 2 * height t.json + pathHeight t) := by
  unfold decode
  rw [decodeFromLines_expand h, if_pos hx]
  unfold expandPathsSafe
  have hj : opts.strict = true → Judged (expandInner opts.strict t.node 0) (conflicting t) := by
    intro hs; rw [hs]; exact expandInner_judged t 0
  cases he : expandInner opts.strict t.node 0 with
  | ok n =>
    left
    exact ⟨by simp only [expandInner_spec t he], fun hs => (hj hs).1 n he⟩
  | error e =>
    right
    rcases expandInner_err he with rfl | ⟨hs, c, rfl⟩
    · exact Or.inr ⟨rfl, by have := expandInner_depth t he; omega⟩
    · exact Or.inl ⟨c, rfl, hs, (hj hs).2 c he⟩

omit [LawfulF64 F] in
theorem decode_stream {opts : DecOpts} {text : Str} {v : Json F} (h : decode opts text = .ok v) :
    ∃ evs : List (Ev F), decodeStream opts.indent opts.strict (splitOn '\n' text) = .ok evs := by
  unfold decode decodeFromLines at h
  obtain ⟨evs, h1, _⟩ := bind_ok.mp h
  exact ⟨evs, h1⟩

/-- C27.  A value that was decoded with path expansion is the merged value of a tree. -/
theorem C27_value (opts : DecOpts) (hx : opts.expand = true) (text : Str) (v : Json F) (h : decode opts text = .ok v) :
    ∃ t : ETree F, decodeStream opts.indent opts.strict (splitOn '\n' text) = .ok t.events ∧ v = expanded t ∧
      (opts.strict = true → conflicting t = false) := by
  obtain ⟨evs, hs⟩ := decode_stream h
  obtain ⟨t, rfl, _⟩ := decodeStream_tree hs
  refine ⟨t, hs, ?_⟩
  rcases C27_outcome opts hx text t hs with ⟨h1, h2⟩ | ⟨_, h1, _⟩ | ⟨h1, _⟩
  · rw [h1] at h
    simp only [Except.ok.injEq] at h
    exact ⟨h.symm, h2⟩
  · rw [h1] at h; simp at h
  · rw [h1] at h; simp at h

/-- C26.  After path expansion every object has distinct keys. -/
theorem C26_distinct (opts : DecOpts) (hx : opts.expand = true) (text : Str) (v : Json F) (h : decode opts text = .ok v) :
    DistinctKeys v := by
  obtain ⟨t, _, rfl, _⟩ := C27_value opts hx text v h
  exact expanded_distinct t

/-- C27.  Strict expansion loses nothing and makes up nothing: the primitives and empty arrays of the result
are those of the decoded document, each exactly once, under the path its keys stand for. -/
theorem C27_strict_leaves (opts : DecOpts) (hx : opts.expand = true) (hs : opts.strict = true) (text : Str) (v : Json F)
    (h : decode opts text = .ok v) :
    ∃ t : ETree F, decodeStream opts.indent opts.strict (splitOn '\n' text) = .ok t.events ∧
      (solid (leaves v)).Perm (solid (pathLeaves t)) := by
  obtain ⟨t, h1, rfl, h2⟩ := C27_value opts hx text v h
  exact ⟨t, h1, expanded_leaves t (h2 hs)⟩

/-- C27.  In lax mode nothing is made up. -/
theorem C27_lax_leaves (opts : DecOpts) (hx : opts.expand = true) (text : Str) (v : Json F) (h : decode opts text = .ok v) :
    ∃ t : ETree F, decodeStream opts.indent opts.strict (splitOn '\n' text) = .ok t.events ∧
      solid (leaves v) ⊆ solid (pathLeaves t) := by
  obtain ⟨t, h1, rfl, _⟩ := C27_value opts hx text v h
  exact ⟨t, h1, expanded_subset t⟩

/-- C27.  In lax mode the last entry wins: all its (expanded) leaves are in the result. -/
theorem C27_last_wins (opts : DecOpts) (hx : opts.expand = true) (text : Str) (v : Json F) (es : List (Str × Bool × ETree F))
    (k : Str) (q : Bool) (t : ETree F)
    (hs : decodeStream opts.indent opts.strict (splitOn '\n' text) = .ok (ETree.obj (es ++ [(k, q, t)])).events)
    (h : decode opts text = .ok v) (p : List Step) (l : Leaf F) (hl : (p, l) ∈ solid (leaves (expanded t))) :
    ((keyPath (quotedIn (es ++ [(k, q, t)]) k) k).map .key ++ p, l) ∈ leaves v := by
  rcases C27_outcome opts hx text _ hs with ⟨h1, _⟩ | ⟨_, h1, _⟩ | ⟨h1, _⟩
  · rw [h1] at h
    simp only [Except.ok.injEq] at h
    subst h
    have := expanded_last es k q t (List.mem_map.mpr ⟨(p, l), hl, rfl⟩)
    exact (List.mem_filter.mp this).1
  · rw [h1] at h; simp at h
  · rw [h1] at h; simp at h

/-- C27.  Lax expansion fails only by the depth cap. -/
theorem C27_lax_total (opts : DecOpts) (hx : opts.expand = true) (hs : opts.strict = false) (text : Str) (t : ETree F)
    (h : decodeStream opts.indent opts.strict (splitOn '\n' text) = .ok t.events)
    (hd : 2 * height t.json + pathHeight t ≤ 255) : decode opts text = .ok (expanded t) := by
  rcases C27_outcome opts hx text t h with ⟨h1, _⟩ | ⟨_, _, h1, _⟩ | ⟨_, h1⟩
  · exact h1
  · rw [hs] at h1; simp at h1
  · omega

/-- C28.  A document without duplicate keys, whose unquoted keys are no dotted paths, is decoded to the same
value with and without expansion. -/
theorem C28_untouched (opts : DecOpts) (text : Str) (t : ETree F)
    (h : decodeStream opts.indent opts.strict (splitOn '\n' text) = .ok t.events) (hd : DistinctKeys t.json)
    (hk : t.AllKeys fun k quoted => quoted = true ∨ ¬ DottedPath k) (hh : height t.json ≤ 127) :
    decode (F := F) { opts with expand := true } text = .ok t.json ∧ decode (F := F) { opts with expand := false } text = .ok t.json := by
  have h1 := decodeFromLines_expand (opts := { opts with expand := true }) h
  have h2 := decodeFromLines_expand (opts := { opts with expand := false }) h
  simp only [if_true, Bool.false_eq_true, if_false] at h1 h2
  refine ⟨?_, h2⟩
  unfold decode
  rw [h1]
  unfold expandPathsSafe
  rcases expand_literal (strict := opts.strict) t 0 hd hk with he | ⟨_, he⟩
  · simp only [he, nodeToJson_plain]
  · omega

/-- C29.  Expansion succeeds only within the cap of 256, where objects count twice and the segments of a key
count once; the result is then nested at most 16132 deep (`C100_deepest` reaches this). -/
theorem C29_cap (opts : DecOpts) (hx : opts.expand = true) (text : Str) (v : Json F) (h : decode opts text = .ok v) :
    ∃ t : ETree F, decodeStream opts.indent opts.strict (splitOn '\n' text) = .ok t.events ∧ depthNeeded t ≤ 256 ∧
      height v ≤ 16132 := by
  obtain ⟨t, h1, rfl, _⟩ := C27_value opts hx text v h
  have hn : depthNeeded t ≤ 256 := by
    unfold decode at h
    rw [decodeFromLines_expand h1, if_pos hx] at h
    unfold expandPathsSafe at h
    split at h
    · simp at h
    · rename_i n he
      have := expandInner_needed t he
      omega
  refine ⟨t, h1, hn, ?_⟩
  rw [← deepest_cap]
  exact Nat.le_trans (expanded_height t) (pathHeight_deepest t 256 hn)

/-- C29.  Beyond the cap decoding fails, with the depth error unless there is a conflict. -/
theorem C29_beyond (opts : DecOpts) (hx : opts.expand = true) (text : Str) (t : ETree F)
    (h : decodeStream opts.indent opts.strict (splitOn '\n' text) = .ok t.events) (hn : 256 < depthNeeded t) :
    decode (F := F) opts text = .error .expandDepth ∨
      (∃ c, decode (F := F) opts text = .error (.pathConflict c) ∧ opts.strict = true ∧ conflicting t = true) := by
  rcases C27_outcome opts hx text t h with ⟨h1, _⟩ | h1 | ⟨h1, _⟩
  · obtain ⟨t', h2, h3, _⟩ := C29_cap opts hx text _ h1
    rw [h] at h2
    simp only [Except.ok.injEq] at h2
    have : t = t' := events_inj h2
    subst this
    omega
  · exact Or.inr h1
  · exact Or.inl h1

end

/-! ## Examples and counterexamples -/

namespace ExpandExample

/-- 1, 2 and 3 -/
def one : B64 := ⟨false, 1023, 0⟩
def two : B64 := ⟨false, 1024, 0⟩
def three : B64 := ⟨false, 1024, 2 ^ 51⟩

/-- Paths that meet in the middle, a literal key that is merged with a path, a quoted dotted key, a dotted key
that is no path, and an object in a list. -/
def text : Str := "a.b.c: 1\na:\n  b.d: 2\n\"q.r\": 3\n1.5: x\nl[1]:\n  - u.v: []\n".toList

def tree : ETree B64 := .obj [
  ("a.b.c".toList, false, .prim (.num one)),
  ("a".toList, false, .obj [("b.d".toList, false, .prim (.num two))]),
  ("q.r".toList, true, .prim (.num three)),
  ("1.5".toList, false, .prim (.str "x".toList)),
  ("l".toList, false, .arr 1 [.obj [("u.v".toList, false, .prim (.str "[]".toList))]])]

theorem stream : decodeStream 2 true (splitOn '\n' text) = .ok tree.events := by decide +kernel

def value : Json B64 := .obj [
  ("a".toList, .obj [("b".toList, .obj [("c".toList, .prim (.num one)), ("d".toList, .prim (.num two))])]),
  ("q.r".toList, .prim (.num three)),
  ("1.5".toList, .prim (.str "x".toList)),
  ("l".toList, .arr [.obj [("u".toList, .obj [("v".toList, .prim (.str "[]".toList))])]])]

/-- The specification gives the value one expects. -/
theorem expanded_tree : expanded tree = value := by decide +kernel

theorem not_conflicting : conflicting tree = false := by decide +kernel

example : decode { indent := 2, strict := true, expand := true } text = .ok value := by
  rcases C27_outcome { indent := 2, strict := true, expand := true } rfl text tree stream with ⟨h, _⟩ | ⟨_, _, _, h⟩ | ⟨_, h⟩
  · rw [h, expanded_tree]
  · rw [not_conflicting] at h; simp at h
  · exact absurd h (by decide +kernel)

example : DistinctKeys value :=
  C26_distinct { indent := 2, strict := true, expand := true } rfl text value (by decide +kernel)

/-- A conflict: `a` is a number, then an object. -/
def clashText : Str := "a: 1\na.b: 2\na.c: 3".toList

def clashTree : ETree B64 := .obj [
  ("a".toList, false, .prim (.num one)),
  ("a.b".toList, false, .prim (.num two)),
  ("a.c".toList, false, .prim (.num three))]

theorem clashStream (strict : Bool) : decodeStream 2 strict (splitOn '\n' clashText) = .ok clashTree.events := by
  cases strict <;> decide +kernel

example : conflicting clashTree = true ∧
    expanded clashTree = .obj [("a".toList, .obj [("b".toList, .prim (.num two)), ("c".toList, .prim (.num three))])] := by
  decide +kernel

example : decode (F := B64) { indent := 2, strict := true, expand := true } clashText =
    .error (.pathConflict (.segment "a".toList .primitive)) := by decide +kernel

example : ∃ c, decode (F := B64) { indent := 2, strict := true, expand := true } clashText = .error (.pathConflict c) := by
  rcases C27_outcome { indent := 2, strict := true, expand := true } rfl clashText clashTree (clashStream true)
    with ⟨_, h⟩ | ⟨c, h, _⟩ | ⟨_, h⟩
  · exact absurd (h rfl) (by decide +kernel)
  · exact ⟨c, h⟩
  · exact absurd h (by decide +kernel)

example : decode { indent := 2, strict := false, expand := true } clashText = .ok (expanded clashTree) :=
  C27_lax_total { indent := 2, strict := false, expand := true } rfl rfl clashText clashTree (clashStream false) (by decide +kernel)

/-- C28: quoted dotted keys and keys that are no paths. -/
def literalText : Str := "\"a.b\": 1\n\"a\":\n  \"b.c\": 2\n  1.5: 3".toList

def literalTree : ETree B64 := .obj [
  ("a.b".toList, true, .prim (.num one)),
  ("a".toList, true, .obj [("b.c".toList, true, .prim (.num two)), ("1.5".toList, false, .prim (.num three))])]

example : decode { indent := 2, strict := true, expand := true } literalText = .ok literalTree.json :=
  (C28_untouched { indent := 2, strict := true, expand := true } literalText literalTree (by decide +kernel)
    (by simp only [literalTree, ETree.json, ETree.jsonEntries, DistinctKeys, DistinctKeysEntries]; decide +kernel)
    (by
      simp only [literalTree, ETree.AllKeys, ETree.AllKeysEntries]
      refine ⟨Or.inl trivial, trivial, Or.inl trivial, ⟨Or.inl trivial, trivial, Or.inr (by decide +kernel), trivial, trivial⟩, trivial⟩)
    (by decide +kernel)).1

/-- One quoted occurrence of a key makes all entries of the object with this key literal. -/
example : decode (F := B64) { indent := 2, strict := false, expand := true } "\"a.b\": 1\na.b: 2".toList =
    .ok (.obj [("a.b".toList, .prim (.num two))]) := by decide +kernel

end ExpandExample

namespace ExpandDeep

/-- A key of 200 segments. -/
def key : Str := dotted (List.replicate 200 ['a'])

/-- A key of 200 segments below a key of 200 segments. -/
def text : Str := key ++ ":\n  ".toList ++ key ++ ": 1".toList

def heightOf : Except Err (Json B64) → Nat
  | .ok v => height v
  | .error _ => 0

/-- The cap is not a bound on the nesting of the result: here it is 400. -/
theorem C29_deeper_than_cap : heightOf (decode { indent := 2, strict := true, expand := true } text) = 400 := by
  decide +kernel

/-- A chain of `n` objects with key `a`, written on `n` lines. -/
def chain : Nat → Str → Str
  | 0, _ => "a: 1".toList
  | n + 1, ind => "a:\n".toList ++ ind ++ chain n (ind ++ [' '])

/-- On the other hand 128 objects inside each other are too many, because every object counts twice. -/
theorem C29_half_cap :
    decode (F := B64) { indent := 1, strict := true, expand := true } (chain 127 [' ']) = .error .expandDepth ∧
      heightOf (decode { indent := 1, strict := true, expand := false } (chain 127 [' '])) = 128 := by
  decide +kernel

end ExpandDeep

end Toon
