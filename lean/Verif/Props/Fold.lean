import Verif.Lemmas.FoldOff
import Verif.Lemmas.Float64

/-!
# C23, C24, C25, C53: key folding

`opts` ranges over all encoding options, so over folding switched on and off and over every flatten
depth.  `NoDottedKeys`, `FoldedFrom`, `dotLeaves`, `nested` and `dotted` are in `Spec/Paths.lean`.
-/

namespace Toon

section
variable {F : Type} [F64 F] [LawfulF64 F]

theorem decode_expand_encode {opts : EncOpts} (strict : Bool) {v : Json F} (hi : 0 < opts.indent) (hd : GoodDelim opts.delim)
    (hw : Writable true v) (hk : DistinctKeys v) (hn : PlainNumbers v) (hdot : NoDottedKeys v) :
    decode { indent := opts.indent, strict := strict, expand := true } (encode opts v) = .ok (canon true v) ∨
      (decode (F := F) { indent := opts.indent, strict := strict, expand := true } (encode opts v) = .error .expandDepth ∧
        127 < height v) := by
  have hs := decodeStream_encode hi hd strict hw
  rw [normalize_normal ((normal_iff v).mpr hn)] at hs
  unfold decode
  rw [decodeFromLines_expand (t := treeOf (shape opts v)) (by rw [events_treeOf]; exact hs)]
  simp only [if_true]
  rcases fold_expand (opts := opts) (strict := strict) v hk hdot with h | ⟨h, hb⟩
  · simp only [h, nodeToJson_plain]
    exact Or.inl trivial
  · simp only [h]
    exact Or.inr ⟨by trivial, by omega⟩

/-- C23.  Folding at any flatten depth followed by path expansion gives the value back, up to the order
of keys, for nesting up to 127. -/
theorem C23_lossless (opts : EncOpts) (strict : Bool) (v : Json F) (hi : 0 < opts.indent) (hd : GoodDelim opts.delim)
    (hw : Writable true v) (hk : DistinctKeys v) (hn : PlainNumbers v) (hdot : NoDottedKeys v) (hh : height v ≤ 127) :
    ∃ w : Json F, decode { indent := opts.indent, strict := strict, expand := true } (encode opts v) = .ok w ∧ w ≃ v := by
  rcases decode_expand_encode strict hi hd hw hk hn hdot with h | ⟨_, h⟩
  · refine ⟨_, h, ?_⟩
    have := shape_equiv (opts := { opts with fold := false }) rfl hk
    rwa [shape_canon rfl] at this
  · omega

/-- C23, exact form: when the rows of tables list their keys in column order. -/
theorem C23_lossless_exact (opts : EncOpts) (strict : Bool) (v : Json F) (hi : 0 < opts.indent) (hd : GoodDelim opts.delim)
    (hw : Writable true v) (hk : DistinctKeys v) (hn : PlainNumbers v) (hdot : NoDottedKeys v) (hh : height v ≤ 127)
    (ha : Aligned true v) :
    decode { indent := opts.indent, strict := strict, expand := true } (encode opts v) = .ok v := by
  rcases decode_expand_encode strict hi hd hw hk hn hdot with h | ⟨_, h⟩
  · rw [h, ← shape_canon (opts := { opts with fold := false }) rfl, shape_eq rfl hk ha]
  · omega

/-- C23 without a bound on the nesting: the only other possibility is the depth error. -/
theorem C23_any_depth (opts : EncOpts) (strict : Bool) (v : Json F) (hi : 0 < opts.indent) (hd : GoodDelim opts.delim)
    (hw : Writable true v) (hk : DistinctKeys v) (hn : PlainNumbers v) (hdot : NoDottedKeys v) :
    (∃ w : Json F, decode { indent := opts.indent, strict := strict, expand := true } (encode opts v) = .ok w ∧ w ≃ v) ∨
      decode (F := F) { indent := opts.indent, strict := strict, expand := true } (encode opts v) = .error .expandDepth := by
  rcases decode_expand_encode strict hi hd hw hk hn hdot with h | ⟨h, _⟩
  · refine Or.inl ⟨_, h, ?_⟩
    have := shape_equiv (opts := { opts with fold := false }) rfl hk
    rwa [shape_canon rfl] at this
  · exact Or.inr h

/-- C24.  Reading a folded text without expansion gives the leaves of the original value, addressed by
dotted paths. -/
theorem C24_leaves (opts : EncOpts) (strict : Bool) (v : Json F) (hi : 0 < opts.indent) (hd : GoodDelim opts.delim)
    (hw : Writable true v) (hk : DistinctKeys v) :
    ∃ w : Json F, decode { indent := opts.indent, strict := strict, expand := false } (encode opts v) = .ok w ∧
      (dotLeaves w).Perm (dotLeaves (normalize v)) := by
  refine ⟨_, decode_encode hi hd strict hw, ?_⟩
  rw [shape_dotLeaves, ← shape_canon (opts := { opts with fold := false }) rfl]
  exact (equiv_leaves (shape_equiv rfl ((distinct_normalize v).mpr hk))).map _

/-- C24, duplicate keys allowed: the folded and the unfolded text have the same leaves in the same order. -/
theorem C24_leaves_ordered (opts : EncOpts) (strict : Bool) (v : Json F) (hi : 0 < opts.indent) (hd : GoodDelim opts.delim)
    (hw : Writable true v) :
    ∃ w w' : Json F, decode { indent := opts.indent, strict := strict, expand := false } (encode opts v) = .ok w ∧
      decode { indent := opts.indent, strict := strict, expand := false } (encode { opts with fold := false } v) = .ok w' ∧
      dotLeaves w = dotLeaves w' := by
  refine ⟨_, _, decode_encode hi hd strict hw,
    decode_encode (opts := { opts with fold := false }) hi hd strict hw, ?_⟩
  rw [shape_dotLeaves, shape_dotLeaves]

/-- C24.  Folding keeps the keys of every object distinct, when no object inside an array starts with a
dotted key. -/
theorem C24_distinct (opts : EncOpts) (strict : Bool) (v : Json F) (hi : 0 < opts.indent) (hd : GoodDelim opts.delim)
    (hw : Writable true v) (hk : DistinctKeys v) (hf : ItemFirstKeys (fun k => ¬ DottedPath k) v) :
    ∃ w : Json F, decode { indent := opts.indent, strict := strict, expand := false } (encode opts v) = .ok w ∧ DistinctKeys w :=
  ⟨_, decode_encode hi hd strict hw, shape_distinct _ ((distinct_normalize v).mpr hk) ((itemFirst_normalize _ v).mpr hf)⟩

omit [LawfulF64 F] in
/-- C25.  With a flatten depth below 2 folding has no effect. -/
theorem C25_shallow (opts : EncOpts) (v : Json F) (h : opts.flattenDepth < 2) :
    encode opts v = encode { opts with fold := false } v :=
  encode_shallow (o1 := opts) (o2 := { opts with fold := false }) ⟨rfl, rfl, h, rfl⟩ v

/-- C25.  Every key of a folded text is a key of the value, or 2 to `flattenDepth` such keys that are
identifiers, joined by dots. -/
theorem C25_segments (opts : EncOpts) (strict : Bool) (v : Json F) (hi : 0 < opts.indent) (hd : GoodDelim opts.delim)
    (hw : Writable true v) :
    ∃ w : Json F, decode { indent := opts.indent, strict := strict, expand := false } (encode opts v) = .ok w ∧
      AllKeys (FoldedFrom (· ∈ keysOf v) opts.flattenDepth) w :=
  ⟨_, decode_encode hi hd strict hw, shape_keys _ ((allKeys_normalize _ v).mpr (allKeys_keysOf v (fun _ h => h)))⟩

omit [LawfulF64 F] in
/-- C53.  A chain of objects of one entry each, whose keys are identifiers, under a key of the root
object is written on one line with the keys joined by dots, unless there are more of them than the
flatten depth or the joined key is also a key of the root.  The line is the text of the one-entry object
with the joined key. -/
theorem C53_folds (opts : EncOpts) (hf : opts.fold = true) (es : List (Str × Json F)) (k s : Str) (ss : List Str) (p : Prim F)
    (hid : ∀ x ∈ k :: s :: ss, identifier x = true) (hfd : (k :: s :: ss).length ≤ opts.flattenDepth)
    (hm : (k, nested (s :: ss) (.prim p)) ∈ es) (hk : dotted (k :: s :: ss) ∉ es.map Prod.fst) :
    encode { opts with fold := false } (.obj [(dotted (k :: s :: ss), .prim p)]) ∈ encodeLines opts (.obj es) := by
  rw [dotted_eq] at hk ⊢
  exact chain_line hf es k s ss p (fun x hx => by rw [← identifier_eq]; exact hid x hx) hfd hm hk

end

/-! ## The hypotheses are satisfiable

Two chains, one of them under a table, a key with a dot that is no path, a list with an object whose
second entry is folded, and a sibling that blocks nothing. -/

namespace FoldExample

/-- 1 and 2 -/
def one : B64 := ⟨false, 1023, 0⟩
def two : B64 := ⟨false, 1024, 0⟩

theorem table_cols {items : List (Json B64)} {es : List (Str × Json B64)} {rest : List (Json B64)} {cols : List Str}
    (h : IsTable items cols) (hi : items = .obj es :: rest) : cols = es.map Prod.fst := by
  obtain ⟨_, ⟨es', rest', h1, h2⟩, _⟩ := h
  rw [hi] at h1
  cases h1
  exact h2.symm

def value : Json B64 := .obj [
  ("a".toList, .obj [("b".toList, .obj [("c".toList, .prim (.num one))])]),
  ("a b.c".toList, .obj [("d".toList, .obj [])]),
  ("t".toList, .obj [("rows".toList, .arr [.obj [("k".toList, .prim .null)], .obj [("k".toList, .prim (.bool true))]])]),
  ("x".toList, .arr [.obj [("m".toList, .obj [("n".toList, .prim (.num one))]),
    ("p".toList, .obj [("q.".toList, .prim (.str "1".toList))])], .prim (.num two)])]

theorem writable : Writable true value := by
  have h1 : ∀ cols, IsTable [Json.obj [("k".toList, Json.prim (Prim.null (F := B64)))], .obj [("k".toList, .prim (.bool true))]] cols →
      ∀ c ∈ cols, '}' ∉ c := by
    intro cols h
    rw [table_cols h rfl]
    decide
  have h2 : ∀ cols, IsTable [Json.obj [("m".toList, .obj [("n".toList, .prim (.num one))]),
      ("p".toList, .obj [("q.".toList, .prim (.str "1".toList))])], .prim (.num two)] cols → ∀ c ∈ cols, '}' ∉ c := by
    intro cols h
    rw [table_cols h rfl]
    decide
  simp only [value, Writable, WritableEntries, WritableItems] at *
  simp
  exact ⟨h1, h2, Or.inr (by decide)⟩

theorem distinct : DistinctKeys value := by
  simp only [value, DistinctKeys, DistinctKeysEntries, DistinctKeysItems]
  decide

theorem plain : PlainNumbers value := by
  simp only [value, PlainNumbers, AllPrims, AllPrimsEntries, AllPrimsItems, PlainPrim]
  decide +kernel

theorem undotted : NoDottedKeys value := by
  simp only [value, NoDottedKeys, AllKeys, AllKeysEntries, AllKeysItems]
  decide +kernel

example : ∃ w, decode { indent := 4, strict := true, expand := true }
    (encode { indent := 4, delim := '|', fold := true, flattenDepth := 2 } value) = .ok w ∧ w ≃ value :=
  C23_lossless { indent := 4, delim := '|', fold := true, flattenDepth := 2 } true value (by decide) (by decide) writable distinct plain undotted (by decide)

example : ∃ w : Json B64, decode { indent := 4, strict := true, expand := false }
    (encode { indent := 4, delim := '|', fold := true, flattenDepth := 3 } value) = .ok w ∧ DistinctKeys w :=
  C24_distinct { indent := 4, delim := '|', fold := true, flattenDepth := 3 } true value (by decide) (by decide) writable distinct (by
    simp only [value, ItemFirstKeys, ItemFirstKeysEntries, ItemFirstKeysItems, FirstKey]
    decide +kernel)

/-- The leaves of the example, addressed by dotted paths. -/
example : (dotLeaves value).map Prod.fst = ["a.b.c", "a b.c.d", "t.rows[0].k", "t.rows[1].k", "x[0].m.n", "x[0].p.q.", "x[1]"].map
    String.toList := by decide +kernel

/-- The line `a.b.c: 1`. -/
example : encode { indent := 2, delim := ',', fold := false, flattenDepth := 3 } (.obj [("a.b.c".toList, .prim (.num one))]) ∈
    encodeLines { indent := 2, delim := ',', fold := true, flattenDepth := 3 } value :=
  C53_folds { indent := 2, delim := ',', fold := true, flattenDepth := 3 } rfl _ "a".toList "b".toList ["c".toList] (.num one)
    (by decide) (by decide) (by simp [nested]) (by decide)

end FoldExample

/-! ## Folded keys and the first key of a list item

In an object that is an element of an array, the keys after the first are folded without looking at the
first key, so a folded key can collide with it. -/

namespace FoldCollision

open FoldExample

/-- `[{"a.b": 1, "a": {"b": 2}}]` -/
def value : Json B64 := .arr [.obj [("a.b".toList, .prim (.num one)), ("a".toList, .obj [("b".toList, .prim (.num two))])]]

def opts : EncOpts := { indent := 2, delim := ',', fold := true, flattenDepth := 10 }

theorem writable : Writable true value := by
  have h2 : ∀ cols, IsTable [Json.obj [("a.b".toList, .prim (.num one)), ("a".toList, .obj [("b".toList, .prim (.num two))])]] cols →
      ∀ c ∈ cols, '}' ∉ c := by
    intro cols h
    rw [table_cols h rfl]
    decide
  simp only [value, Writable, WritableEntries, WritableItems] at *
  simp
  exact h2

theorem shape_value : shape opts value = .arr [.obj [("a.b".toList, .prim (.num one)), ("a.b".toList, .prim (.num two))]] := by
  have h1 : shapeObject opts [("a".toList, .obj [("b".toList, Json.prim (.num two))])] 1 none none none =
      [("a.b".toList, .prim (.num two))] := by
    rw [shapeObject, shapeEntries, shapeEntries, shapeKeyValue_eq]
    rfl
  simp only [value, shape]
  rw [shapeArray, if_neg (by decide), show tableHeader _ = none from rfl]
  simp only
  rw [shapeItems, shapeItems, shapeItem, shapeObjectItem.eq_def]
  simp only
  rw [h1]

/-- C24 fails for the first key of a list item: distinct keys before, a duplicate key after. -/
theorem C24_collision : DistinctKeys value ∧
    decode { indent := 2, strict := true, expand := false } (encode opts value) =
      .ok (.arr [.obj [("a.b".toList, .prim (.num one)), ("a.b".toList, .prim (.num two))]]) := by
  constructor
  · simp only [value, DistinctKeys, DistinctKeysEntries, DistinctKeysItems]
    decide
  · have := decode_encode (opts := opts) (by decide) (by decide) true writable
    rw [normalize_normal ((normal_iff value).mpr (by
      simp only [value, PlainNumbers, AllPrims, AllPrimsEntries, AllPrimsItems, PlainPrim]
      decide +kernel)), shape_value] at this
    exact this

end FoldCollision

end Toon
