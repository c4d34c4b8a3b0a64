import Verif.Lemmas.Reordered
import Verif.Props.JoinExpanded

/-!
# C103: the order of entries

`Reordered` (trees that differ only in the order of the entries of objects) is in `Spec/Reordered.lean`, `≃` (values that
differ only in the order of keys) in `Spec/Values.lean`.
-/

namespace Toon

section
variable {F : Type} [F64 F] [LawfulF64 F]

omit [F64 F] [LawfulF64 F] in
theorem reordered_json {t t' : ETree F} (h : Reordered t t') : t.json ≃ t'.json := by
  have he : ∀ (es : List (Str × Bool × ETree F)), ETree.jsonEntries es = es.map fun e => (e.1, e.2.2.json) := by
    intro es
    induction es with
    | nil => rfl
    | cons e es ih => obtain ⟨k, q, t⟩ := e; simp [ETree.jsonEntries, ih]
  have hi : ∀ (ts : List (ETree F)), ETree.jsonItems ts = ts.map ETree.json := by
    intro ts
    induction ts with
    | nil => rfl
    | cons t ts ih => simp [ETree.jsonItems, ih]
  induction h with
  | refl t => exact .refl _
  | trans _ _ ih1 ih2 => exact .trans ih1 ih2
  | element n pre post _ ih =>
    simp only [ETree.json, hi, List.map_append, List.map_cons]
    exact .arr _ _ ih
  | entry pre post k q _ ih =>
    simp only [ETree.json, he, List.map_append, List.map_cons]
    exact .obj _ _ _ ih
  | entries h =>
    simp only [ETree.json, he]
    exact .perm (h.map _)

/-- C103.  Without path expansion: the same entries in another order give the same value up to the order of keys. -/
theorem C103_plain (opts : DecOpts) (hx : opts.expand = false) (text text' : Str) (t t' : ETree F)
    (h : TextMeans opts.indent opts.strict (splitOn '\n' text) t)
    (h' : TextMeans opts.indent opts.strict (splitOn '\n' text') t') (hr : Reordered t t') :
    ∃ v v' : Json F, decode opts text = .ok v ∧ decode opts text' = .ok v' ∧ v ≃ v' :=
  ⟨_, _, (C58_value opts hx _ _).mpr ⟨t, h, rfl⟩, (C58_value opts hx _ _).mpr ⟨t', h', rfl⟩, reordered_json hr⟩

/-- C103.  With path expansion in strict mode: the same, or there is a conflict in both orders. -/
theorem C103_expanded (opts : DecOpts) (hx : opts.expand = true) (hs : opts.strict = true) (text text' : Str) (t t' : ETree F)
    (h : TextMeans opts.indent opts.strict (splitOn '\n' text) t)
    (h' : TextMeans opts.indent opts.strict (splitOn '\n' text') t') (hr : Reordered t t') (hd : pathHeight t ≤ 127) :
    (∃ v v' : Json F, decode opts text = .ok v ∧ decode opts text' = .ok v' ∧ v ≃ v') ∨
    (∃ c c', decode (F := F) opts text = .error (.pathConflict c) ∧ decode (F := F) opts text' = .error (.pathConflict c')) := by
  have hd' : pathHeight t' ≤ 127 := by rw [← reordered_height hr]; exact hd
  rcases C102_depth opts hx text t h hd with ⟨h1, h2⟩ | ⟨_, h2, c, h1⟩
  · obtain ⟨h3, h4⟩ := reordered_expanded hr (h2 hs)
    rcases C102_depth opts hx text' t' h' hd' with ⟨h5, _⟩ | ⟨_, h6, _⟩
    · exact .inl ⟨_, _, h1, h5, accord_equiv h4 (expanded_distinct t) (expanded_distinct t')⟩
    · rw [h3] at h6; simp at h6
  · rcases C102_depth opts hx text' t' h' hd' with ⟨_, h6⟩ | ⟨_, _, c', h5⟩
    · obtain ⟨h3, _⟩ := reordered_expanded hr.symm (h6 hs)
      rw [h3] at h2; simp at h2
    · exact .inr ⟨c, c', h1, h5⟩

/-- C103.  Two texts of objects, in both orders, in strict mode with path expansion. -/
theorem C103_texts (opts : DecOpts) (hx : opts.expand = true) (hs : opts.strict = true) (first second : Str)
    (es es' : List (Str × Bool × ETree F))
    (hr : decodeStreamUnread opts.indent opts.strict (splitOn '\n' first) = .ok ((ETree.obj es).events, 0))
    (hr' : decodeStreamUnread opts.indent opts.strict (splitOn '\n' second) = .ok ((ETree.obj es').events, 0))
    (hm : StartsAtMargin (splitOn '\n' first)) (hm' : StartsAtMargin (splitOn '\n' second))
    (hd : pathHeight (ETree.obj (es ++ es')) ≤ 127) :
    (∃ v v' : Json F, decode opts (first ++ '\n' :: second) = .ok v ∧ decode opts (second ++ '\n' :: first) = .ok v' ∧ v ≃ v') ∨
    (∃ c c', decode (F := F) opts (first ++ '\n' :: second) = .error (.pathConflict c) ∧
      decode (F := F) opts (second ++ '\n' :: first) = .error (.pathConflict c')) := by
  have hb : ∀ (text : Str) (xs : List (Str × Bool × ETree F)),
      decodeStreamUnread opts.indent opts.strict (splitOn '\n' text) = .ok ((ETree.obj xs).events, 0) →
      decodeStream (F := F) opts.indent opts.strict (splitOn '\n' text) = .ok (ETree.obj xs).events := by
    intro text xs h
    rw [← C38_same_events, h]; rfl
  have h1 := joined_means hr (hb _ _ hr') hm'
  have h2 := joined_means hr' (hb _ _ hr) hm
  rw [← splitOn_append_any] at h1 h2
  exact C103_expanded opts hx hs _ _ _ _ h1 h2 (.entries List.perm_append_comm) hd

end

/-! ## Where the order matters -/

namespace JoinExpanded

/-- In lax mode the later entry wins, so the order decides. -/
theorem C103_lax :
    decode laxly "a: u\na.b: v".toList = .ok (.obj [("a".toList, .obj [("b".toList, str "v")])]) ∧
    decode laxly "a.b: v\na: u".toList = .ok (.obj [("a".toList, str "u")]) := by
  refine ⟨by decide +kernel, by decide +kernel⟩

def longWay : Str := "a.a:\n  ".toList ++ segments 149 ++ "a:\n    ".toList ++ segments 101 ++ "y: u".toList
def shortWay : Str := "a:\n  ".toList ++ segments 150 ++ "a:\n    ".toList ++ segments 101 ++ "z: v".toList

/-- Near the cap on the depth the order decides in strict mode too. -/
theorem C103_deep : accepted (longWay ++ '\n' :: shortWay) = true ∧
    decode (F := B64) strictly (shortWay ++ '\n' :: longWay) = .error .expandDepth := by
  refine ⟨by decide +kernel, by decide +kernel⟩

/-! ## Non-vacuity -/

/-- C103_texts: two texts with entries for the same objects. -/
example : (∃ v v', decode (F := B64) strictly ("a.b: u\nc:\n  x: v".toList ++ '\n' :: "a.d: w\nc.y[1]: z".toList) = .ok v ∧
      decode (F := B64) strictly ("a.d: w\nc.y[1]: z".toList ++ '\n' :: "a.b: u\nc:\n  x: v".toList) = .ok v' ∧ v ≃ v') ∨
    (∃ c c', decode (F := B64) strictly ("a.b: u\nc:\n  x: v".toList ++ '\n' :: "a.d: w\nc.y[1]: z".toList) = .error (.pathConflict c) ∧
      decode (F := B64) strictly ("a.d: w\nc.y[1]: z".toList ++ '\n' :: "a.b: u\nc:\n  x: v".toList) = .error (.pathConflict c')) :=
  C103_texts strictly rfl rfl "a.b: u\nc:\n  x: v".toList "a.d: w\nc.y[1]: z".toList firstEntries secondEntries
    (by decide +kernel) (by decide +kernel)
    (margin_cons (line := "a.b: u".toList) (b := ["c:".toList, "  x: v".toList]) (by decide) (by decide))
    (margin_cons (line := "a.d: w".toList) (b := ["c.y[1]: z".toList]) (by decide) (by decide)) (by decide +kernel)

/-- C103_plain and C103_expanded: the text of a tree that the decoder's events show, and of the tree with the entries swapped. -/
example : ∃ v v', decode (F := B64) { strictly with expand := false } "a.b: u\nc: v".toList = .ok v ∧
    decode (F := B64) { strictly with expand := false } "c: v\na.b: u".toList = .ok v' ∧ v ≃ v' := by
  obtain ⟨t, h1, h2⟩ := (C58_events 2 true (splitOn '\n' "a.b: u\nc: v".toList)
    (ETree.obj [("a.b".toList, false, .prim (.str "u".toList)), ("c".toList, false, .prim (.str "v".toList))] : ETree B64).events).mp
    (by decide +kernel)
  obtain ⟨t', h3, h4⟩ := (C58_events 2 true (splitOn '\n' "c: v\na.b: u".toList)
    (ETree.obj [("c".toList, false, .prim (.str "v".toList)), ("a.b".toList, false, .prim (.str "u".toList))] : ETree B64).events).mp
    (by decide +kernel)
  cases events_inj h2
  cases events_inj h4
  exact C103_plain { strictly with expand := false } rfl _ _ _ _ h1 h3 (.entries (.swap _ _ _))

end JoinExpanded

end Toon
