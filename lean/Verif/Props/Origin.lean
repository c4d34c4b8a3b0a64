import Verif.Lemmas.Origin
import Verif.Props.Clashes

/-!
# C105: which entry a decoded value comes from

`follow` (the value at a path of keys) and `standsFor` (the nested objects of an entry) are in `Spec/Clashes.lean`, `Blocks`
and `Settles` in `Spec/Origin.lean`.
-/

namespace Toon

section
variable {F : Type} [F64 F] [LawfulF64 F]

theorem origin_tree {opts : DecOpts} (hx : opts.expand = true) {text : Str} {es : List (Str × Bool × ETree F)} {v : Json F}
    (h : TextMeans opts.indent opts.strict (splitOn '\n' text) (.obj es)) (hv : decode opts text = .ok v) :
    v = .obj (expandedEntries (quotedIn es) es []) ∧ (opts.strict = true → ¬ Quarrel es) := by
  obtain ⟨t, h1, h2, h3⟩ := C27_value opts hx text v hv
  rw [(C58_events _ _ _ _).mpr ⟨_, h, rfl⟩] at h1
  simp only [Except.ok.injEq] at h1
  cases events_inj h1
  refine ⟨by rw [h2, expanded], fun hs hq => ?_⟩
  have := (conflicting_exactly _).mpr ⟨es, .here, hq⟩
  rw [h3 hs] at this
  simp at this

/-- C105.  With path expansion, in both modes: something that is not an object is at a place of the decoded value exactly if an
entry of the text puts it there and no later one settles what is there. -/
theorem C105_leaf (opts : DecOpts) (hx : opts.expand = true) (text : Str) (es : List (Str × Bool × ETree F)) (v : Json F)
    (h : TextMeans opts.indent opts.strict (splitOn '\n' text) (.obj es)) (hv : decode opts text = .ok v)
    (path : List Str) (x : Json F) (hn : ∀ o, x ≠ .obj o) :
    follow path v = some x ↔
    ∃ pre e post, es = pre ++ e :: post ∧ follow path (standsFor es e) = some x ∧ ∀ f ∈ post, ¬ Settles (standsFor es f) path := by
  obtain ⟨rfl, _⟩ := origin_tree hx h hv
  rw [expandedEntries_follow (quotedIn es) path x hn es []]
  simp only [standsFor_obj]
  refine ⟨fun h => h.elim id fun ⟨h1, _⟩ => ?_, .inl⟩
  cases path with
  | nil => simp only [follow, Option.some.injEq] at h1; exact absurd h1.symm (hn [])
  | cons k p => simp [follow, lookupKey] at h1

/-- C105.  There is an object at a place exactly if an entry has one there and no later one has something else there or on the
way there. -/
theorem C105_object (opts : DecOpts) (hx : opts.expand = true) (text : Str) (es : List (Str × Bool × ETree F)) (v : Json F)
    (h : TextMeans opts.indent opts.strict (splitOn '\n' text) (.obj es)) (hv : decode opts text = .ok v)
    (path : List Str) (hp : path ≠ []) :
    (∃ o, follow path v = some (.obj o)) ↔
    ∃ pre e post, es = pre ++ e :: post ∧ (∃ o, follow path (standsFor es e) = some (.obj o)) ∧
      ∀ f ∈ post, ¬ Blocks (standsFor es f) path := by
  obtain ⟨rfl, _⟩ := origin_tree hx h hv
  rw [expandedEntries_followObject (quotedIn es) path es []]
  simp only [standsFor_obj]
  refine ⟨fun h => h.elim id fun ⟨⟨o, h1⟩, _⟩ => ?_, .inl⟩
  cases path with
  | nil => exact absurd rfl hp
  | cons k p => simp [follow, lookupKey] at h1

omit [F64 F] [LawfulF64 F] in
theorem quarrel_split {es pre post : List (Str × Bool × ETree F)} {e f : Str × Bool × ETree F} (h : es = pre ++ e :: post)
    (hf : f ∈ pre ++ post) (hc : Collide (standsFor es e) (standsFor es f)) : Quarrel es := by
  rcases List.mem_append.mp hf with hf | hf
  · refine ⟨f, e, ?_, (C104_symm _ _).mp hc⟩
    rw [h]
    exact (List.singleton_sublist.mpr hf).append (.cons_cons _ (List.nil_sublist _))
  · refine ⟨e, f, ?_, hc⟩
    rw [h]
    exact (List.Sublist.cons_cons _ (List.singleton_sublist.mpr hf)).trans (List.sublist_append_right _ _)

/-- C105.  In strict mode exactly one entry has a say in it. -/
theorem C105_strict (opts : DecOpts) (hx : opts.expand = true) (hs : opts.strict = true) (text : Str)
    (es : List (Str × Bool × ETree F)) (v : Json F)
    (h : TextMeans opts.indent opts.strict (splitOn '\n' text) (.obj es)) (hv : decode opts text = .ok v)
    (path : List Str) (x : Json F) (hn : ∀ o, x ≠ .obj o) :
    (follow path v = some x ↔ ∃ e ∈ es, follow path (standsFor es e) = some x) ∧
    (follow path v = some x → ∃ pre e post, es = pre ++ e :: post ∧ follow path (standsFor es e) = some x ∧
      ∀ f ∈ pre ++ post, ¬ Settles (standsFor es f) path) := by
  have hq := (origin_tree hx h hv).2 hs
  have hl := C105_leaf opts hx text es v h hv path x hn
  have all : ∀ pre e post, es = pre ++ e :: post → follow path (standsFor es e) = some x →
      ∀ f ∈ pre ++ post, ¬ Settles (standsFor es f) path :=
    fun pre e post h1 h2 f hf h3 => hq (quarrel_split h1 hf (collide_settles h2 hn h3))
  refine ⟨⟨fun h1 => ?_, fun ⟨e, he, h1⟩ => ?_⟩, fun h1 => ?_⟩
  · obtain ⟨pre, e, post, h2, h3, _⟩ := hl.mp h1
    exact ⟨e, by rw [h2]; simp, h3⟩
  · obtain ⟨pre, post, h2⟩ := List.append_of_mem he
    exact hl.mpr ⟨pre, e, post, h2, h1, fun f hf => all pre e post h2 h1 f (List.mem_append_right _ hf)⟩
  · obtain ⟨pre, e, post, h2, h3, _⟩ := hl.mp h1
    exact ⟨pre, e, post, h2, h3, all pre e post h2 h3⟩

end

/-! ## Non-vacuity -/

namespace JoinExpanded

def laxEntries : List (Str × Bool × ETree B64) :=
  [("a".toList, false, .prim (.str "u".toList)), ("a.b".toList, false, .prim (.str "v".toList)),
   ("a.c".toList, false, .prim (.str "w".toList))]

theorem lax_means : TextMeans 2 false (splitOn '\n' "a: u\na.b: v\na.c: w".toList) (.obj laxEntries) := by
  obtain ⟨t, h1, h2⟩ := (C58_events 2 false (splitOn '\n' "a: u\na.b: v\na.c: w".toList) (ETree.obj laxEntries).events).mp
    (by decide +kernel)
  cases events_inj h2
  exact h1

/-- C105_leaf and C105_object: the second entry takes the place of the first, the third joins it. -/
example : (follow ["a".toList, "b".toList] (.obj [("a".toList, .obj [("b".toList, .prim (.str "v".toList)), ("c".toList, .prim (.str "w".toList))])]) =
      some (.prim (.str "v".toList : Prim B64)) ↔
    ∃ pre e post, laxEntries = pre ++ e :: post ∧ follow ["a".toList, "b".toList] (standsFor laxEntries e) = some (.prim (.str "v".toList)) ∧
      ∀ f ∈ post, ¬ Settles (standsFor laxEntries f) ["a".toList, "b".toList]) :=
  C105_leaf laxly rfl "a: u\na.b: v\na.c: w".toList laxEntries _ lax_means (by decide +kernel) _ _ (by simp)

example : (∃ o, follow ["a".toList] (.obj [("a".toList, .obj [("b".toList, .prim (.str "v".toList)), ("c".toList, .prim (.str "w".toList))])]) =
      some (.obj o : Json B64)) ↔
    ∃ pre e post, laxEntries = pre ++ e :: post ∧ (∃ o, follow ["a".toList] (standsFor laxEntries e) = some (.obj o)) ∧
      ∀ f ∈ post, ¬ Blocks (standsFor laxEntries f) ["a".toList] :=
  C105_object laxly rfl "a: u\na.b: v\na.c: w".toList laxEntries _ lax_means (by decide +kernel) _ (by simp)

/-- C105_strict: the first text of C102. -/
example : ∃ e ∈ firstEntries, follow ["c".toList, "x".toList] (standsFor firstEntries e) = some (.prim (.str "v".toList : Prim B64)) := by
  obtain ⟨t, h1, h2⟩ := (C58_events 2 true (splitOn '\n' "a.b: u\nc:\n  x: v".toList) (ETree.obj firstEntries).events).mp
    (by decide +kernel)
  cases events_inj h2
  exact (C105_strict strictly rfl rfl "a.b: u\nc:\n  x: v".toList firstEntries
    (.obj [("a".toList, .obj [("b".toList, .prim (.str "u".toList))]), ("c".toList, .obj [("x".toList, .prim (.str "v".toList))])])
    h1 (by decide +kernel) _ _ (by simp)).1.mp (by decide +kernel)

end JoinExpanded

end Toon
