import Verif.Lemmas.Clashes
import Verif.Props.JoinExpanded

/-!
# C104: what a path conflict is

`follow` (the value at a path of keys), `Collide`, `standsFor` (the nested objects of an entry), `Quarrel` (two entries of an
object that collide) and `ObjectIn` are in `Spec/Clashes.lean`.
-/

namespace Toon

section
variable {F : Type} [F64 F] [LawfulF64 F]

/-- C104.  A text is refused for a conflict exactly if two entries of one of its objects have something at the same place
that is not an object in both. -/
theorem C104_conflict (opts : DecOpts) (hx : opts.expand = true) (hs : opts.strict = true) (text : Str) (t : ETree F)
    (h : TextMeans opts.indent opts.strict (splitOn '\n' text) t) (hd : pathHeight t ≤ 127) :
    (∃ c, decode (F := F) opts text = .error (.pathConflict c)) ↔ ∃ es, ObjectIn es t ∧ Quarrel es := by
  rw [← conflicting_exactly]
  rcases C102_depth opts hx text t h hd with ⟨h1, h2⟩ | ⟨_, h2, c, h1⟩
  · rw [h1, h2 hs]; simp
  · rw [h1, h2]; simp

/-- C104.  Otherwise it is accepted. -/
theorem C104_accepted (opts : DecOpts) (hx : opts.expand = true) (hs : opts.strict = true) (text : Str) (t : ETree F)
    (h : TextMeans opts.indent opts.strict (splitOn '\n' text) t) (hd : pathHeight t ≤ 127) :
    (∃ v : Json F, decode opts text = .ok v) ↔ ∀ es, ObjectIn es t → ¬ Quarrel es := by
  have hq := C104_conflict opts hx hs text t h hd
  rcases C102_depth opts hx text t h hd with ⟨h1, _⟩ | ⟨_, _, c, h1⟩
  · rw [h1] at hq ⊢
    exact ⟨fun _ es h2 h3 => by simpa using hq.mpr ⟨es, h2, h3⟩, fun _ => ⟨_, rfl⟩⟩
  · rw [h1] at hq ⊢
    obtain ⟨es, h2, h3⟩ := hq.mp ⟨c, rfl⟩
    exact ⟨by simp, fun h4 => absurd h3 (h4 es h2)⟩

omit [F64 F] [LawfulF64 F] in
/-- C104.  Two values that are no objects, each under a path of keys, collide exactly if one path begins with the other. -/
theorem C104_paths (p q : List Str) (a b : Json F) (ha : ∀ es, a ≠ .obj es) (hb : ∀ es, b ≠ .obj es) :
    Collide (nested p a) (nested q b) ↔ p <+: q ∨ q <+: p :=
  collide_nested ha hb p q

omit [F64 F] [LawfulF64 F] in
/-- C104.  Which of the two comes first does not matter. -/
theorem C104_symm (a b : Json F) : Collide a b ↔ Collide b a :=
  ⟨fun ⟨p, x, y, h1, h2, h3⟩ => ⟨p, y, x, h2, h1, fun ⟨h4, h5⟩ => h3 ⟨h5, h4⟩⟩,
   fun ⟨p, x, y, h1, h2, h3⟩ => ⟨p, y, x, h2, h1, fun ⟨h4, h5⟩ => h3 ⟨h5, h4⟩⟩⟩

/-- C104.  A text of keys with scalars is refused exactly if the path of one key begins with the path of another. -/
theorem C104_scalars (opts : DecOpts) (hx : opts.expand = true) (hs : opts.strict = true) (text : Str)
    (es : List (Str × Bool × ETree F)) (h : TextMeans opts.indent opts.strict (splitOn '\n' text) (.obj es))
    (hp : ∀ e ∈ es, ∃ p, e.2.2 = .prim p) (hd : pathHeight (.obj es) ≤ 127) :
    (∃ c, decode (F := F) opts text = .error (.pathConflict c)) ↔
    ∃ e f, [e, f].Sublist es ∧
      (keyPath (quotedIn es e.1) e.1 <+: keyPath (quotedIn es f.1) f.1 ∨
       keyPath (quotedIn es f.1) f.1 <+: keyPath (quotedIn es e.1) e.1) := by
  have only : ∀ fs, ObjectIn fs (.obj es) ↔ fs = es := by
    intro fs
    constructor
    · intro h
      cases h with
      | here => rfl
      | entry he h =>
        obtain ⟨p, h1⟩ := hp _ he
        rw [h1] at h
        nomatch h
    · rintro rfl; exact .here
  have key : ∀ e f, [e, f].Sublist es → (Collide (standsFor es e) (standsFor es f) ↔
      (keyPath (quotedIn es e.1) e.1 <+: keyPath (quotedIn es f.1) f.1 ∨
       keyPath (quotedIn es f.1) f.1 <+: keyPath (quotedIn es e.1) e.1)) := by
    intro e f hl
    obtain ⟨p, h1⟩ := hp e (hl.subset (by simp))
    obtain ⟨q, h2⟩ := hp f (hl.subset (by simp))
    refine C104_paths _ _ _ _ ?_ ?_
    · rw [h1]; simp [expanded]
    · rw [h2]; simp [expanded]
  rw [C104_conflict opts hx hs text _ h hd]
  simp only [only, exists_eq_left, Quarrel]
  exact ⟨fun ⟨e, f, h1, h2⟩ => ⟨e, f, h1, (key e f h1).mp h2⟩, fun ⟨e, f, h1, h2⟩ => ⟨e, f, h1, (key e f h1).mpr h2⟩⟩

end

/-! ## Non-vacuity -/

namespace JoinExpanded

def scalarEntries : List (Str × Bool × ETree B64) :=
  [("a.b".toList, false, .prim (.str "u".toList)), ("c".toList, false, .prim (.str "v".toList)),
   ("a".toList, false, .prim (.str "w".toList))]

theorem scalar_means : TextMeans 2 true (splitOn '\n' "a.b: u\nc: v\na: w".toList) (.obj scalarEntries) := by
  obtain ⟨t, h1, h2⟩ := (C58_events 2 true (splitOn '\n' "a.b: u\nc: v\na: w".toList) (ETree.obj scalarEntries).events).mp
    (by decide +kernel)
  cases events_inj h2
  exact h1

/-- C104_scalars: `a` and `a.b` conflict, with another entry between them. -/
example : ∃ c, decode (F := B64) strictly "a.b: u\nc: v\na: w".toList = .error (.pathConflict c) :=
  (C104_scalars strictly rfl rfl _ _ scalar_means
    (by intro e he; simp only [scalarEntries, List.mem_cons, List.not_mem_nil, or_false] at he
        rcases he with rfl | rfl | rfl <;> exact ⟨_, rfl⟩) (by decide +kernel)).mpr
    ⟨("a.b".toList, false, .prim (.str "u".toList)), ("a".toList, false, .prim (.str "w".toList)), by
      unfold scalarEntries
      exact .cons_cons _ (.cons _ (.cons_cons _ .slnil)), .inr (by decide +kernel)⟩

/-- C104_conflict: the same text, with the place where the two entries collide. -/
example : ∃ c, decode (F := B64) strictly "a.b: u\nc: v\na: w".toList = .error (.pathConflict c) :=
  (C104_conflict strictly rfl rfl _ _ scalar_means (by decide +kernel)).mpr
    ⟨scalarEntries, .here, ("a.b".toList, false, .prim (.str "u".toList)), ("a".toList, false, .prim (.str "w".toList)), by
      unfold scalarEntries
      exact .cons_cons _ (.cons _ (.cons_cons _ .slnil)),
      ["a".toList], .obj [("b".toList, .prim (.str "u".toList))], .prim (.str "w".toList), by decide +kernel, by decide +kernel,
      by simp⟩

/-- C104_accepted: the first text of C102 has no two entries that collide. -/
example : ∀ es, ObjectIn es (.obj firstEntries) → ¬ Quarrel es := by
  obtain ⟨t, h1, h2⟩ := (C58_events 2 true (splitOn '\n' "a.b: u\nc:\n  x: v".toList) (ETree.obj firstEntries).events).mp
    (by decide +kernel)
  cases events_inj h2
  exact (C104_accepted strictly rfl rfl _ _ h1 (by decide +kernel)).mp
    ⟨.obj [("a".toList, .obj [("b".toList, .prim (.str "u".toList))]), ("c".toList, .obj [("x".toList, .prim (.str "v".toList))])],
      by decide +kernel⟩

end JoinExpanded

end Toon
