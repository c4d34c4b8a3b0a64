import Verif.Lemmas.EventLanguage
import Verif.Props.JsonOutput

/-!
# C69: which event sequences the public consumers of events accept

`Builds`, `Prints` and so on are in `Verif/Spec/EventLanguage.lean`.
-/

namespace Toon

variable {F : Type}

/-- **C69 (building).**  A value is built exactly from one or more values one after another, and the last of them is the
result; every other sequence of events is refused. -/
theorem C69_build (evs : List (Ev F)) (v : Node F) :
    buildNode evs = .ok v ↔ ∃ before last vs, evs = before ++ last ∧ BuildsItems before vs ∧ Builds last v := buildNode_iff evs v

/-- The tree that is left when keys without a value are dropped. -/
def Kept (evs : List (Ev F)) (v : Node F) : Prop := ∃ t : ETree F, t.events.Sublist evs ∧ nodeToJson v = t.json

mutual
theorem builds_kept {evs : List (Ev F)} {v : Node F} : Builds evs v → Kept evs v
  | .prim p => ⟨.prim p, List.Sublist.refl _, rfl⟩
  | .arr n h =>
    have ⟨ts, h1, h2⟩ := buildsItems_kept h
    ⟨.arr n ts, by rw [ETree.events]; exact (h1.append (List.Sublist.refl _)).cons₂ _, by rw [nodeToJson, ETree.json, h2]⟩
  | .obj h =>
    have ⟨ts, h1, h2⟩ := buildsEntries_kept h
    ⟨.obj ts, by rw [ETree.events]; exact (h1.append (List.Sublist.refl _)).cons₂ _, by rw [nodeToJson, ETree.json, h2]⟩
theorem buildsItems_kept {evs : List (Ev F)} {vs : List (Node F)} : BuildsItems evs vs →
    ∃ ts : List (ETree F), (ETree.eventsItems ts).Sublist evs ∧ nodesToJson vs = ETree.jsonItems ts
  | .nil => ⟨[], List.Sublist.refl _, rfl⟩
  | .cons h ht =>
    have ⟨t, h1, h2⟩ := builds_kept h
    have ⟨ts, h3, h4⟩ := buildsItems_kept ht
    ⟨t :: ts, by rw [ETree.eventsItems]; exact h1.append h3, by rw [nodesToJson, ETree.jsonItems, h2, h4]⟩
theorem buildsEntries_kept {evs : List (Ev F)} {es : List (Str × Node F)} {qs : List Str} : BuildsEntries evs es qs →
    ∃ ts : List (Str × Bool × ETree F), (ETree.eventsEntries ts).Sublist evs ∧ entriesToJson es = ETree.jsonEntries ts
  | .nil => ⟨[], List.Sublist.refl _, rfl⟩
  | .entry k q h ht =>
    have ⟨t, h1, h2⟩ := builds_kept h
    have ⟨ts, h3, h4⟩ := buildsEntries_kept ht
    ⟨(k, q, t) :: ts, by rw [ETree.eventsEntries]; exact (h1.append h3).cons₂ _, by rw [entriesToJson, ETree.jsonEntries, h2, h4]⟩
  | .drop k q ht =>
    have ⟨ts, h3, h4⟩ := buildsEntries_kept ht
    ⟨ts, h3.cons _, h4⟩
end

/-- C69.  The value built is that of a well-formed tree, whose events are among the given ones in the same order: nothing
is invented, but events can be ignored. -/
theorem C69_build_kept (evs : List (Ev F)) (v : Node F) (h : buildNode evs = .ok v) :
    ∃ t : ETree F, t.events.Sublist evs ∧ nodeToJson v = t.json := by
  obtain ⟨a, b, vs, rfl, _, hb⟩ := (C69_build evs v).mp h
  obtain ⟨t, h1, h2⟩ := builds_kept hb
  exact ⟨t, h1.trans (List.sublist_append_right a b), h2⟩

section
variable [F64 F] [JsonNum F]

/-- **C69 (printing).**  The sequences of events that the JSON printer accepts, and the text it writes. -/
theorem C69_print (indent : Nat) (evs : List (Ev F)) (text : Str) :
    (∃ chunks, jsonStreamFromEvents evs indent = .ok chunks ∧ chunks.flatten = text) ↔ PrintsRoots indent evs text :=
  jsonStream_iff indent evs text

mutual
theorem builds_prints (indent d : Nat) {evs : List (Ev F)} {v : Node F} : Builds evs v → (∃ p, evs = [.prim p]) ∨ ∃ s, Prints indent d evs s
  | .prim p => .inl ⟨p, rfl⟩
  | .arr n h => have ⟨_, h1⟩ := buildsItems_prints indent (d + 1) false h; .inr ⟨_, .arr d n h1⟩
  | .obj h => have ⟨_, h1⟩ := buildsEntries_prints indent (d + 1) false h; .inr ⟨_, .obj d h1⟩
theorem buildsItems_prints (indent d : Nat) (c : Bool) {evs : List (Ev F)} {vs : List (Node F)} : BuildsItems evs vs → ∃ s, PrintsItems indent d c evs s
  | .nil => ⟨[], .nil d c⟩
  | .cons h ht =>
    have ⟨_, h2⟩ := buildsItems_prints indent d true ht
    match builds_prints indent d h with
    | .inl ⟨p, h1⟩ => by subst h1; exact ⟨_, .prim d c p h2⟩
    | .inr ⟨_, h1⟩ => ⟨_, .cons d c h1 h2⟩
theorem buildsEntries_prints (indent d : Nat) (c : Bool) {evs : List (Ev F)} {es : List (Str × Node F)} {qs : List Str} :
    BuildsEntries evs es qs → ∃ s, PrintsBody indent d c evs s
  | .nil => ⟨[], .nil d c⟩
  | .entry k q h ht =>
    have ⟨_, h2⟩ := buildsEntries_prints indent d true ht
    match builds_prints indent d h with
    | .inl ⟨p, h1⟩ => by subst h1; exact ⟨_, .prim d c k q p h2⟩
    | .inr ⟨_, h1⟩ => ⟨_, .key d c k q (.container d true h1 h2)⟩
  | .drop k q ht => have ⟨_, h2⟩ := buildsEntries_prints indent d true ht; ⟨_, .key d c k q h2⟩
end

/-- C69.  The printer refuses no sequence that the builder accepts.  (The converse is false: `C69_print_more`.) -/
theorem C69_build_printed (indent : Nat) (evs : List (Ev F)) (v : Node F) (h : buildNode evs = .ok v) :
    ∃ chunks, jsonStreamFromEvents evs indent = .ok chunks := by
  obtain ⟨a, b, vs, rfl, ha, hb⟩ := (C69_build evs v).mp h
  have key : ∀ (vs : List (Node F)) (e : List (Ev F)), BuildsItems e vs → ∃ s, PrintsRoots indent e s := by
    intro vs
    induction vs with
    | nil => intro e h; cases h; exact ⟨[], .nil⟩
    | cons w ws ih =>
      intro e h
      cases h with
      | cons h1 h2 =>
        obtain ⟨s, hs⟩ := ih _ h2
        rcases builds_prints indent 0 h1 with ⟨p, rfl⟩ | ⟨r, hr⟩
        · exact ⟨_, .prim p hs⟩
        · exact ⟨_, .cons hr hs⟩
  obtain ⟨s, hs⟩ := key _ _ (buildsItems_append ha (builds_one hb))
  obtain ⟨cs, h1, _⟩ := (C69_print indent _ s).mpr hs
  exact ⟨cs, h1⟩

end

/-! ## Concrete cases -/

open JsonOutput in
/-- C69.  The printer accepts an object without a key inside an object, and no events at all; the builder refuses both. -/
theorem C69_print_more :
    stream 0 [.startObj, .startObj, .endObj, .endObj] = some "{{}}" ∧ built [.startObj, .startObj, .endObj, .endObj] = none ∧
    stream 0 [] = some "" ∧ built [] = none := by decide +kernel

/-- A sequence with two roots, two keys in a row (the first one quoted), a key at the end without a value and wrong declared
lengths. -/
example : Builds (F := B64) [.startObj, .key ['a'] true, .key ['b'] false, .startArr 7, .prim .null, .endArr, .key ['c'] true, .endObj]
    (.obj [(['b'], .arr [.prim .null])] [['c'], ['a']]) :=
  .obj (.drop ['a'] true (.entry ['b'] false (.arr 7 (.cons (.prim .null) .nil)) (.drop ['c'] true .nil)))

open JsonOutput in
example : built [.prim .null, .startObj, .key ['a'] true, .key ['b'] false, .startArr 7, .prim .null, .endArr, .key ['c'] true, .endObj] =
    some (.obj [(['b'], .arr [.prim .null])]) := by decide +kernel

open JsonOutput in
/-- The printed text of this sequence. -/
example : stream 1 [.prim .null, .startObj, .key ['a'] true, .key ['b'] false, .startArr 7, .prim .null, .endArr, .key ['c'] true, .endObj] =
    some "null{\n \"a\": ,\n \"b\": [\n  null\n ],\n \"c\": \n}" := by decide +kernel

/-- Unclosed arrays are refused by both. -/
example : (buildNode (F := B64) [.startArr 1, .prim .null]).toOption.isNone ∧ (jsonStreamFromEvents (F := B64) [.startArr 1, .prim .null] 0).toOption.isNone := by
  decide +kernel

end Toon
