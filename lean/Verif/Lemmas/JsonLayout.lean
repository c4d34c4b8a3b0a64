import Verif.Lemmas.JsonPrint

/-! # When two ways of writing strings give the same JSON text -/

namespace Toon

variable {F : Type}

mutual
/-- Layouts with string writers that agree on the strings and keys of the value are equal. -/
theorem layout_congr {P : Str → Prop} {f g : Str → Str} (num : F → Str) (hfg : ∀ s, P s → f s = g s)
    (indent depth : Nat) : (v : Json F) → AllStrings P v → jsonLayout f num indent depth v = jsonLayout g num indent depth v
  | .prim .null, _ => rfl
  | .prim (.bool _), _ => rfl
  | .prim (.num _), _ => rfl
  | .prim (.str s), h => hfg s h
  | .arr [], _ => rfl
  | .arr (v :: vs), h => by
    rw [jsonLayout, jsonLayout, layoutItems_congr num hfg indent (depth + 1) (v :: vs) h]
  | .obj [], _ => rfl
  | .obj (e :: es), h => by
    rw [jsonLayout, jsonLayout, layoutMembers_congr num hfg indent (depth + 1) (e :: es) h]
theorem layoutItems_congr {P : Str → Prop} {f g : Str → Str} (num : F → Str) (hfg : ∀ s, P s → f s = g s)
    (indent depth : Nat) : (vs : List (Json F)) → AllStringsItems P vs →
      jsonLayoutItems f num indent depth vs = jsonLayoutItems g num indent depth vs
  | [], _ => rfl
  | v :: vs, h => by
    rw [jsonLayoutItems, jsonLayoutItems, layout_congr num hfg indent depth v h.1,
      layoutItems_congr num hfg indent depth vs h.2]
theorem layoutMembers_congr {P : Str → Prop} {f g : Str → Str} (num : F → Str) (hfg : ∀ s, P s → f s = g s)
    (indent depth : Nat) : (es : List (Str × Json F)) → AllStringsEntries P es →
      jsonLayoutMembers f num indent depth es = jsonLayoutMembers g num indent depth es
  | [], _ => rfl
  | (k, v) :: es, h => by
    rw [jsonLayoutMembers, jsonLayoutMembers, hfg k h.1, layout_congr num hfg indent depth v h.2.1,
      layoutMembers_congr num hfg indent depth es h.2.2]
end

mutual
theorem allPrims_mono {P Q : Prim F → Prop} (h : ∀ p, P p → Q p) : (v : Json F) → AllPrims P v → AllPrims Q v
  | .prim p, hp => h p hp
  | .arr items, hp => allPrimsItems_mono h items hp
  | .obj es, hp => allPrimsEntries_mono h es hp
theorem allPrimsItems_mono {P Q : Prim F → Prop} (h : ∀ p, P p → Q p) : (vs : List (Json F)) → AllPrimsItems P vs →
    AllPrimsItems Q vs
  | [], _ => trivial
  | v :: vs, hp => ⟨allPrims_mono h v hp.1, allPrimsItems_mono h vs hp.2⟩
theorem allPrimsEntries_mono {P Q : Prim F → Prop} (h : ∀ p, P p → Q p) : (es : List (Str × Json F)) →
    AllPrimsEntries P es → AllPrimsEntries Q es
  | [], _ => trivial
  | (_, v) :: es, hp => ⟨allPrims_mono h v hp.1, allPrimsEntries_mono h es hp.2⟩
end

theorem escape_agree {c : Char} (h : PlainJsonChar c) : jsonEscapeChar c = serdeEscapeChar c := by
  obtain ⟨h1, h2, h3⟩ := h
  have hn : ∀ d : Char, c = d ↔ c.toNat = d.toNat := fun d => ⟨fun h => by rw [h], eq_of_toNat⟩
  unfold jsonEscapeChar serdeEscapeChar isControl
  by_cases e1 : c = '"'
  · rw [if_pos e1, if_pos e1]
  by_cases e2 : c = '\\'
  · rw [if_neg e1, if_pos e2, if_neg e1, if_pos e2]
  rw [if_neg e1, if_neg e2, if_neg e1, if_neg e2, if_neg h1]
  by_cases e3 : c = '\n'
  · subst e3; rfl
  by_cases e4 : c = '\r'
  · subst e4; rfl
  by_cases e5 : c = '\t'
  · subst e5; rfl
  rw [if_neg e3, if_neg e4, if_neg e5]
  have e3' : ¬ c.toNat = 0x0a := mt (hn '\n').2 e3
  have e4' : ¬ c.toNat = 0x0d := mt (hn '\r').2 e4
  have e5' : ¬ c.toNat = 0x09 := mt (hn '\t').2 e5
  rw [if_neg e5', if_neg e3', if_neg h2, if_neg e4']
  by_cases h6 : c.toNat < 0x20
  · rw [if_pos (by simp; omega), if_pos h6]
    unfold hex4
    have a : c.toNat / 4096 % 16 = 0 := by omega
    have b : c.toNat / 256 % 16 = 0 := by omega
    have d : c.toNat / 16 % 16 = c.toNat / 16 := by omega
    rw [a, b, d]
    rfl
  · rw [if_neg (by simp; omega), if_neg h6]

theorem string_agree {s : Str} (h : ∀ c ∈ s, PlainJsonChar c) : jsonString s = serdeString s := by
  unfold jsonString serdeString
  have : s.flatMap jsonEscapeChar = s.flatMap serdeEscapeChar := by
    induction s with
    | nil => rfl
    | cons c s ih =>
      rw [List.flatMap_cons, List.flatMap_cons, escape_agree (h c (by simp)), ih fun d hd => h d (by simp [hd])]
  rw [this]

end Toon
