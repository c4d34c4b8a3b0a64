import Verif.Lemmas.Override
import Verif.Props.Origin

/-!
# C106: an entry added at the end of a text

`follow` (the value at a path of keys) is in `Spec/Clashes.lean`, `Settles` and `IsSet` in `Spec/Origin.lean`, `SameQuotes` in
`Spec/Quotes.lean`, `keyPath` in `Spec/Expansion.lean`.
-/

namespace Toon

section
variable {F : Type} [F64 F] [LawfulF64 F]

omit [F64 F] [LawfulF64 F] in
theorem quotedIn_single (k : Str) (q : Bool) (t : ETree F) : quotedIn [(k, q, t)] k = q := by
  simp [quotedIn]

omit [F64 F] [LawfulF64 F] in
theorem expanded_noObject {t : ETree F} (h : ∀ fs, t ≠ .obj fs) : NoObject (expanded t) := by
  match t with
  | .prim p => simp only [expanded]; exact noObject_prim p
  | .arr n ts => simp only [expanded]; exact noObject_arr _
  | .obj fs => exact absurd rfl (h fs)

omit [F64 F] [LawfulF64 F] in
/-- What a text with one more entry expands to. -/
theorem expanded_more {es : List (Str × Bool × ETree F)} {k : Str} {q : Bool} {t : ETree F} (hq : SameQuotes (es ++ [(k, q, t)])) :
    expanded (.obj (es ++ [(k, q, t)])) = deepMerge (expanded (.obj es)) (nested (keyPath q k) (expanded t)) := by
  have h1 := expandedEntries_paths es (keyPath_part hq (es := es) (by intro e he; simp [he])) []
  have h2 := keyPath_part hq (es := [(k, q, t)]) (by intro e he; simp at he; simp [he]) (k, q, t) (by simp)
  simp only [quotedIn_single] at h2
  simp only [expanded]
  rw [expandedEntries_append, h1.1]
  simp only [expandedEntries, h2]
  cases hk : keyPath q k with
  | nil => exact absurd hk (keyPath_ne _ _)
  | cons s ss => simp only [nested, atPath, deepMerge]

/-- C106.  In lax mode with path expansion a line at the end of the text sets a value, whatever was there. -/
theorem C106_lax (opts : DecOpts) (hx : opts.expand = true) (hs : opts.strict = false) (text line : Str)
    (es : List (Str × Bool × ETree F)) (k : Str) (q : Bool) (t : ETree F)
    (hr : decodeStreamUnread opts.indent opts.strict (splitOn '\n' text) = .ok ((ETree.obj es).events, 0))
    (hr' : decodeStream opts.indent opts.strict (splitOn '\n' line) = .ok (ETree.obj [(k, q, t)]).events)
    (hm : StartsAtMargin (splitOn '\n' line)) (hq : SameQuotes (es ++ [(k, q, t)])) (ht : ∀ fs, t ≠ .obj fs)
    (hd : pathHeight (.obj es) ≤ 127) (hd' : pathHeight (.obj [(k, q, t)]) ≤ 127) :
    ∃ v v' : Json F, decode opts text = .ok v ∧ decode opts (text ++ '\n' :: line) = .ok v' ∧
      IsSet (keyPath q k) (expanded t) v v' := by
  have hr0 : decodeStream (F := F) opts.indent opts.strict (splitOn '\n' text) = .ok (ETree.obj es).events := by
    rw [← C38_same_events, hr]; rfl
  obtain ⟨t₁, h1, h2⟩ := (C58_events _ _ _ _).mp hr0
  cases events_inj h2
  have hj := joined_means hr hr' hm
  rw [← splitOn_append_any] at hj
  have lax : ∀ (s : Str) (u : ETree F), TextMeans opts.indent opts.strict (splitOn '\n' s) u → pathHeight u ≤ 127 →
      decode opts s = .ok (expanded u) := by
    intro s u hu hh
    rcases C102_depth opts hx s u hu hh with ⟨h3, _⟩ | ⟨h3, _⟩
    · exact h3
    · rw [hs] at h3; simp at h3
  refine ⟨_, _, lax _ _ h1 hd, lax _ _ hj (by rw [pathHeight_joined hq]; omega), ?_⟩
  rw [expanded_more hq]
  exact ⟨follow_set (expanded_noObject ht) _ _, fun p h3 h4 => follow_way _ _ p _ h3 h4, fun p h3 h4 => follow_apart _ _ p _ h3 h4⟩

/-- C106.  In strict mode it adds the value, and is refused exactly if there was anything at the end of its path, or something
that is not an object on the way. -/
theorem C106_strict (opts : DecOpts) (hx : opts.expand = true) (hs : opts.strict = true) (text line : Str)
    (es : List (Str × Bool × ETree F)) (k : Str) (q : Bool) (t : ETree F) (v w : Json F)
    (h₁ : decode opts text = .ok v) (h₂ : decode opts line = .ok w)
    (hr : decodeStreamUnread opts.indent opts.strict (splitOn '\n' text) = .ok ((ETree.obj es).events, 0))
    (hr' : decodeStream opts.indent opts.strict (splitOn '\n' line) = .ok (ETree.obj [(k, q, t)]).events)
    (hm : StartsAtMargin (splitOn '\n' line)) (hq : SameQuotes (es ++ [(k, q, t)])) (ht : ∀ fs, t ≠ .obj fs)
    (hd : height v ≤ 127) (hd' : height w ≤ 127) :
    (¬ Settles v (keyPath q k) →
      ∃ v' : Json F, decode opts (text ++ '\n' :: line) = .ok v' ∧ IsSet (keyPath q k) (expanded t) v v') ∧
    (Settles v (keyPath q k) → ∃ c, decode (F := F) opts (text ++ '\n' :: line) = .error (.pathConflict c)) := by
  have hr0 : decodeStream (F := F) opts.indent opts.strict (splitOn '\n' text) = .ok (ETree.obj es).events := by
    rw [← C38_same_events, hr]; rfl
  obtain ⟨e1, _⟩ := strict_tree hx hs h₁ hr0
  obtain ⟨e2, _⟩ := strict_tree hx hs h₂ hr'
  have hw : w = nested (keyPath q k) (expanded t) := by
    rw [← e2]
    have := expanded_more (es := []) (k := k) (q := q) (t := t) (sameQuotes_sub hq (by intro e he; simp at he; simp [he]))
    simp only [List.nil_append] at this
    rw [this]
    cases hk : keyPath q k with
    | nil => exact absurd hk (keyPath_ne _ _)
    | cons s ss =>
      simp only [expanded, expandedEntries, nested, deepMerge]
      simp [mergeObj, lookupKey]
  cases hk : keyPath q k with
  | nil => exact absurd hk (keyPath_ne _ _)
  | cons s ss =>
    rw [hk] at hw
    simp only [nested] at hw
    have ev : v = .obj (expandedEntries (quotedIn es) es []) := by rw [← e1, expanded]
    have hj := C102_joined opts hx hs text line es [(k, q, t)] (expandedEntries (quotedIn es) es []) [(s, nested ss (expanded t))]
      (by rw [← ev]; exact h₁) (by rw [← hw]; exact h₂) hr hr' hm hq (by rw [← ev]; exact hd) (by rw [← hw]; exact hd')
    have hc := clash_collide v w (by rw [← e2]; exact expanded_distinct _)
    have hp := collide_path (expanded_noObject ht) v (s :: ss)
    have hm' : deepMerge v w = .obj (mergeObj (expandedEntries (quotedIn es) es []) [(s, nested ss (expanded t))]) := by
      rw [ev, hw, deepMerge]
    have hcl : clash v w = clashEntries (expandedEntries (quotedIn es) es []) [(s, nested ss (expanded t))] := by
      rw [ev, hw, clash]
    simp only [nested] at hp
    rw [← hw, ← hc, hcl] at hp
    refine ⟨fun hn => ⟨_, hj.1 (by rw [← hp] at hn; simpa using hn), ?_⟩, fun h => hj.2 (hp.mpr h)⟩
    rw [← hm', hw]
    exact ⟨follow_set (expanded_noObject ht) (s :: ss) _, fun p h3 h4 => follow_way _ (s :: ss) p _ h3 h4,
      fun p h3 h4 => follow_apart _ (s :: ss) p _ h3 h4⟩

end

/-! ## Non-vacuity -/

namespace JoinExpanded

def settings : List (Str × Bool × ETree B64) :=
  [("a".toList, false, .obj [("b".toList, false, .prim (.str "u".toList)), ("c".toList, false, .prim (.str "v".toList))])]

/-- C106_lax: one of two settings is replaced. -/
example : ∃ v v', decode (F := B64) laxly "a:\n  b: u\n  c: v".toList = .ok v ∧
    decode (F := B64) laxly ("a:\n  b: u\n  c: v".toList ++ '\n' :: "a.b: w".toList) = .ok v' ∧
    IsSet ["a".toList, "b".toList] (.prim (.str "w".toList)) v v' :=
  C106_lax laxly rfl rfl "a:\n  b: u\n  c: v".toList "a.b: w".toList settings "a.b".toList false (.prim (.str "w".toList))
    (by decide +kernel) (by decide +kernel)
    (margin_cons (line := "a.b: w".toList) (b := []) (by decide) (by decide))
    (by intro e he f hf h _
        simp only [settings, List.cons_append, List.nil_append, List.mem_cons, List.not_mem_nil, or_false] at he hf
        rcases he with rfl | rfl <;> rcases hf with rfl | rfl <;> rfl)
    (by simp) (by decide +kernel) (by decide +kernel)

/-- C106_strict: in strict mode it is refused. -/
example : ∃ c, decode (F := B64) strictly ("a:\n  b: u\n  c: v".toList ++ '\n' :: "a.b: w".toList) = .error (.pathConflict c) :=
  (C106_strict strictly rfl rfl "a:\n  b: u\n  c: v".toList "a.b: w".toList settings "a.b".toList false (.prim (.str "w".toList))
    (.obj [("a".toList, .obj [("b".toList, .prim (.str "u".toList)), ("c".toList, .prim (.str "v".toList))])])
    (.obj [("a".toList, .obj [("b".toList, .prim (.str "w".toList))])]) (by decide +kernel) (by decide +kernel)
    (by decide +kernel) (by decide +kernel)
    (margin_cons (line := "a.b: w".toList) (b := []) (by decide) (by decide))
    (by intro e he f hf h _
        simp only [settings, List.cons_append, List.nil_append, List.mem_cons, List.not_mem_nil, or_false] at he hf
        rcases he with rfl | rfl <;> rcases hf with rfl | rfl <;> rfl)
    (by simp) (by decide +kernel) (by decide +kernel)).2 (.inr ⟨.prim (.str "u".toList), by decide +kernel⟩)

/-- Another setting can be added. -/
example : ∃ v', decode (F := B64) strictly ("a:\n  b: u\n  c: v".toList ++ '\n' :: "a.d: w".toList) = .ok v' := by
  obtain ⟨v', h, _⟩ := (C106_strict strictly rfl rfl "a:\n  b: u\n  c: v".toList "a.d: w".toList settings "a.d".toList false (.prim (.str "w".toList))
    (.obj [("a".toList, .obj [("b".toList, .prim (.str "u".toList)), ("c".toList, .prim (.str "v".toList))])])
    (.obj [("a".toList, .obj [("d".toList, .prim (.str "w".toList))])]) (by decide +kernel) (by decide +kernel)
    (by decide +kernel) (by decide +kernel)
    (margin_cons (line := "a.d: w".toList) (b := []) (by decide) (by decide))
    (by intro e he f hf h _
        simp only [settings, List.cons_append, List.nil_append, List.mem_cons, List.not_mem_nil, or_false] at he hf
        rcases he with rfl | rfl <;> rcases hf with rfl | rfl <;> rfl)
    (by simp) (by decide +kernel) (by decide +kernel)).1 (by
      have hk : keyPath false "a.d".toList = ["a".toList, "d".toList] := by decide +kernel
      rw [hk]
      rw [settles_cons]
      rintro ⟨x, hx, h⟩
      simp only [lookupKey, if_true, Option.some.injEq] at hx
      subst hx
      rw [settles_cons] at h
      obtain ⟨y, hy, _⟩ := h
      revert hy
      have : lookupKey "d".toList [("b".toList, Json.prim (.str "u".toList : Prim B64)), ("c".toList, .prim (.str "v".toList))] = none := by
        decide +kernel
      rw [this]; simp)
  exact ⟨v', h⟩

end JoinExpanded

end Toon
