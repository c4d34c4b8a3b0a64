import Verif.Lemmas.MergeAssoc
import Verif.Lemmas.Equiv

/-! Merging and the order of keys. -/

namespace Toon

section
variable {F : Type}

/-- Not an object. -/
def NoObject (v : Json F) : Prop := ∀ es, v ≠ .obj es

/-- The same keys, with values that agree; apart from objects, equal up to the order of keys. -/
inductive Accord : Json F → Json F → Prop
  | leaf {a b : Json F} : NoObject a → NoObject b → a ≃ b → Accord a b
  | obj {as bs : List (Str × Json F)} : (∀ k, lookupKey k as = none ↔ lookupKey k bs = none) →
      (∀ k x y, lookupKey k as = some x → lookupKey k bs = some y → Accord x y) → Accord (.obj as) (.obj bs)

theorem noObject_prim (p : Prim F) : NoObject (.prim p) := fun _ h => nomatch h
theorem noObject_arr (xs : List (Json F)) : NoObject (.arr xs) := fun _ h => nomatch h

mutual
theorem accord_refl (v : Json F) : Accord v v := by
  match v with
  | .prim p => exact .leaf (noObject_prim p) (noObject_prim p) (.refl _)
  | .arr xs => exact .leaf (noObject_arr xs) (noObject_arr xs) (.refl _)
  | .obj es =>
    refine .obj (fun _ => Iff.rfl) fun k x y h1 h2 => ?_
    rw [h1] at h2
    cases h2
    exact accord_mem es (k, x) (lookup_mem h1)
theorem accord_mem (es : List (Str × Json F)) : ∀ e ∈ es, Accord e.2 e.2 := by
  match es with
  | [] => intro e he; simp at he
  | (k, v) :: es =>
    intro e he
    rcases List.mem_cons.mp he with rfl | he
    · exact accord_refl v
    · exact accord_mem es e he
end

theorem accord_trans {a b : Json F} (h : Accord a b) : ∀ {c : Json F}, Accord b c → Accord a c := by
  induction h with
  | leaf h1 h2 h3 =>
    intro c h
    cases h with
    | leaf _ h5 h6 => exact .leaf h1 h5 (.trans h3 h6)
    | obj _ _ => exact absurd rfl (h2 _)
  | obj h1 h2 ih =>
    intro c h
    cases h with
    | leaf h3 _ _ => exact absurd rfl (h3 _)
    | obj h3 h4 =>
      refine .obj (fun k => (h1 k).trans (h3 k)) fun k x z hx hz => ?_
      rename_i as bs cs
      cases hy : lookupKey k bs with
      | none => rw [(h1 k).mpr hy] at hx; simp at hx
      | some y => exact ih k x y hx hy (h4 k y z hy hz)

theorem accord_symm {a b : Json F} (h : Accord a b) : Accord b a := by
  induction h with
  | leaf h1 h2 h3 => exact .leaf h2 h1 h3.symm
  | obj h1 _ ih => exact .obj (fun k => (h1 k).symm) fun k x y hx hy => ih k y x hy hx

theorem lookup_perm {xs ys : List (Str × Json F)} (h : xs.Perm ys) (hn : (xs.map Prod.fst).Nodup) (k : Str) :
    lookupKey k xs = lookupKey k ys := by
  induction h with
  | nil => rfl
  | cons e _ ih =>
    obtain ⟨k', v⟩ := e
    simp only [List.map_cons, List.nodup_cons] at hn
    simp only [lookupKey, ih hn.2]
  | swap e f l =>
    obtain ⟨k₁, v₁⟩ := e
    obtain ⟨k₂, v₂⟩ := f
    simp only [List.map_cons, List.nodup_cons, List.mem_cons, not_or] at hn
    simp only [lookupKey]
    by_cases h1 : k₁ = k
    · by_cases h2 : k₂ = k
      · subst h1; exact absurd h2 hn.1.1
      · simp [h1, h2]
    · simp [h1]
  | trans h1 _ ih1 ih2 => rw [ih1 hn, ih2 ((h1.map Prod.fst).nodup_iff.mp hn)]

theorem accord_relEntries (as : List (Str × Json F)) : ∀ bs : List (Str × Json F), (as.map Prod.fst).Nodup → (bs.map Prod.fst).Nodup →
    (∀ k, lookupKey k as = none ↔ lookupKey k bs = none) →
    (∀ k x y, lookupKey k as = some x → lookupKey k bs = some y → x ≃ y) →
    ∃ bs', bs.Perm bs' ∧ RelEntries Json.Equiv as bs' := by
  induction as with
  | nil =>
    intro bs _ _ h _
    cases bs with
    | nil => exact ⟨[], .nil, trivial⟩
    | cons e bs => obtain ⟨k, v⟩ := e; have := (h k).mp rfl; simp [lookupKey] at this
  | cons e as ih =>
    obtain ⟨k, x⟩ := e
    intro bs hn hn' h1 h2
    simp only [List.map_cons, List.nodup_cons] at hn
    cases hy : lookupKey k bs with
    | none => have := (h1 k).mpr hy; simp [lookupKey] at this
    | some y =>
      obtain ⟨pre, post, rfl⟩ := List.append_of_mem (lookup_mem hy)
      have hp : (pre ++ (k, y) :: post).Perm ((k, y) :: (pre ++ post)) := List.perm_middle
      have hn2 := (hp.map Prod.fst).nodup_iff.mp hn'
      have hl := fun k' => lookup_perm hp hn' k'
      simp only [List.map_cons, List.nodup_cons] at hn2
      obtain ⟨bs', h3, h4⟩ := ih (pre ++ post) hn.2 hn2.2
        (by
          intro k'
          by_cases hk : k = k'
          · subst hk; rw [lookup_none, lookup_none]; exact ⟨fun _ => hn2.1, fun _ => hn.1⟩
          · have := h1 k'
            rw [hl] at this
            simpa only [lookupKey, if_neg hk] using this)
        (by
          intro k' x' y' hx' hy'
          have hk : k ≠ k' := by
            rintro rfl
            rw [lookup_none.mpr hn.1] at hx'; simp at hx'
          exact h2 k' x' y' (by simpa only [lookupKey, if_neg hk] using hx')
            (by rw [hl]; simpa only [lookupKey, if_neg hk] using hy'))
      exact ⟨(k, y) :: bs', hp.trans (h3.cons _), rfl, h2 k x y (by simp [lookupKey]) hy, h4⟩

/-- Values that agree are equal up to the order of keys. -/
theorem accord_equiv {a b : Json F} (h : Accord a b) : DistinctKeys a → DistinctKeys b → a ≃ b := by
  induction h with
  | leaf _ _ h => intro _ _; exact h
  | obj h1 h2 ih =>
    intro ha hb
    simp only [DistinctKeys] at ha hb
    obtain ⟨bs', h3, h4⟩ := accord_relEntries _ _ ha.1 hb.1 h1 fun k x y hx hy =>
      ih k x y hx hy (distinctEntries_iff.mp ha.2 _ (lookup_mem hx)) (distinctEntries_iff.mp hb.2 _ (lookup_mem hy))
    have := equiv_entries [] h4
    simp only [List.nil_append] at this
    exact .trans this (.perm h3.symm)

/-! ## Merging -/

theorem clashEntries_false {a b : List (Str × Json F)} (hn : (b.map Prod.fst).Nodup) :
    clashEntries a b = false ↔ ∀ k x y, lookupKey k a = some x → lookupKey k b = some y → clash x y = false := by
  induction b with
  | nil => simp [clashEntries, lookupKey]
  | cons e b ih =>
    obtain ⟨k0, v⟩ := e
    simp only [List.map_cons, List.nodup_cons] at hn
    rw [clashEntries_cons, Bool.or_eq_false_iff, ih hn.2, clashAt]
    constructor
    · rintro ⟨h1, h2⟩ k x y hx hy
      by_cases hk : k0 = k
      · subst hk
        simp only [lookupKey, if_true, Option.some.injEq] at hy
        subst hy
        rw [hx] at h1
        exact h1
      · exact h2 k x y hx (by simpa only [lookupKey, if_neg hk] using hy)
    · intro h
      refine ⟨?_, fun k x y hx hy => h k x y hx ?_⟩
      · cases hx : lookupKey k0 a with
        | none => rfl
        | some x => exact h k0 x v hx (by simp [lookupKey])
      · have hk : k0 ≠ k := by
          rintro rfl
          rw [lookup_none.mpr hn.1] at hy; simp at hy
        simpa only [lookupKey, if_neg hk] using hy

theorem deepMerge_noObject {a b : Json F} (h : NoObject b) : deepMerge a b = b := by
  cases b with
  | prim p => rw [deepMerge]
  | arr xs => rw [deepMerge]
  | obj es => exact absurd rfl (h es)

theorem deepMerge_intoNoObject {a : Json F} (h : NoObject a) (es : List (Str × Json F)) : deepMerge a (.obj es) = .obj es := by
  cases a with
  | prim p => simp [deepMerge]
  | arr xs => simp [deepMerge]
  | obj es' => exact absurd rfl (h es')

theorem clash_noObject {a b : Json F} (h : NoObject b) : clash a b = true := by
  cases b with
  | prim p => rw [clash]
  | arr xs => rw [clash]
  | obj es => exact absurd rfl (h es)

theorem clash_intoNoObject {a : Json F} (h : NoObject a) (b : Json F) : clash a b = true := by
  cases b with
  | prim p => rw [clash]
  | arr xs => rw [clash]
  | obj es =>
    cases a with
    | prim p => simp [clash]
    | arr xs => simp [clash]
    | obj es' => exact absurd rfl (h es')

theorem lookup_mergeNone {a b : List (Str × Json F)} {k : Str} (h : lookupKey k b = none) :
    lookupKey k (mergeObj a b) = lookupKey k a := mergeObj_lookup_other a b k (lookup_none.mp h)

theorem mergeObj_none {a b : List (Str × Json F)} (hn : (b.map Prod.fst).Nodup) (k : Str) :
    lookupKey k (mergeObj a b) = none ↔ lookupKey k a = none ∧ lookupKey k b = none := by
  cases h : lookupKey k b with
  | none => rw [lookup_mergeNone h]; simp
  | some c => rw [lookup_merged hn h]; simp

/-- Values that agree merge to values that agree, and replace something both or neither. -/
theorem deepMerge_accord {b b' : Json F} (h : Accord b b') : ∀ {a a' : Json F}, Accord a a' → DistinctKeys b → DistinctKeys b' →
    Accord (deepMerge a b) (deepMerge a' b') ∧ (clash a b = false → clash a' b' = false) := by
  induction h with
  | leaf h1 h2 h3 =>
    intro a a' _ _ _
    rw [deepMerge_noObject h1, deepMerge_noObject h2, clash_noObject h1]
    exact ⟨.leaf h1 h2 h3, by simp⟩
  | obj h1 h2 ih =>
    rename_i bs bs'
    intro a a' ha hb hb'
    simp only [DistinctKeys] at hb hb'
    cases ha with
    | leaf h3 h4 _ =>
      rw [deepMerge_intoNoObject h3, deepMerge_intoNoObject h4, clash_intoNoObject h3]
      exact ⟨.obj h1 h2, by simp⟩
    | obj h3 h4 =>
      rename_i as as'
      simp only [deepMerge, clash]
      have hi : ∀ k x y, lookupKey k bs = some x → lookupKey k bs' = some y → ∀ {a a' : Json F}, Accord a a' →
          Accord (deepMerge a x) (deepMerge a' y) ∧ (clash a x = false → clash a' y = false) := fun k x y hx hy _ _ ha =>
        ih k x y hx hy ha (distinctEntries_iff.mp hb.2 _ (lookup_mem hx)) (distinctEntries_iff.mp hb'.2 _ (lookup_mem hy))
      refine ⟨.obj (fun k => by rw [mergeObj_none hb.1, mergeObj_none hb'.1, h1 k, h3 k]) ?_, ?_⟩
      · intro k x y hx hy
        cases hb1 : lookupKey k bs with
        | none =>
          rw [lookup_mergeNone hb1] at hx
          rw [lookup_mergeNone ((h1 k).mp hb1)] at hy
          exact h4 k x y hx hy
        | some c =>
          cases hb2 : lookupKey k bs' with
          | none => rw [(h1 k).mpr hb2] at hb1; simp at hb1
          | some c' =>
            rw [lookup_merged hb.1 hb1] at hx
            rw [lookup_merged hb'.1 hb2] at hy
            cases ha1 : lookupKey k as with
            | none =>
              rw [ha1] at hx
              rw [(h3 k).mp ha1] at hy
              simp only [Option.some.injEq] at hx hy
              subst hx; subst hy
              exact h2 k _ _ hb1 hb2
            | some d =>
              cases ha2 : lookupKey k as' with
              | none => rw [(h3 k).mpr ha2] at ha1; simp at ha1
              | some d' =>
                rw [ha1] at hx
                rw [ha2] at hy
                simp only [Option.some.injEq] at hx hy
                subst hx; subst hy
                exact (hi k _ _ hb1 hb2 (h4 k d d' ha1 ha2)).1
      · rw [clashEntries_false hb.1, clashEntries_false hb'.1]
        intro h k x' y' hx' hy'
        cases ha1 : lookupKey k as with
        | none => rw [(h3 k).mp ha1] at hx'; simp at hx'
        | some x =>
          cases hb1 : lookupKey k bs with
          | none => rw [(h1 k).mp hb1] at hy'; simp at hy'
          | some y => exact (hi k y y' hb1 hy' (h4 k x x' ha1 hx')).2 (h k x y ha1 hb1)

mutual
/-- Merging is commutative up to the order of keys where nothing is replaced. -/
theorem deepMerge_comm (a b : Json F) (ha : DistinctKeys a) (hb : DistinctKeys b) (h : clash a b = false) :
    Accord (deepMerge a b) (deepMerge b a) ∧ clash b a = false := by
  match b with
  | .prim p => simp [clash] at h
  | .arr items => simp [clash] at h
  | .obj bs =>
    match a with
    | .prim p => simp [clash] at h
    | .arr items => simp [clash] at h
    | .obj as =>
      simp only [clash] at h
      simp only [DistinctKeys] at ha hb
      have hi := deepMerge_commEntries bs
      rw [clashEntries_false hb.1] at h
      simp only [deepMerge, clash]
      refine ⟨.obj (fun k => by rw [mergeObj_none hb.1, mergeObj_none ha.1, and_comm]) ?_, ?_⟩
      · intro k x y hx hy
        cases hb1 : lookupKey k bs with
        | none =>
          rw [lookup_mergeNone hb1] at hx
          rw [lookup_merged ha.1 hx, hb1] at hy
          simp only [Option.some.injEq] at hy
          subst hy
          exact accord_refl x
        | some c =>
          rw [lookup_merged hb.1 hb1] at hx
          cases ha1 : lookupKey k as with
          | none =>
            rw [ha1] at hx
            rw [lookup_mergeNone ha1, hb1] at hy
            simp only [Option.some.injEq] at hx hy
            subst hx; subst hy
            exact accord_refl _
          | some d =>
            rw [lookup_merged ha.1 ha1, hb1] at hy
            rw [ha1] at hx
            simp only [Option.some.injEq] at hx hy
            subst hx; subst hy
            exact (hi (k, c) (lookup_mem hb1) d (distinctEntries_iff.mp ha.2 _ (lookup_mem ha1))
              (distinctEntries_iff.mp hb.2 _ (lookup_mem hb1)) (h k d c ha1 hb1)).1
      · rw [clashEntries_false ha.1]
        intro k x y hx hy
        exact (hi (k, x) (lookup_mem hx) y (distinctEntries_iff.mp ha.2 _ (lookup_mem hy))
          (distinctEntries_iff.mp hb.2 _ (lookup_mem hx)) (h k y x hy hx)).2
theorem deepMerge_commEntries (b : List (Str × Json F)) : ∀ e ∈ b, ∀ a : Json F, DistinctKeys a → DistinctKeys e.2 →
    clash a e.2 = false → Accord (deepMerge a e.2) (deepMerge e.2 a) ∧ clash e.2 a = false := by
  match b with
  | [] => intro e he; simp at he
  | (k, v) :: b =>
    intro e he a ha hb h
    rcases List.mem_cons.mp he with rfl | he
    · exact deepMerge_comm a v ha hb h
    · exact deepMerge_commEntries b e he a ha hb h
end

end

end Toon
