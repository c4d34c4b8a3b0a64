import Verif.Lemmas.Reordered
import Verif.Spec.Clashes

/-! Conflicts are between two entries. -/

namespace Toon

section
variable {F : Type}

mutual
theorem clash_merged (a b c : Json F) (hb : DistinctKeys b) (hd : DistinctKeys c) (h : clash a b = false)
    (h1 : clash a c = false) (h2 : clash b c = false) : clash (deepMerge a b) c = false := by
  match c with
  | .prim p => simp [clash] at h1
  | .arr items => simp [clash] at h1
  | .obj cs =>
    match b with
    | .prim p => simp [clash] at h
    | .arr items => simp [clash] at h
    | .obj bs =>
      match a with
      | .prim p => simp [clash] at h
      | .arr items => simp [clash] at h
      | .obj as =>
        simp only [clash, deepMerge, DistinctKeys] at *
        rw [clashEntries_false hd.1] at h1 h2 ⊢
        rw [clashEntries_false hb.1] at h
        intro k x y hx hy
        cases hl : lookupKey k bs with
        | none => rw [lookup_mergeNone hl] at hx; exact h1 k x y hx hy
        | some e =>
          rw [lookup_merged hb.1 hl] at hx
          cases hl' : lookupKey k as with
          | none =>
            rw [hl'] at hx
            simp only [Option.some.injEq] at hx
            subst hx
            exact h2 k e y hl hy
          | some d =>
            rw [hl'] at hx
            simp only [Option.some.injEq] at hx
            subst hx
            exact clash_mergedEntries cs (k, y) (lookup_mem hy) d e (distinctEntries_iff.mp hb.2 _ (lookup_mem hl))
              (distinctEntries_iff.mp hd.2 _ (lookup_mem hy)) (h k d e hl' hl) (h1 k d y hl' hy) (h2 k e y hl hy)
theorem clash_mergedEntries (cs : List (Str × Json F)) : ∀ c ∈ cs, ∀ a b : Json F, DistinctKeys b → DistinctKeys c.2 →
    clash a b = false → clash a c.2 = false → clash b c.2 = false → clash (deepMerge a b) c.2 = false := by
  match cs with
  | [] => intro c hc; simp at hc
  | (k, v) :: cs =>
    intro c hc a b hb hd h h1 h2
    rcases List.mem_cons.mp hc with rfl | hc
    · exact clash_merged a b v hb hd h h1 h2
    · exact clash_mergedEntries cs c hc a b hb hd h h1 h2
end

/-- Into a merged object something can be merged exactly if it can be into both of its parts. -/
theorem clashEntries_both {a b c : List (Str × Json F)} (ha : Tidy a) (hb : Tidy b) (hc : Tidy c) (h : clashEntries a b = false) :
    clashEntries (mergeObj a b) c = false ↔ clashEntries a c = false ∧ clashEntries b c = false := by
  constructor
  · intro h1
    refine ⟨?_, clashEntries_second a b c hb.1 hb.2 h1⟩
    obtain ⟨h2, _⟩ := deepMerge_comm (.obj a) (.obj b) (by simp only [DistinctKeys]; exact ha)
      (by simp only [DistinctKeys]; exact hb) (by simpa only [clash] using h)
    simp only [deepMerge] at h2
    exact clashEntries_second b a c ha.1 ha.2 ((mergeObj_accord h2 (accord_refl (.obj c)) hc hc).2 h1)
  · rintro ⟨h1, h2⟩
    have := clash_merged (.obj a) (.obj b) (.obj c) (by simp only [DistinctKeys]; exact hb)
      (by simp only [DistinctKeys]; exact hc) (by simpa only [clash] using h) (by simpa only [clash] using h1)
      (by simpa only [clash] using h2)
    simpa only [deepMerge, clash] using this

/-- The nested objects of an entry. -/
def entryPath (q : Str → Bool) (e : Str × Bool × ETree F) : List (Str × Json F) :=
  atPath (keyPath (q e.1) e.1) (expanded e.2.2)

theorem conflictingEntries_pairs (q : Str → Bool) (es : List (Str × Bool × ETree F)) : ∀ acc : List (Str × Json F), Tidy acc →
    (conflictingEntries q es acc = false ↔
      (∀ e ∈ es, conflicting e.2.2 = false ∧ clashEntries acc (entryPath q e) = false) ∧
      es.Pairwise fun e f => clashEntries (entryPath q e) (entryPath q f) = false) := by
  induction es with
  | nil => intro acc _; simp [conflictingEntries]
  | cons e es ih =>
    obtain ⟨k, b, t⟩ := e
    intro acc ha
    have hp := tidy_atPath (keyPath (q k) k) t
    have hf := fun f : Str × Bool × ETree F => tidy_atPath (keyPath (q f.1) f.1) f.2.2
    simp only [conflictingEntries, Bool.or_eq_false_iff, List.pairwise_cons, List.mem_cons, forall_eq_or_imp,
      ih _ (tidy_merge ha hp)]
    constructor
    · rintro ⟨⟨h1, h2⟩, h3, h4⟩
      refine ⟨⟨⟨h1, h2⟩, fun f h => ⟨(h3 f h).1, ((clashEntries_both ha hp (hf f) h2).mp (h3 f h).2).1⟩⟩, fun f h => ?_, h4⟩
      exact ((clashEntries_both ha hp (hf f) h2).mp (h3 f h).2).2
    · rintro ⟨⟨⟨h1, h2⟩, h3⟩, h4, h5⟩
      exact ⟨⟨h1, h2⟩, fun f h => ⟨(h3 f h).1, (clashEntries_both ha hp (hf f) h2).mpr ⟨(h3 f h).2, h4 f h⟩⟩, h5⟩

mutual
theorem clash_collide (a b : Json F) (hd : DistinctKeys b) : clash a b = true ↔ Collide a b := by
  have leaf : ∀ x y : Json F, NoObject x ∨ NoObject y → Collide x y := fun x y h =>
    ⟨[], x, y, rfl, rfl, fun ⟨⟨es, h1⟩, fs, h2⟩ => h.elim (fun h => h es h1) fun h => h fs h2⟩
  match b with
  | .prim p => simp only [clash]; exact ⟨fun _ => leaf _ _ (.inr (noObject_prim p)), fun _ => trivial⟩
  | .arr items => simp only [clash]; exact ⟨fun _ => leaf _ _ (.inr (noObject_arr items)), fun _ => trivial⟩
  | .obj bs =>
    match a with
    | .prim p => simp only [clash]; exact ⟨fun _ => leaf _ _ (.inl (noObject_prim p)), fun _ => trivial⟩
    | .arr items => simp only [clash]; exact ⟨fun _ => leaf _ _ (.inl (noObject_arr items)), fun _ => trivial⟩
    | .obj as =>
      simp only [clash, DistinctKeys] at *
      have hi := clash_collideEntries bs
      constructor
      · intro h
        apply Classical.byContradiction
        intro hc
        have : clashEntries as bs = false := by
          rw [clashEntries_false hd.1]
          intro k x y hx hy
          cases hxy : clash x y with
          | false => rfl
          | true =>
            obtain ⟨p, x', y', h1, h2, h3⟩ := (hi (k, y) (lookup_mem hy) x (distinctEntries_iff.mp hd.2 _ (lookup_mem hy))).mp hxy
            exact absurd ⟨k :: p, x', y', by simp [follow, hx, h1], by simp only [follow, hy, Option.bind_some]; exact h2, h3⟩ hc
        rw [this] at h; simp at h
      · rintro ⟨p, x', y', h1, h2, h3⟩
        cases p with
        | nil =>
          simp only [follow, Option.some.injEq] at h1 h2
          exact absurd ⟨⟨as, h1.symm⟩, bs, h2.symm⟩ h3
        | cons k p =>
          simp only [follow] at h1 h2
          cases hx : lookupKey k as with
          | none => rw [hx] at h1; simp at h1
          | some x =>
            cases hy : lookupKey k bs with
            | none => rw [hy] at h2; simp at h2
            | some y =>
              rw [hx] at h1
              rw [hy] at h2
              have := (hi (k, y) (lookup_mem hy) x (distinctEntries_iff.mp hd.2 _ (lookup_mem hy))).mpr ⟨p, x', y', h1, h2, h3⟩
              simp only at this
              cases hc : clashEntries as bs with
              | true => rfl
              | false => rw [clashEntries_false hd.1] at hc; rw [hc k x y hx hy] at this; simp at this
theorem clash_collideEntries (bs : List (Str × Json F)) : ∀ e ∈ bs, ∀ a : Json F, DistinctKeys e.2 → (clash a e.2 = true ↔ Collide a e.2) := by
  match bs with
  | [] => intro e he; simp at he
  | (k, v) :: bs =>
    intro e he a hd
    rcases List.mem_cons.mp he with rfl | he
    · exact clash_collide a v hd
    · exact clash_collideEntries bs e he a hd
end

theorem standsFor_obj (es : List (Str × Bool × ETree F)) (e : Str × Bool × ETree F) :
    standsFor es e = .obj (entryPath (quotedIn es) e) := by
  unfold standsFor entryPath
  cases h : keyPath (quotedIn es e.1) e.1 with
  | nil => exact absurd h (keyPath_ne _ _)
  | cons s ss => rfl

theorem conflicting_obj (es : List (Str × Bool × ETree F)) :
    conflicting (.obj es) = true ↔ (∃ e ∈ es, conflicting e.2.2 = true) ∨ Quarrel es := by
  have h := conflictingEntries_pairs (quotedIn es) es [] ⟨by simp, trivial⟩
  have hb : ∀ b : Bool, b = true ↔ ¬ b = false := by decide
  rw [hb, conflicting, h, List.pairwise_iff_forall_sublist, Classical.not_and_iff_not_or_not]
  apply or_congr
  · simp only [clashEntries_nil, and_true, Classical.not_forall, Bool.not_eq_false]
    exact ⟨fun ⟨e, he, h⟩ => ⟨e, he, h⟩, fun ⟨e, he, h⟩ => ⟨e, he, h⟩⟩
  · simp only [Classical.not_forall, Bool.not_eq_false]
    have key : ∀ e f : Str × Bool × ETree F, clashEntries (entryPath (quotedIn es) e) (entryPath (quotedIn es) f) = true ↔
        Collide (standsFor es e) (standsFor es f) := by
      intro e f
      rw [standsFor_obj, standsFor_obj, ← clash_collide _ _ (by simp only [DistinctKeys]; exact tidy_atPath _ f.2.2), clash]
    exact ⟨fun ⟨e, f, h1, h2⟩ => ⟨e, f, h1, (key e f).mp h2⟩, fun ⟨e, f, h1, h2⟩ => ⟨e, f, h1, (key e f).mpr h2⟩⟩

theorem conflictingItems_iff (ts : List (ETree F)) : conflictingItems ts = true ↔ ∃ t ∈ ts, conflicting t = true := by
  induction ts with
  | nil => simp [conflictingItems]
  | cons t ts ih => simp [conflictingItems, ih]

mutual
theorem conflicting_found (t : ETree F) (h : conflicting t = true) : ∃ es, ObjectIn es t ∧ Quarrel es := by
  match t with
  | .prim p => simp [conflicting] at h
  | .arr n ts =>
    rw [conflicting, conflictingItems_iff] at h
    obtain ⟨t, ht, h⟩ := h
    obtain ⟨es, h1, h2⟩ := conflicting_foundItems ts t ht h
    exact ⟨es, .item ht h1, h2⟩
  | .obj fs =>
    rcases (conflicting_obj fs).mp h with ⟨e, he, h⟩ | h
    · obtain ⟨es, h1, h2⟩ := conflicting_foundEntries fs e he h
      exact ⟨es, .entry he h1, h2⟩
    · exact ⟨fs, .here, h⟩
theorem conflicting_foundItems (ts : List (ETree F)) : ∀ t ∈ ts, conflicting t = true → ∃ es, ObjectIn es t ∧ Quarrel es := by
  match ts with
  | [] => intro t ht; simp at ht
  | t' :: ts =>
    intro t ht h
    rcases List.mem_cons.mp ht with h0 | ht
    · rw [h0] at h ⊢
      exact conflicting_found t' h
    · exact conflicting_foundItems ts t ht h
theorem conflicting_foundEntries (fs : List (Str × Bool × ETree F)) : ∀ e ∈ fs, conflicting e.2.2 = true →
    ∃ es, ObjectIn es e.2.2 ∧ Quarrel es := by
  match fs with
  | [] => intro e he; simp at he
  | (k, q, t) :: fs =>
    intro e he h
    rcases List.mem_cons.mp he with rfl | he
    · exact conflicting_found t h
    · exact conflicting_foundEntries fs e he h
end

/-- A tree has a conflict exactly if two entries of one of its objects have. -/
theorem conflicting_exactly (t : ETree F) : conflicting t = true ↔ ∃ es, ObjectIn es t ∧ Quarrel es := by
  refine ⟨conflicting_found t, ?_⟩
  rintro ⟨es, h1, h2⟩
  induction h1 with
  | here => exact (conflicting_obj es).mpr (.inr h2)
  | entry he _ ih => exact (conflicting_obj _).mpr (.inl ⟨_, he, ih⟩)
  | item ht _ ih => rw [conflicting, conflictingItems_iff]; exact ⟨_, ht, ih⟩

theorem collide_nested {a b : Json F} (ha : NoObject a) (hb : NoObject b) : ∀ p q : List Str,
    Collide (nested p a) (nested q b) ↔ p <+: q ∨ q <+: p := by
  intro p
  induction p with
  | nil =>
    intro q
    exact ⟨fun _ => .inl List.nil_prefix, fun _ => ⟨[], _, _, rfl, rfl, fun ⟨⟨es, h⟩, _⟩ => ha es h⟩⟩
  | cons s p ih =>
    intro q
    cases q with
    | nil => exact ⟨fun _ => .inr List.nil_prefix, fun _ => ⟨[], _, _, rfl, rfl, fun ⟨_, es, h⟩ => hb es h⟩⟩
    | cons t q =>
      simp only [List.cons_prefix_cons]
      constructor
      · rintro ⟨path, x, y, h1, h2, h3⟩
        cases path with
        | nil =>
          simp only [follow, nested, Option.some.injEq] at h1 h2
          exact absurd ⟨⟨_, h1.symm⟩, _, h2.symm⟩ h3
        | cons k path =>
          simp only [follow, nested, lookupKey] at h1 h2
          split at h1
          · rename_i hs
            split at h2
            · rename_i ht
              have hst : s = t := by first | exact (by simpa using hs : s = k).trans (by simpa using ht : t = k).symm | exact (by simpa using hs : k = s).symm.trans (by simpa using ht : k = t)
              subst hst
              rcases (ih q).mp ⟨path, x, y, h1, h2, h3⟩ with h | h
              · exact .inl ⟨rfl, h⟩
              · exact .inr ⟨rfl, h⟩
            · simp at h2
          · simp at h1
      · intro h
        have hst : s = t := h.elim (·.1) fun h => h.1.symm
        subst hst
        obtain ⟨path, x, y, h1, h2, h3⟩ := (ih q).mpr (h.imp (·.2) (·.2))
        exact ⟨s :: path, x, y, by simp [follow, nested, lookupKey, h1], by simp [follow, nested, lookupKey, h2], h3⟩

end

end Toon
