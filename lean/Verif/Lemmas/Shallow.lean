import Verif.Spec.Shallow
import Verif.Lemmas.Canon
import Verif.Lemmas.Equiv

/-! Facts about values without nesting. -/

namespace Toon

section
variable {F : Type}

theorem primArraysEntries_iff (es : List (Str × Json F)) : PrimArraysEntries es ↔ ∀ e ∈ es, PrimArrays e.2 := by
  induction es with
  | nil => simp [PrimArraysEntries]
  | cons e es ih => obtain ⟨k, v⟩ := e; simp [PrimArraysEntries, ih]

theorem primArrays_obj (es : List (Str × Json F)) : PrimArrays (.obj es) ↔ ∀ e ∈ es, PrimArrays e.2 := by
  rw [PrimArrays]; exact primArraysEntries_iff es

theorem arePrims_all (items : List (Json F)) : (∃ ps, ArePrims items ps) ↔ ∀ v ∈ items, ∃ p, v = .prim p := by
  unfold ArePrims
  constructor
  · rintro ⟨ps, rfl⟩ v hv
    obtain ⟨p, _, rfl⟩ := List.mem_map.mp hv
    exact ⟨p, rfl⟩
  · intro h
    induction items with
    | nil => exact ⟨[], rfl⟩
    | cons v vs ih =>
      obtain ⟨p, rfl⟩ := h v (by simp)
      obtain ⟨ps, rfl⟩ := ih (fun v hv => h v (by simp [hv]))
      exact ⟨p :: ps, rfl⟩

theorem oneLine_arr (items : List (Json F)) : OneLine (.arr items) ↔ ∃ ps, ArePrims items ps := by
  unfold OneLine ArePrims
  simp

theorem oneLine_primArrays {v : Json F} (h : OneLine v) : PrimArrays v := by
  rcases h with ⟨p, rfl⟩ | ⟨ps, rfl⟩ | rfl
  · simp [PrimArrays]
  · rw [PrimArrays]; exact ⟨ps, rfl⟩
  · simp [PrimArrays, PrimArraysEntries]

theorem shallow_primArrays {v : Json F} (h : Shallow v) : PrimArrays v := by
  cases v with
  | prim p => simp [PrimArrays]
  | arr items => rw [PrimArrays]; exact h
  | obj es => rw [primArrays_obj]; exact fun e he => oneLine_primArrays (h e he)

/-! ## Up to the order of keys -/

theorem equiv_prim {a b : Json F} (h : a ≃ b) : ∀ p, a = .prim p → b = .prim p := by
  induction h with
  | refl v => exact fun _ h => h
  | trans _ _ ih1 ih2 => exact fun p h => ih2 p (ih1 p h)
  | arr => intro p h; simp at h
  | obj => intro p h; simp at h
  | perm => intro p h; simp at h

theorem equiv_arePrims {a b : Json F} (h : a ≃ b) : ∀ items, a = .arr items → (∃ ps, ArePrims items ps) →
    ∃ items', b = .arr items' ∧ ∃ ps, ArePrims items' ps := by
  induction h with
  | refl v => exact fun items h1 h2 => ⟨items, h1, h2⟩
  | trans _ _ ih1 ih2 =>
    intro items h1 h2
    obtain ⟨items', h3, h4⟩ := ih1 items h1 h2
    exact ih2 items' h3 h4
  | @arr pre post a b hab _ =>
    intro items h1 h2
    simp only [Json.arr.injEq] at h1
    subst h1
    refine ⟨_, rfl, (arePrims_all _).mpr ?_⟩
    rw [arePrims_all] at h2
    intro v hv
    simp only [List.mem_append, List.mem_cons] at hv
    rcases hv with hv | rfl | hv
    · exact h2 v (by simp [hv])
    · obtain ⟨p, hp⟩ := h2 a (by simp)
      exact ⟨p, equiv_prim hab p hp⟩
    · exact h2 v (by simp [hv])
  | obj => intro items h; simp at h
  | perm => intro items h; simp at h

theorem equiv_empty {a b : Json F} (h : a ≃ b) : a = .obj [] → b = .obj [] := by
  induction h with
  | refl v => exact id
  | trans _ _ ih1 ih2 => exact fun h => ih2 (ih1 h)
  | arr => intro h; simp at h
  | obj => intro h; simp at h
  | perm hp => intro h; simp only [Json.obj.injEq] at h; subst h; rw [hp.nil_eq]

theorem equiv_oneLine {a b : Json F} (h : a ≃ b) (ha : OneLine a) : OneLine b := by
  rcases ha with ⟨p, rfl⟩ | ⟨ps, rfl⟩ | rfl
  · exact Or.inl ⟨p, equiv_prim h p rfl⟩
  · obtain ⟨items', rfl, h1⟩ := equiv_arePrims h _ rfl ⟨ps, rfl⟩
    exact (oneLine_arr _).mpr h1
  · exact Or.inr (Or.inr (equiv_empty h rfl))

theorem equiv_shallow {a b : Json F} (h : a ≃ b) : Shallow a → Shallow b := by
  induction h with
  | refl v => exact id
  | trans _ _ ih1 ih2 => exact fun h => ih2 (ih1 h)
  | arr pre post hab _ =>
    intro h
    obtain ⟨items', h1, h2⟩ := equiv_arePrims (.arr pre post hab) _ rfl h
    simp only [Json.arr.injEq] at h1
    subst h1
    exact h2
  | @obj pre post k a b hab _ =>
    intro h e he
    simp only [List.mem_append, List.mem_cons] at he
    rcases he with he | rfl | he
    · exact h e (by simp [he])
    · exact equiv_oneLine hab (h (k, a) (by simp))
    · exact h e (by simp [he])
  | perm hp => intro h e he; exact h e (hp.mem_iff.mpr he)

theorem equiv_primArrays {a b : Json F} (h : a ≃ b) : PrimArrays a → PrimArrays b := by
  induction h with
  | refl v => exact id
  | trans _ _ ih1 ih2 => exact fun h => ih2 (ih1 h)
  | arr pre post hab _ =>
    intro h
    rw [PrimArrays] at h ⊢
    obtain ⟨items', h1, h2⟩ := equiv_arePrims (.arr pre post hab) _ rfl h
    simp only [Json.arr.injEq] at h1
    subst h1
    exact h2
  | @obj pre post k a b hab ih =>
    rw [primArrays_obj, primArrays_obj]
    intro h e he
    simp only [List.mem_append, List.mem_cons] at he
    rcases he with he | rfl | he
    · exact h e (by simp [he])
    · exact ih (h (k, a) (by simp))
    · exact h e (by simp [he])
  | perm hp => rw [primArrays_obj, primArrays_obj]; intro h e he; exact h e (hp.mem_iff.mpr he)

end

/-! ## Normalization -/

section
variable {F : Type} [F64 F]

theorem normalize_prim_iff (v : Json F) : (∃ p, normalize v = .prim p) ↔ ∃ p, v = .prim p := by
  cases v <;> simp [normalize]

theorem arePrims_normalize (items : List (Json F)) : (∃ ps, ArePrims (normalizeItems items) ps) ↔ ∃ ps, ArePrims items ps := by
  rw [arePrims_all, arePrims_all, normalizeItems_eq_map]
  simp only [List.mem_map, forall_exists_index, and_imp, forall_apply_eq_imp_iff₂]
  exact ⟨fun h v hv => (normalize_prim_iff v).mp (h v hv), fun h v hv => (normalize_prim_iff v).mpr (h v hv)⟩

theorem oneLine_normalize (v : Json F) : OneLine (normalize v) ↔ OneLine v := by
  cases v with
  | prim p => simp [normalize, OneLine]
  | arr items => rw [normalize, oneLine_arr, oneLine_arr, arePrims_normalize]
  | obj es =>
    rw [normalize, normalizeEntries_eq_map]
    simp [OneLine]

theorem shallow_normalize (v : Json F) : Shallow (normalize v) ↔ Shallow v := by
  cases v with
  | prim p => simp [normalize, Shallow]
  | arr items => exact arePrims_normalize items
  | obj es =>
    rw [normalize, normalizeEntries_eq_map]
    simp only [Shallow, List.mem_map, forall_exists_index, and_imp, forall_apply_eq_imp_iff₂]
    exact ⟨fun h v hv => (oneLine_normalize _).mp (h v hv), fun h v hv => (oneLine_normalize _).mpr (h v hv)⟩

mutual
theorem primArrays_normalize (v : Json F) : PrimArrays (normalize v) ↔ PrimArrays v := by
  match v with
  | .prim p => simp [normalize, PrimArrays]
  | .arr items => rw [normalize, PrimArrays, PrimArrays]; exact arePrims_normalize items
  | .obj es => rw [normalize, PrimArrays, PrimArrays]; exact primArraysEntries_normalize es
theorem primArraysEntries_normalize (es : List (Str × Json F)) : PrimArraysEntries (normalizeEntries es) ↔ PrimArraysEntries es := by
  match es with
  | [] => simp [normalizeEntries, PrimArraysEntries]
  | (k, v) :: es => simp [normalizeEntries, PrimArraysEntries, primArrays_normalize v, primArraysEntries_normalize es]
end

end

end Toon
