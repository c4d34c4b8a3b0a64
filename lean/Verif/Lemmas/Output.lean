import Verif.Lemmas.RoundTrip

/-! Lemmas about the shape of the encoder's output. -/

namespace Toon

section
variable {F : Type} [F64 F]

mutual
theorem height_normalize (v : Json F) : height (normalize v) = height v := by
  match v with
  | .prim p => simp [normalize, height]
  | .arr items => simp only [normalize, height, heightItems_normalize items]
  | .obj es => simp only [normalize, height, heightEntries_normalize es]
theorem heightItems_normalize (vs : List (Json F)) : heightItems (normalizeItems vs) = heightItems vs := by
  match vs with
  | [] => rfl
  | v :: vs => simp only [normalizeItems, heightItems, height_normalize v, heightItems_normalize vs]
theorem heightEntries_normalize (es : List (Str × Json F)) : heightEntries (normalizeEntries es) = heightEntries es := by
  match es with
  | [] => rfl
  | (k, v) :: es => simp only [normalizeEntries, heightEntries, height_normalize v, heightEntries_normalize es]
end

theorem encodeEntries_ne_nil {opts : EncOpts} {sib : List Str} {rlk : Option (List Str)} {pp : Option Str} {fd : Nat}
    {k : Str} {v : Json F} {es : List (Str × Json F)} {depth : Nat} :
    encodeEntries opts sib rlk pp fd ((k, v) :: es) depth ≠ [] := by
  rw [encodeEntries, encodeKeyValue_eq]
  cases tryFold k v sib opts rlk pp fd with
  | some folded =>
    simp only
    cases folded.leaf <;> simp [writeEntry, encodeArray_head_tail]
  | none =>
    simp only
    cases v <;> simp [writeEntry, encodeArray_head_tail]

theorem encodeValue_nil_iff [LawfulF64 F] {opts : EncOpts} (hd : GoodDelim opts.delim) (v : Json F) :
    encodeValue opts v = [] ↔ v = .obj [] := by
  unfold encodeValue
  cases v with
  | prim p =>
    have := (encodePrimitive_tok hd p).ne_nil
    simp [this]
  | arr items => simp [encodeArray_head_tail]
  | obj es =>
    cases es with
    | nil => simp [encodeObject_nil]
    | cons e es =>
      obtain ⟨k, v⟩ := e
      simp only [Json.obj.injEq, reduceCtorEq, iff_false]
      rw [encodeObject]
      exact encodeEntries_ne_nil

theorem normalize_eq_nil (v : Json F) : normalize v = .obj [] ↔ v = .obj [] := by
  cases v with
  | prim p => simp [normalize]
  | arr items => simp [normalize]
  | obj es => cases es <;> simp [normalize, normalizeEntries]

/-- Cells of one row of a table. -/
theorem rowPrims_lookup {es : List (Str × Json F)} {cols : List Str}
    (h : ∀ c ∈ cols, ∃ p, lookupKey c es = some (.prim p)) :
    ∃ ps, rowPrims es cols = .ok ps ∧ ps.map (fun p => some (Json.prim p)) = cols.map (lookupKey · es) := by
  induction cols with
  | nil => exact ⟨[], rfl, rfl⟩
  | cons c cols ih =>
    obtain ⟨ps, h1, h2⟩ := ih (fun c hc => h c (by simp [hc]))
    obtain ⟨p, hp⟩ := h c (by simp)
    refine ⟨p :: ps, ?_, by simp [h2, hp]⟩
    rw [lookupKey_eq] at hp
    simp [rowPrims, hp, h1]

end

end Toon
