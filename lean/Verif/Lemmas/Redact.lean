import Verif.Spec.Redact
import Verif.Lemmas.Replacer
import Verif.Lemmas.Misread

/-! # Hiding entries with a replacer: lemmas for C92 -/

namespace Toon

section
variable {F : Type} [F64 F] [LawfulF64 F]

omit [F64 F] [LawfulF64 F] in
theorem redactor_key (hide : Str → Option (Option (Prim F))) (k' : Str) (v : Json F) (path : List PathSeg) (k : Str) :
    redactor hide k' v (path ++ [.key k]) = match hide k with
      | none => some v
      | some none => none
      | some (some p) => some (.prim p) := by
  simp only [redactor, List.getLast?_concat]
  rcases hide k with _ | _ | p <;> rfl

omit [F64 F] [LawfulF64 F] in
theorem redactor_index (hide : Str → Option (Option (Prim F))) (k' : Str) (v : Json F) (path : List PathSeg) (i : Nat) :
    redactor hide k' v (path ++ [.index i]) = some v := by
  simp [redactor]

mutual
theorem redact_children (hide : Str → Option (Option (Prim F))) : ∀ (v : Json F) (n : Nat) (path : List PathSeg), height v < n →
    transformChildren (stateless (redactor hide)) n path (normalize v) () = some (normalize (redacted hide v), ())
  | .prim p, n + 1, path, _ => by simp [normalize, transformChildren, redacted]
  | .arr items, n + 1, path, h => by
    rw [height] at h
    rw [normalize, transformChildren, redact_array hide items n path 0 (by omega), redacted, normalize]
  | .obj es, n + 1, path, h => by
    rw [height] at h
    rw [normalize, transformChildren, redact_object hide es n path (by omega), redacted, normalize]
theorem redact_array (hide : Str → Option (Option (Prim F))) : ∀ (vs : List (Json F)) (n : Nat) (path : List PathSeg) (i : Nat),
    heightItems vs < n →
    transformArray (transformChildren (stateless (redactor hide)) n) (stateless (redactor hide)) path i (normalizeItems vs) () =
      some (normalizeItems (redactedItems hide vs), ())
  | [], n, path, i, _ => by simp [normalizeItems, transformArray, redactedItems]
  | v :: vs, n, path, i, h => by
    rw [heightItems] at h
    rw [normalizeItems, transformArray]
    have h0 : ∀ w, stateless (redactor hide) (indexKey i) w (path ++ [.index i]) () = (some w, ()) := fun w => by rw [stateless, redactor_index]
    have h1 := redact_children hide v n (path ++ [.index i]) (by omega)
    have h2 := redact_array hide vs n path (i + 1) (by omega)
    simp only [h0, normalize_normal (normal_normalize v), h1, h2, redactedItems, normalizeItems]
theorem redact_object (hide : Str → Option (Option (Prim F))) : ∀ (es : List (Str × Json F)) (n : Nat) (path : List PathSeg),
    heightEntries es < n →
    transformObject (transformChildren (stateless (redactor hide)) n) (stateless (redactor hide)) path (normalizeEntries es) () =
      some (normalizeEntries (redactedEntries hide es), ())
  | [], n, path, _ => by simp [normalizeEntries, transformObject, redactedEntries]
  | (k, v) :: es, n, path, h => by
    rw [heightEntries] at h
    rw [normalizeEntries, transformObject]
    have h0 : ∀ w, stateless (redactor hide) k w (path ++ [.key k]) () = (match hide k with | none => some w | some none => none | some (some p) => some (.prim p), ()) :=
      fun w => by rw [stateless, redactor_key]
    have h1 := redact_children hide v n (path ++ [.key k]) (by omega)
    have h2 := redact_object hide es n path (by omega)
    rcases hk : hide k with _ | _ | p
    · simp only [h0, normalize_normal (normal_normalize v), h1, h2, redactedEntries, hk, normalizeEntries]
    · simp only [h0, h2, redactedEntries, hk]
    · obtain ⟨m, rfl⟩ : ∃ m, n = m + 1 := ⟨n - 1, by omega⟩
      simp only [h0, redactedEntries, hk, normalizeEntries, normalize, transformChildren, h2]
end

end

section
variable {F : Type}

mutual
theorem redacted_alike {hide : Str → Option (Option (Prim F))} : ∀ {v w : Json F}, SameBut hide v w → redacted hide v = redacted hide w
  | _, _, .prim p => rfl
  | _, _, .arr h => by rw [redacted, redacted, redactedItems_alike h]
  | _, _, .obj h => by rw [redacted, redacted, redactedEntries_alike h]
theorem redactedItems_alike {hide : Str → Option (Option (Prim F))} : ∀ {v w : List (Json F)}, SameButItems hide v w →
    redactedItems hide v = redactedItems hide w
  | _, _, .nil => rfl
  | _, _, .cons h1 h2 => by rw [redactedItems, redactedItems, redacted_alike h1, redactedItems_alike h2]
theorem redactedEntries_alike {hide : Str → Option (Option (Prim F))} : ∀ {v w : List (Str × Json F)}, SameButEntries hide v w →
    redactedEntries hide v = redactedEntries hide w
  | _, _, .nil => rfl
  | _, _, .shown h1 h2 => by rw [redactedEntries, redactedEntries, redacted_alike h1, redactedEntries_alike h2]
  | _, _, .masked v w h1 h2 => by rw [redactedEntries, redactedEntries, h1, redactedEntries_alike h2]
  | _, _, .left v h1 h2 => by rw [redactedEntries, h1, redactedEntries_alike h2]
  | _, _, .right w h1 h2 => by rw [redactedEntries.eq_def hide (_ :: _)]; simp only [h1]; exact redactedEntries_alike h2
end

mutual
theorem allKeys_redacted (hide : Str → Option (Option (Prim F))) : ∀ v : Json F, AllKeys (fun k => hide k ≠ some none) (redacted hide v)
  | .prim p => by rw [redacted, AllKeys]; trivial
  | .arr vs => by rw [redacted, AllKeys]; exact allKeysItems_redacted hide vs
  | .obj es => by rw [redacted, AllKeys]; exact allKeysEntries_redacted hide es
theorem allKeysItems_redacted (hide : Str → Option (Option (Prim F))) : ∀ vs : List (Json F),
    AllKeysItems (fun k => hide k ≠ some none) (redactedItems hide vs)
  | [] => by rw [redactedItems, AllKeysItems]; trivial
  | v :: vs => by rw [redactedItems, AllKeysItems]; exact ⟨allKeys_redacted hide v, allKeysItems_redacted hide vs⟩
theorem allKeysEntries_redacted (hide : Str → Option (Option (Prim F))) : ∀ es : List (Str × Json F),
    AllKeysEntries (fun k => hide k ≠ some none) (redactedEntries hide es)
  | [] => by rw [redactedEntries, AllKeysEntries]; trivial
  | (k, v) :: es => by
    have h := allKeysEntries_redacted hide es
    rw [redactedEntries]
    rcases hk : hide k with _ | _ | p
    · exact ⟨by simp [hk], allKeys_redacted hide v, h⟩
    · exact h
    · exact ⟨by simp [hk], by rw [AllKeys]; trivial, h⟩
end

mutual
theorem AllKeys.imp {P Q : Str → Prop} (hpq : ∀ k, P k → Q k) : ∀ v : Json F, AllKeys P v → AllKeys Q v
  | .prim p, _ => by rw [AllKeys]; trivial
  | .arr vs, h => by rw [AllKeys] at h ⊢; exact AllKeys.impItems hpq vs h
  | .obj es, h => by rw [AllKeys] at h ⊢; exact AllKeys.impEntries hpq es h
theorem AllKeys.impItems {P Q : Str → Prop} (hpq : ∀ k, P k → Q k) : ∀ vs : List (Json F), AllKeysItems P vs → AllKeysItems Q vs
  | [], _ => by rw [AllKeysItems]; trivial
  | v :: vs, h => by rw [AllKeysItems] at h ⊢; exact ⟨AllKeys.imp hpq v h.1, AllKeys.impItems hpq vs h.2⟩
theorem AllKeys.impEntries {P Q : Str → Prop} (hpq : ∀ k, P k → Q k) : ∀ es : List (Str × Json F), AllKeysEntries P es → AllKeysEntries Q es
  | [], _ => by rw [AllKeysEntries]; trivial
  | (k, v) :: es, h => by
    rw [AllKeysEntries] at h ⊢; exact ⟨hpq k h.1, AllKeys.imp hpq v h.2.1, AllKeys.impEntries hpq es h.2.2⟩
end

theorem allKeysItems_ofPrims (P : Str → Prop) (ps : List (Prim F)) : AllKeysItems P (ps.map Json.prim) := by
  induction ps with
  | nil => simp [AllKeysItems]
  | cons p ps ih => simp [AllKeysItems, AllKeys, ih]

theorem allKeysItems_of_forall {P : Str → Prop} : ∀ {vs : List (Json F)}, (∀ v ∈ vs, AllKeys P v) → AllKeysItems P vs
  | [], _ => by rw [AllKeysItems]; trivial
  | v :: vs, h => by rw [AllKeysItems]; exact ⟨h v (by simp), allKeysItems_of_forall (fun v hv => h v (by simp [hv]))⟩

theorem allKeysEntries_of_forall {P : Str → Prop} : ∀ {es : List (Str × Json F)}, (∀ e ∈ es, P e.1 ∧ AllKeys P e.2) → AllKeysEntries P es
  | [], _ => by rw [AllKeysEntries]; trivial
  | (k, v) :: es, h => by
    rw [AllKeysEntries]
    exact ⟨(h (k, v) (by simp)).1, (h (k, v) (by simp)).2, allKeysEntries_of_forall (fun e he => h e (by simp [he]))⟩

theorem allKeysEntries_fst {P : Str → Prop} : ∀ {es : List (Str × Json F)}, AllKeysEntries P es → ∀ k ∈ es.map Prod.fst, P k
  | (k, v) :: es, h, k', hk => by
    rw [AllKeysEntries] at h
    rcases List.mem_cons.mp hk with rfl | hk
    · exact h.1
    · exact allKeysEntries_fst h.2.2 k' hk

variable [F64 F]

mutual
/-- The keys that are read are keys of the value that was written, or keys of misread entries. -/
theorem readsBack_keys {strict : Bool} {P : Str → Prop} (hm : ∀ k s (e : Str × Json F), bareKey k = true → MisreadAs strict k s e → P e.1) :
    ∀ (tbl : Bool) (v w : Json F), AllKeys P v → ReadsBack strict tbl v w → AllKeys P w
  | tbl, .prim p, w, _, h => by rw [ReadsBack] at h; rw [h, AllKeys]; trivial
  | tbl, .arr items, w, hk, h => by
    rw [ReadsBack] at h
    rw [AllKeys] at hk
    rcases h.2 with ⟨_, cols, ht, _, rfl⟩ | ⟨_, ws, rfl, h1⟩
    · obtain ⟨_, ⟨es, rest, rfl, rfl⟩, h3⟩ := ht
      rw [AllKeysItems, AllKeys] at hk
      have hp := allKeysEntries_fst hk.1
      rw [AllKeys]
      refine allKeysItems_of_forall ?_
      intro x hx
      obtain ⟨y, hy, rfl⟩ := List.mem_map.mp hx
      obtain ⟨es', rfl, _, h4⟩ := h3 y hy
      rw [inColumns, AllKeys]
      refine allKeysEntries_of_forall ?_
      intro e he
      obtain ⟨c, hc, rfl⟩ := List.mem_map.mp he
      obtain ⟨p, h5⟩ := h4 c hc
      refine ⟨hp c hc, ?_⟩
      simp only [h5, Option.getD_some, AllKeys]
    · rw [AllKeys]
      exact readsBackItems_keys hm items ws hk h1
  | tbl, .obj es, w, hk, h => by
    rw [ReadsBack] at h
    obtain ⟨es', rfl, h1⟩ := h
    rw [AllKeys] at hk ⊢
    exact readsBackEntries_keys hm es es' hk h1
theorem readsBackItems_keys {strict : Bool} {P : Str → Prop} (hm : ∀ k s (e : Str × Json F), bareKey k = true → MisreadAs strict k s e → P e.1) :
    ∀ (vs ws : List (Json F)), AllKeysItems P vs → ReadsBackItems strict vs ws → AllKeysItems P ws
  | [], ws, _, h => by rw [ReadsBackItems] at h; rw [h, AllKeysItems]; trivial
  | v :: vs, ws, hk, h => by
    rw [ReadsBackItems] at h
    obtain ⟨w, ws', rfl, h1, h2⟩ := h
    rw [AllKeysItems] at hk ⊢
    exact ⟨readsBack_keys hm false v w hk.1 h1, readsBackItems_keys hm vs ws' hk.2 h2⟩
theorem readsBackEntries_keys {strict : Bool} {P : Str → Prop} (hm : ∀ k s (e : Str × Json F), bareKey k = true → MisreadAs strict k s e → P e.1) :
    ∀ (es es' : List (Str × Json F)), AllKeysEntries P es → ReadsBackEntries strict es es' → AllKeysEntries P es'
  | [], es', _, h => by rw [ReadsBackEntries] at h; rw [h, AllKeysEntries]; trivial
  | (k, v) :: es, es', hk, h => by
    rw [ReadsBackEntries] at h
    obtain ⟨⟨k', w⟩, rest, rfl, h1, h2⟩ := h
    rw [AllKeysEntries] at hk ⊢
    refine ⟨?_, ?_, readsBackEntries_keys hm es rest hk.2.2 h2⟩
    · rcases h1 with ⟨s, _, h3, h4⟩ | ⟨_, h3, _⟩
      · exact hm k s _ h3.1 h4
      · simp only at h3; rw [h3]; exact hk.1
    · rcases h1 with ⟨s, _, _, _, _, _, prims, _, _, _, _, _, _, h4⟩ | ⟨_, _, h3⟩
      · simp only at h4; rw [h4, AllKeys]; exact allKeysItems_ofPrims P prims
      · exact readsBack_keys hm true v w hk.2.1 h3
end

end

end Toon
