import Verif.Lemmas.PathCopies
import Verif.Lemmas.Canon
import Verif.Lemmas.Diff
import Verif.Lemmas.Output

/-! The paths of values without arrays, when keys are not folded. -/

namespace Toon

section
variable {F : Type} [F64 F]

theorem objectPaths_exact {opts : EncOpts} (hf : opts.fold = false) (n : Nat) :
    ∀ (es : List (Str × Json F)) stack depth rlk pp rem, heightEntries es ≤ n → 2 * n + 2 ≤ stack → arraylessEntries es = true →
      objectPaths opts stack es depth rlk pp rem =
        rootPaths depth rlk (es.map Prod.fst) + (pathLengthsEntries (aheadOf pp) es).sum := by
  induction n with
  | zero =>
    intro es stack depth rlk pp rem hh hs ha
    obtain ⟨s, rfl⟩ : ∃ s, stack = s + 2 := ⟨stack - 2, by omega⟩
    rw [objectPaths]
    congr 1
    generalize rootLiterals depth rlk (es.map Prod.fst) = rlk'
    generalize es.map Prod.fst = siblings
    induction es with
    | nil => simp [pathLengthsEntries]
    | cons e es ih =>
      obtain ⟨k, v⟩ := e
      rw [heightEntries] at hh
      rw [arraylessEntries, Bool.and_eq_true] at ha
      rw [List.map_cons, List.sum_cons, ih (by omega) ha.2, pathLengthsEntries, List.sum_append, List.sum_cons]
      simp only
      rw [pairPaths.eq_def]
      simp only [foldPaths_off hf, tryFold_off hf]
      cases v with
      | prim p => simp only [pathLengths, extendPath_length, List.sum_nil]; omega
      | arr items => simp [arrayless] at ha
      | obj es => rw [height] at hh; omega
  | succ n ihn =>
    intro es stack depth rlk pp rem hh hs ha
    obtain ⟨s, rfl⟩ : ∃ s, stack = s + 2 := ⟨stack - 2, by omega⟩
    rw [objectPaths]
    congr 1
    generalize rootLiterals depth rlk (es.map Prod.fst) = rlk'
    generalize es.map Prod.fst = siblings
    induction es with
    | nil => simp [pathLengthsEntries]
    | cons e es ih =>
      obtain ⟨k, v⟩ := e
      rw [heightEntries] at hh
      rw [arraylessEntries, Bool.and_eq_true] at ha
      rw [List.map_cons, List.sum_cons, ih (by omega) ha.2, pathLengthsEntries, List.sum_append, List.sum_cons]
      simp only
      rw [pairPaths.eq_def]
      simp only [foldPaths_off hf, tryFold_off hf]
      cases v with
      | prim p => simp only [pathLengths, extendPath_length, List.sum_nil]; omega
      | arr items => simp [arrayless] at ha
      | obj fs =>
        rw [height] at hh
        simp only [arrayless] at ha
        simp only [pathLengths, extendPath_length]
        have h0 : rootPaths (depth + 1) rlk' (fs.map Prod.fst) = 0 := by simp [rootPaths]
        split
        · rename_i he
          rw [List.isEmpty_iff] at he
          subst he
          simp [pathLengthsEntries]
        · rw [ihn fs s (depth + 1) rlk' _ _ (by omega) (by omega) ha.1, h0, aheadOf, extendPath_length]
          omega

mutual
theorem arrayless_normalize (v : Json F) : arrayless (normalize v) = arrayless v := by
  match v with
  | .prim p => rw [normalize, arrayless, arrayless]
  | .arr items => rw [normalize, arrayless, arrayless]
  | .obj es => rw [normalize, arrayless, arrayless, arraylessEntries_normalize es]
theorem arraylessEntries_normalize (es : List (Str × Json F)) : arraylessEntries (normalizeEntries es) = arraylessEntries es := by
  match es with
  | [] => rfl
  | (k, v) :: es => rw [normalizeEntries, arraylessEntries, arraylessEntries, arrayless_normalize v, arraylessEntries_normalize es]
end

mutual
theorem pathLengths_normalize (above : Nat) (v : Json F) : pathLengths above (normalize v) = pathLengths above v := by
  match v with
  | .prim p => rw [normalize, pathLengths, pathLengths]
  | .arr items => rw [normalize, pathLengths, pathLengths]
  | .obj es => rw [normalize, pathLengths, pathLengths, pathLengthsEntries_normalize above es]
theorem pathLengthsEntries_normalize (above : Nat) (es : List (Str × Json F)) :
    pathLengthsEntries above (normalizeEntries es) = pathLengthsEntries above es := by
  match es with
  | [] => rfl
  | (k, v) :: es =>
    rw [normalizeEntries, pathLengthsEntries, pathLengthsEntries, pathLengths_normalize _ v, pathLengthsEntries_normalize above es]
end

theorem encodePaths_exact {opts : EncOpts} (hf : opts.fold = false) (es : List (Str × Json F)) (ha : arraylessEntries es = true)
    (stack : Nat) (hs : 2 * height (.obj es) + 2 ≤ stack) :
    encodePaths opts stack (.obj es) =
      (((es.map Prod.fst).filter (·.contains '.')).map List.length).sum + (pathLengthsEntries 0 es).sum := by
  obtain ⟨s, rfl⟩ : ∃ s, stack = s + 2 := ⟨stack - 2, by omega⟩
  have hh := height_normalize (.obj es)
  rw [normalize, height, height] at hh
  rw [height] at hs
  rw [encodePaths, normalize, valuePaths.eq_def]
  simp only
  rw [objectPaths_exact hf (heightEntries es) _ _ _ _ _ _ (by omega) (by omega) (by rw [arraylessEntries_normalize]; exact ha),
    normalizeEntries_fst, aheadOf, pathLengthsEntries_normalize]
  simp [rootPaths]

theorem wide_lines {opts : EncOpts} (hf : opts.fold = false) (k : Str) (keys : List Str) (hk : keys ≠ []) :
    encodeLines opts (.obj [(k, .obj (keys.map fun j => (j, .prim .null)))] : Json F) =
      (encodeKey k ++ [':']) :: keys.map fun j => List.replicate opts.indent ' ' ++ (encodeKey j ++ ": null".toList) := by
  have hn : normalizeEntries (keys.map fun j => (j, (.prim .null : Json F))) = keys.map fun j => (j, (.prim .null : Json F)) := by
    clear hk
    induction keys with
    | nil => rfl
    | cons j js ih => simp [normalizeEntries, normalize, normPrim, ih]
  have he : ∀ sib rlk pp fd, encodeEntries opts sib rlk pp fd (keys.map fun j => (j, (.prim .null : Json F))) 1 =
      keys.map fun j => ⟨1, encodeKey j ++ ": null".toList⟩ := by
    intro sib rlk pp fd
    clear hk hn
    induction keys with
    | nil => rw [List.map_nil, List.map_nil, encodeEntries]
    | cons j js ih =>
      rw [List.map_cons, List.map_cons, encodeEntries, encodeKeyValue_eq, tryFold_off hf, ih]
      simp [writeEntry, encodePrimitive]
  have hne : (keys.map fun j => (j, (.prim .null : Json F))).isEmpty = false := by
    cases keys with
    | nil => exact absurd rfl hk
    | cons j js => rfl
  rw [encodeLines, encodeJsonValue, normalize, normalizeEntries, normalize, hn, normalizeEntries, encodeValue]
  rw [encodeObject, encodeEntries, encodeEntries, encodeKeyValue_eq, tryFold_off hf]
  simp only [writeEntry, hne, Bool.false_eq_true, if_false]
  rw [encodeObject, he]
  simp [renderLine]

omit [F64 F] in
/-- An object under a key. -/
theorem wide_lengths (k : Str) (keys : List Str) :
    (pathLengthsEntries 0 [(k, (.obj (keys.map fun j => (j, .prim .null)) : Json F))]).sum =
      k.length + keys.length * (k.length + 1) + (keys.map List.length).sum := by
  have : ∀ a, (pathLengthsEntries a (keys.map fun j => (j, (.prim .null : Json F)))).sum = keys.length * a + (keys.map List.length).sum := by
    intro a
    induction keys with
    | nil => simp [pathLengthsEntries]
    | cons j js ih =>
      rw [List.map_cons, pathLengthsEntries, pathLengths, List.sum_append, List.sum_cons, List.sum_nil, ih, List.length_cons,
        Nat.succ_mul, List.map_cons, List.sum_cons]
      omega
  rw [pathLengthsEntries, pathLengths, pathLengthsEntries, List.append_nil, List.sum_cons, this]
  simp only [Nat.zero_add]
  omega

theorem replicate_valid {c : Char} (h1 : isIdStart c = true) (h2 : c.isAlphanum = true) (n : Nat) :
    isValidUnquotedKey (List.replicate (n + 1) c) = true := by
  rw [List.replicate_succ, isValidUnquotedKey, h1, Bool.true_and, List.all_eq_true]
  intro x hx
  rw [(List.mem_replicate.1 hx).2, h2]
  rfl

omit [F64 F] in
theorem longLabel_distinct (n : Nat) : DistinctKeys (longLabel n : Json F) := by
  simp only [longLabel, DistinctKeys, DistinctKeysEntries, List.map_cons, List.map_nil, List.map_map, and_true]
  refine ⟨by simp, ?_, ?_⟩
  · rw [List.Nodup, List.pairwise_map]
    refine List.nodup_range.imp ?_
    intro a b h he
    have := congrArg List.length he
    simp only [Function.comp_apply, List.length_replicate] at this
    omega
  · generalize List.range n = l
    induction l with
    | nil => exact trivial
    | cons x l ih => exact ⟨trivial, ih⟩

theorem longLabel_paths {opts : EncOpts} (hf : opts.fold = false) (n stack : Nat) (hs : 6 ≤ stack) :
    n * (n * n) ≤ encodePaths opts stack (longLabel n : Json F) := by
  have hh : heightEntries ((List.range n).map fun i => (List.replicate (i + 1) 'a', (.prim .null : Json F))) = 0 := by
    generalize List.range n = l
    induction l with
    | nil => rfl
    | cons x l ih => simp [heightEntries, height, ih]
  have ha : arraylessEntries ((List.range n).map fun i => (List.replicate (i + 1) 'a', (.prim .null : Json F))) = true := by
    generalize List.range n = l
    induction l with
    | nil => rfl
    | cons x l ih => simp [arraylessEntries, arrayless, ih]
  have hw := wide_lengths (F := F) (List.replicate (n * n) 'k') ((List.range n).map fun i => List.replicate (i + 1) 'a')
  rw [List.map_map] at hw
  rw [longLabel, encodePaths_exact hf _ (by simp [arraylessEntries, arrayless, ha]) stack (by simp [height, heightEntries, hh]; omega)]
  simp only [Function.comp_def] at hw
  rw [hw, List.length_replicate, List.length_map, List.length_range, Nat.mul_succ]
  omega

theorem longLabel_text {opts : EncOpts} (hf : opts.fold = false) (n : Nat) :
    (encode opts (longLabel (n + 1) : Json F)).length ≤ (10 + opts.indent) * ((n + 1) * (n + 1)) := by
  have h := wide_lines (F := F) hf (List.replicate ((n + 1) * (n + 1)) 'k') ((List.range (n + 1)).map fun i => List.replicate (i + 1) 'a')
    (by simp)
  have hk : isValidUnquotedKey (List.replicate ((n + 1) * (n + 1)) 'k') = true := 
    replicate_valid (by decide) (by decide) ((n + 1) * n + n)
  rw [List.map_map, List.map_map] at h
  simp only [Function.comp_def, encodeKey_valid hk, encodeKey_valid (replicate_valid (c := 'a') (by decide) (by decide) _), List.map_map] at h
  rw [encode, longLabel, h, joinWith_cons_length, List.map_map]
  have hsum : ∀ m, (List.map ((fun s : Str => s.length + 1) ∘ fun i => List.replicate opts.indent ' ' ++
      (List.replicate (i + 1) 'a' ++ ": null".toList)) (List.range m)).sum ≤ m * (opts.indent + 7) + m * m := by
    intro m
    induction m with
    | zero => simp
    | succ m ih =>
      rw [List.range_succ, List.map_append, List.sum_append]
      simp only [List.map_cons, List.map_nil, List.sum_cons, List.sum_nil, Function.comp_def, List.length_append, List.length_replicate,
        Nat.succ_mul, Nat.mul_succ] at ih ⊢
      have : ": null".toList.length = 6 := rfl
      omega
  have h1 := hsum (n + 1)
  have h2 : (n + 1) * (opts.indent + 7) ≤ (n + 1) * (n + 1) * (opts.indent + 7) :=
    Nat.mul_le_mul_right _ (Nat.le_mul_of_pos_right _ (by omega))
  rw [List.length_append, List.length_replicate, List.length_singleton]
  have h3 : (10 + opts.indent) * ((n + 1) * (n + 1)) = (n + 1) * (n + 1) * (opts.indent + 7) + 3 * ((n + 1) * (n + 1)) := by
    rw [Nat.mul_comm _ (opts.indent + 7), ← Nat.add_mul]
    congr 1
    omega
  have h4 : 1 ≤ (n + 1) * (n + 1) := Nat.mul_pos (by omega) (by omega)
  omega

end

end Toon
