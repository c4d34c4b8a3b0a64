import Verif.Model.Host
import Verif.Spec.Host
import Verif.Lemmas.JsonLayout
import Verif.Lemmas.RoundTrip

/-! # The host JSON type -/

namespace Toon

theorem mem_firstKeys {k : Str} {ks : List Str} : k ∈ firstKeys ks ↔ k ∈ ks := by
  induction ks with
  | nil => simp [firstKeys]
  | cons a ks ih =>
    simp only [firstKeys, List.mem_cons, List.mem_filter, ih, decide_not, Bool.not_eq_true', decide_eq_false_iff_not]
    by_cases h : k = a <;> simp [h]

theorem nodup_firstKeys (ks : List Str) : (firstKeys ks).Nodup := by
  induction ks with
  | nil => simp [firstKeys]
  | cons a ks ih =>
    rw [firstKeys, List.nodup_cons]
    exact ⟨by simp, ih.filter _⟩

theorem firstKeys_snoc (ks : List Str) (k : Str) :
    firstKeys (ks ++ [k]) = if k ∈ ks then firstKeys ks else firstKeys ks ++ [k] := by
  induction ks with
  | nil => simp [firstKeys]
  | cons a ks ih =>
    rw [List.cons_append, firstKeys, ih, firstKeys]
    by_cases h : k ∈ ks
    · rw [if_pos h, if_pos (by simp [h])]
    · rw [if_neg h]
      by_cases h2 : k = a
      · rw [if_pos (by simp [h2])]
        subst h2
        simp
      · rw [if_neg (by simp [h, h2])]
        simp [h2]

theorem firstKeys_nodup {ks : List Str} (h : ks.Nodup) : firstKeys ks = ks := by
  induction ks with
  | nil => rfl
  | cons a ks ih =>
    rw [List.nodup_cons] at h
    rw [firstKeys, ih h.2, List.filter_eq_self.2]
    intro b hb
    have : b ≠ a := by rintro rfl; exact h.1 hb
    simpa using this

theorem filterMap_congr_mem {α β : Type} {f g : α → Option β} {l : List α} (h : ∀ a ∈ l, f a = g a) :
    l.filterMap f = l.filterMap g := by
  induction l with
  | nil => rfl
  | cons a l ih => rw [List.filterMap_cons, List.filterMap_cons, h a (by simp), ih fun b hb => h b (by simp [hb])]

section
variable {α : Type}

theorem lastValue_snoc (k : Str) (es : List (Str × α)) (k' : Str) (v : α) :
    lastValue k (es ++ [(k', v)]) = if k' = k then some v else lastValue k es := by
  induction es with
  | nil => simp [lastValue]
  | cons e es ih =>
    obtain ⟨a, b⟩ := e
    rw [List.cons_append, lastValue, ih, lastValue]
    by_cases h : k' = k
    · simp [h]
    · simp [h]

theorem lastValue_isSome {k : Str} {es : List (Str × α)} : (lastValue k es).isSome ↔ k ∈ es.map Prod.fst := by
  induction es with
  | nil => simp [lastValue]
  | cons e es ih =>
    obtain ⟨a, b⟩ := e
    rw [lastValue, List.map_cons, List.mem_cons, ← ih]
    cases hl : lastValue k es with
    | some w => simp
    | none =>
      by_cases h : a = k
      · simp [h]
      · simp [h, Ne.symm h]

/-- Insertion with replacement, at the level of lists of pairs. -/
def pairInsert (m : List (Str × α)) (key : Str) (value : α) : List (Str × α) :=
  match m with
  | [] => [(key, value)]
  | (k, v) :: rest => if k = key then (k, value) :: rest else (k, v) :: pairInsert rest key value

theorem pairInsert_new {m : List (Str × α)} {k : Str} (h : k ∉ m.map Prod.fst) (v : α) : pairInsert m k v = m ++ [(k, v)] := by
  induction m with
  | nil => rfl
  | cons e m ih =>
    obtain ⟨a, b⟩ := e
    simp only [List.map_cons, List.mem_cons, not_or] at h
    rw [pairInsert, if_neg (Ne.symm h.1), ih h.2, List.cons_append]

/-- The entries made from a list of distinct keys. -/
theorem pairInsert_table (f : Str → Option α) (k : Str) (v : α) :
    (ks : List Str) → ks.Nodup → k ∈ ks → (∀ a ∈ ks, (f a).isSome) →
    pairInsert (ks.filterMap fun a => (f a).map fun w => (a, w)) k v =
      ks.filterMap fun a => (if k = a then some v else f a).map fun w => (a, w)
  | [], _, h, _ => by simp at h
  | a :: ks, hn, hk, hf => by
    rw [List.nodup_cons] at hn
    obtain ⟨w, hw⟩ := Option.isSome_iff_exists.1 (hf a (by simp))
    rw [List.filterMap_cons_some (b := (a, w)) (by simp [hw])]
    by_cases h : k = a
    · subst h
      rw [pairInsert, if_pos rfl, List.filterMap_cons_some (b := (k, v)) (by simp)]
      congr 1
      apply filterMap_congr_mem
      intro b hb
      have : k ≠ b := by rintro rfl; exact hn.1 hb
      rw [if_neg this]
    · rw [pairInsert, if_neg (Ne.symm h), List.filterMap_cons_some (b := (a, w)) (by simp [h, hw]),
        pairInsert_table f k v ks hn.2 (by simpa [h] using hk) (fun b hb => hf b (by simp [hb]))]

theorem map_fst_table (f : Str → Option α) : (ks : List Str) → (∀ a ∈ ks, (f a).isSome) →
    (ks.filterMap fun a => (f a).map fun w => (a, w)).map Prod.fst = ks
  | [], _ => rfl
  | a :: ks, hf => by
    obtain ⟨w, hw⟩ := Option.isSome_iff_exists.1 (hf a (by simp))
    rw [List.filterMap_cons_some (b := (a, w)) (by simp [hw]), List.map_cons,
      map_fst_table f ks fun b hb => hf b (by simp [hb])]

theorem keys_lastEntries (es : List (Str × α)) : (lastEntries es).map Prod.fst = firstKeys (es.map Prod.fst) :=
  map_fst_table _ _ fun _ ha => lastValue_isSome.2 (mem_firstKeys.1 ha)

theorem lastEntries_snoc (es : List (Str × α)) (k : Str) (v : α) :
    lastEntries (es ++ [(k, v)]) = pairInsert (lastEntries es) k v := by
  by_cases h : k ∈ es.map Prod.fst
  · unfold lastEntries
    rw [pairInsert_table _ _ _ _ (nodup_firstKeys _) (mem_firstKeys.2 h)
      (fun a ha => lastValue_isSome.2 (mem_firstKeys.1 ha))]
    rw [List.map_append, List.map_cons, List.map_nil, firstKeys_snoc, if_pos h]
    simp only [lastValue_snoc]
  · rw [pairInsert_new (by rw [keys_lastEntries, mem_firstKeys]; exact h)]
    unfold lastEntries
    rw [List.map_append, List.map_cons, List.map_nil, firstKeys_snoc, if_neg h, List.filterMap_append]
    congr 1
    · apply filterMap_congr_mem
      intro a ha
      have : k ≠ a := by rintro rfl; exact h (mem_firstKeys.1 ha)
      rw [lastValue_snoc, if_neg this]
    · simp [lastValue_snoc]

theorem lastEntries_nodup_aux (es done : List (Str × α)) (h : ((done ++ es).map Prod.fst).Nodup)
    (hd : lastEntries done = done) : lastEntries (done ++ es) = done ++ es := by
  induction es generalizing done with
  | nil => rwa [List.append_nil]
  | cons e es ih =>
    obtain ⟨k, v⟩ := e
    have h' := h
    rw [List.map_append, List.nodup_append] at h'
    have := ih (done ++ [(k, v)]) (by simpa using h) (by
      rw [lastEntries_snoc, hd, pairInsert_new]
      intro hk
      exact h'.2.2 k hk k (by simp) rfl)
    simpa using this

theorem lastEntries_nodup {es : List (Str × α)} (h : (es.map Prod.fst).Nodup) : lastEntries es = es :=
  lastEntries_nodup_aux es [] h rfl

theorem lastValue_mem {k : Str} {v : α} {es : List (Str × α)} (h : lastValue k es = some v) : (k, v) ∈ es := by
  induction es with
  | nil => simp [lastValue] at h
  | cons e es ih =>
    obtain ⟨a, b⟩ := e
    rw [lastValue] at h
    cases hl : lastValue k es with
    | some w =>
      rw [hl] at h
      simp only [Option.some.injEq] at h
      exact List.mem_cons_of_mem _ (ih (by rw [hl, h]))
    | none =>
      rw [hl] at h
      by_cases ha : a = k
      · simp only [ha, if_true, Option.some.injEq] at h
        simp [ha, h]
      · simp [ha] at h

theorem mem_lastEntries {e : Str × α} {es : List (Str × α)} (h : e ∈ lastEntries es) : e ∈ es := by
  unfold lastEntries at h
  rw [List.mem_filterMap] at h
  obtain ⟨k, _, h⟩ := h
  cases hl : lastValue k es with
  | none => simp [hl] at h
  | some v =>
    simp only [hl, Option.map_some, Option.some.injEq] at h
    rw [← h]
    exact lastValue_mem hl

end

variable {F : Type}

theorem mapInsert_eq (m : List (Str × Json F)) (k : Str) (v : Json F) : mapInsert m k v = pairInsert m k v := by
  induction m with
  | nil => rfl
  | cons e m ih =>
    obtain ⟨a, b⟩ := e
    rw [mapInsert, pairInsert, ih]

mutual
theorem hostBuild_eq : (v : Json F) → hostBuild v = lastWins v
  | .prim _ => rfl
  | .arr vs => by rw [hostBuild, lastWins, hostBuildItems_eq vs]
  | .obj es => by
    rw [hostBuild, lastWins]
    exact congrArg Json.obj (hostBuildMembers_eq es [])
theorem hostBuildItems_eq : (vs : List (Json F)) → hostBuildItems vs = lastWinsItems vs
  | [] => rfl
  | v :: vs => by rw [hostBuildItems, lastWinsItems, hostBuild_eq v, hostBuildItems_eq vs]
theorem hostBuildMembers_eq : (es : List (Str × Json F)) → (done : List (Str × Json F)) →
    hostBuildMembers (lastEntries done) es = lastEntries (done ++ lastWinsEntries es)
  | [], done => by rw [hostBuildMembers, lastWinsEntries, List.append_nil]
  | (k, v) :: es, done => by
    rw [hostBuildMembers, mapInsert_eq, ← lastEntries_snoc, hostBuild_eq v, hostBuildMembers_eq es, lastWinsEntries,
      List.append_assoc]
    rfl
end

section
variable [F64 F]

mutual
theorem toHost_eq : (v : Json F) → toHost v = lastWins (finiteOrNull v)
  | .prim .null => rfl
  | .prim (.bool _) => rfl
  | .prim (.str _) => rfl
  | .prim (.num x) => by
    rw [toHost, finiteOrNull]
    by_cases h : F64.isFinite x = true
    · rw [if_pos h]; rfl
    · rw [if_neg h]; rfl
  | .arr vs => by rw [toHost, finiteOrNull, lastWins, toHostItems_eq vs]
  | .obj es => by
    rw [toHost, finiteOrNull, lastWins]
    exact congrArg Json.obj (toHostEntries_eq es [])
theorem toHostItems_eq : (vs : List (Json F)) → toHostItems vs = lastWinsItems (finiteOrNullItems vs)
  | [] => rfl
  | v :: vs => by rw [toHostItems, finiteOrNullItems, lastWinsItems, toHost_eq v, toHostItems_eq vs]
theorem toHostEntries_eq : (es : List (Str × Json F)) → (done : List (Str × Json F)) →
    toHostEntries (lastEntries done) es = lastEntries (done ++ lastWinsEntries (finiteOrNullEntries es))
  | [], done => by rw [toHostEntries, finiteOrNullEntries, lastWinsEntries, List.append_nil]
  | (k, v) :: es, done => by
    rw [toHostEntries, mapInsert_eq, ← lastEntries_snoc, toHost_eq v, toHostEntries_eq es, finiteOrNullEntries,
      lastWinsEntries, List.append_assoc]
    rfl
end

end

theorem distinctEntries_iff {es : List (Str × Json F)} : DistinctKeysEntries es ↔ ∀ e ∈ es, DistinctKeys e.2 := by
  induction es with
  | nil => simp [DistinctKeysEntries]
  | cons e es ih =>
    obtain ⟨k, v⟩ := e
    simp [DistinctKeysEntries, ih]

mutual
theorem distinct_lastWins : (v : Json F) → DistinctKeys (lastWins v)
  | .prim _ => trivial
  | .arr vs => distinct_lastWinsItems vs
  | .obj es => by
    rw [lastWins, DistinctKeys, keys_lastEntries]
    exact ⟨nodup_firstKeys _, distinctEntries_iff.2 fun e he => distinct_lastWinsEntries es e (mem_lastEntries he)⟩
theorem distinct_lastWinsItems : (vs : List (Json F)) → DistinctKeysItems (lastWinsItems vs)
  | [] => trivial
  | v :: vs => ⟨distinct_lastWins v, distinct_lastWinsItems vs⟩
theorem distinct_lastWinsEntries : (es : List (Str × Json F)) → ∀ e ∈ lastWinsEntries es, DistinctKeys e.2
  | [] => by simp [lastWinsEntries]
  | (k, v) :: es => by
    rw [lastWinsEntries]
    intro e he
    rcases List.mem_cons.1 he with rfl | he
    · exact distinct_lastWins v
    · exact distinct_lastWinsEntries es e he
end

theorem keys_lastWinsEntries : (es : List (Str × Json F)) → (lastWinsEntries es).map Prod.fst = es.map Prod.fst
  | [] => rfl
  | (k, v) :: es => by rw [lastWinsEntries, List.map_cons, List.map_cons, keys_lastWinsEntries es]

mutual
theorem lastWins_id : (v : Json F) → DistinctKeys v → lastWins v = v
  | .prim _, _ => rfl
  | .arr vs, h => by rw [lastWins, lastWinsItems_id vs h]
  | .obj es, h => by
    rw [lastWins, lastWinsEntries_id es h.2, lastEntries_nodup h.1]
theorem lastWinsItems_id : (vs : List (Json F)) → DistinctKeysItems vs → lastWinsItems vs = vs
  | [], _ => rfl
  | v :: vs, h => by rw [lastWinsItems, lastWins_id v h.1, lastWinsItems_id vs h.2]
theorem lastWinsEntries_id : (es : List (Str × Json F)) → DistinctKeysEntries es → lastWinsEntries es = es
  | [], _ => rfl
  | (k, v) :: es, h => by rw [lastWinsEntries, lastWins_id v h.1, lastWinsEntries_id es h.2]
end

theorem lookupKey_table (f : Str → Option (Json F)) (k : Str) : (ks : List Str) → (∀ a ∈ ks, (f a).isSome) →
    lookupKey k (ks.filterMap fun a => (f a).map fun w => (a, w)) = if k ∈ ks then f k else none
  | [], _ => rfl
  | a :: ks, hf => by
    obtain ⟨w, hw⟩ := Option.isSome_iff_exists.1 (hf a (by simp))
    rw [List.filterMap_cons_some (b := (a, w)) (by simp [hw]), lookupKey,
      lookupKey_table f k ks fun b hb => hf b (by simp [hb])]
    by_cases h : a = k
    · subst h
      simp [hw]
    · simp [h, Ne.symm h]

theorem lookup_lastEntries (k : Str) (es : List (Str × Json F)) : lookupKey k (lastEntries es) = lastValue k es := by
  unfold lastEntries
  rw [lookupKey_table _ _ _ fun a ha => lastValue_isSome.2 (mem_firstKeys.1 ha)]
  by_cases h : k ∈ es.map Prod.fst
  · rw [if_pos (mem_firstKeys.2 h)]
  · rw [if_neg (mt mem_firstKeys.1 h)]
    cases hl : lastValue k es with
    | none => rfl
    | some v => exact absurd (lastValue_isSome.1 (by rw [hl]; rfl)) h

theorem lastValue_map (f : Json F → Json F) (k : Str) (es : List (Str × Json F)) :
    lastValue k (es.map fun e => (e.1, f e.2)) = (lastValue k es).map f := by
  induction es with
  | nil => rfl
  | cons e es ih =>
    obtain ⟨a, b⟩ := e
    rw [List.map_cons, lastValue, ih, lastValue]
    cases lastValue k es with
    | some w => rfl
    | none => by_cases h : a = k <;> simp [h]

section
variable [F64 F]

theorem lastWinsEntries_finite : (es : List (Str × Json F)) →
    lastWinsEntries (finiteOrNullEntries es) = es.map fun e => (e.1, toHost e.2)
  | [] => rfl
  | (k, v) :: es => by rw [finiteOrNullEntries, lastWinsEntries, List.map_cons, lastWinsEntries_finite es, toHost_eq v]

mutual
theorem fromHost_eq : (v : Json F) → fromHost v = normalize v
  | .prim .null => rfl
  | .prim (.bool _) => rfl
  | .prim (.str _) => rfl
  | .prim (.num x) => rfl
  | .arr vs => by rw [fromHost, normalize, fromHostItems_eq vs]
  | .obj es => by rw [fromHost, normalize, fromHostEntries_eq es]
theorem fromHostItems_eq : (vs : List (Json F)) → fromHostItems vs = normalizeItems vs
  | [] => rfl
  | v :: vs => by rw [fromHostItems, normalizeItems, fromHost_eq v, fromHostItems_eq vs]
theorem fromHostEntries_eq : (es : List (Str × Json F)) → fromHostEntries es = normalizeEntries es
  | [] => rfl
  | (k, v) :: es => by rw [fromHostEntries, normalizeEntries, fromHost_eq v, fromHostEntries_eq es]
end

mutual
theorem distinct_finite : (v : Json F) → DistinctKeys v → DistinctKeys (finiteOrNull v)
  | .prim .null, h => h
  | .prim (.bool _), h => h
  | .prim (.str _), h => h
  | .prim (.num x), _ => by
    rw [finiteOrNull]
    by_cases h : F64.isFinite x = true
    · rw [if_pos h]; trivial
    · rw [if_neg h]; trivial
  | .arr vs, h => distinctItems_finite vs h
  | .obj es, h => ⟨by rw [keys_finite es]; exact h.1, distinctEntries_finite es h.2⟩
theorem distinctItems_finite : (vs : List (Json F)) → DistinctKeysItems vs → DistinctKeysItems (finiteOrNullItems vs)
  | [], _ => trivial
  | v :: vs, h => ⟨distinct_finite v h.1, distinctItems_finite vs h.2⟩
theorem distinctEntries_finite : (es : List (Str × Json F)) → DistinctKeysEntries es →
    DistinctKeysEntries (finiteOrNullEntries es)
  | [], _ => trivial
  | (_, v) :: es, h => ⟨distinct_finite v h.1, distinctEntries_finite es h.2⟩
theorem keys_finite : (es : List (Str × Json F)) → (finiteOrNullEntries es).map Prod.fst = es.map Prod.fst
  | [] => rfl
  | (k, v) :: es => by rw [finiteOrNullEntries, List.map_cons, List.map_cons, keys_finite es]
end

end

/-! ## Transport -/

theorem allPrimsItems_iff_mem {P : Prim F → Prop} {vs : List (Json F)} : AllPrimsItems P vs ↔ ∀ v ∈ vs, AllPrims P v := by
  induction vs with
  | nil => simp [AllPrimsItems]
  | cons v vs ih => simp [AllPrimsItems, ih]

theorem allPrimsEntries_iff_mem {P : Prim F → Prop} {es : List (Str × Json F)} :
    AllPrimsEntries P es ↔ ∀ e ∈ es, AllPrims P e.2 := by
  induction es with
  | nil => simp [AllPrimsEntries]
  | cons e es ih => obtain ⟨k, v⟩ := e; simp [AllPrimsEntries, ih]

mutual
theorem allPrims_lastWins {P : Prim F → Prop} : {v : Json F} → AllPrims P v → AllPrims P (lastWins v)
  | .prim _, h => h
  | .arr _, h => allPrimsItems_lastWins h
  | .obj es, h => by
    rw [lastWins, AllPrims, allPrimsEntries_iff_mem]
    intro e he
    exact allPrimsEntries_lastWins es h e (mem_lastEntries he)
theorem allPrimsItems_lastWins {P : Prim F → Prop} : {vs : List (Json F)} → AllPrimsItems P vs →
    AllPrimsItems P (lastWinsItems vs)
  | [], _ => trivial
  | _ :: _, h => ⟨allPrims_lastWins h.1, allPrimsItems_lastWins h.2⟩
theorem allPrimsEntries_lastWins {P : Prim F → Prop} : (es : List (Str × Json F)) → AllPrimsEntries P es →
    ∀ e ∈ lastWinsEntries es, AllPrims P e.2
  | [], _ => by simp [lastWinsEntries]
  | (k, v) :: es, h => by
    rw [lastWinsEntries]
    intro e he
    rcases List.mem_cons.1 he with rfl | he
    · exact allPrims_lastWins h.1
    · exact allPrimsEntries_lastWins es h.2 e he
end

section
variable [F64 F]

mutual
theorem allPrims_finiteOrNull : (v : Json F) → AllPrims FinitePrim (finiteOrNull v)
  | .prim .null => trivial
  | .prim (.bool _) => trivial
  | .prim (.str _) => trivial
  | .prim (.num x) => by
    rw [finiteOrNull]
    by_cases h : F64.isFinite x = true
    · rw [if_pos h]; exact h
    · rw [if_neg h]; trivial
  | .arr vs => allPrimsItems_finiteOrNull vs
  | .obj es => allPrimsEntries_finiteOrNull es
theorem allPrimsItems_finiteOrNull : (vs : List (Json F)) → AllPrimsItems FinitePrim (finiteOrNullItems vs)
  | [] => trivial
  | v :: vs => ⟨allPrims_finiteOrNull v, allPrimsItems_finiteOrNull vs⟩
theorem allPrimsEntries_finiteOrNull : (es : List (Str × Json F)) → AllPrimsEntries FinitePrim (finiteOrNullEntries es)
  | [] => trivial
  | (_, v) :: es => ⟨allPrims_finiteOrNull v, allPrimsEntries_finiteOrNull es⟩
end

theorem finite_of_plain {v : Json F} (h : PlainNumbers v) : AllPrims FinitePrim v := allPrims_mono (fun p hp => by
    cases p with
    | num x => exact hp.1
    | _ => trivial) v h

end

theorem distinct_perm {es es' : List (Str × Json F)} (h : es.Perm es') (hd : DistinctKeys (.obj es)) :
    DistinctKeys (.obj es') := by
  obtain ⟨h1, h2⟩ := hd
  exact ⟨((h.map Prod.fst).nodup_iff).1 h1, distinctEntries_iff.2 fun e he => distinctEntries_iff.1 h2 e (h.mem_iff.2 he)⟩

theorem distinctItems_iff {vs : List (Json F)} : DistinctKeysItems vs ↔ ∀ v ∈ vs, DistinctKeys v := by
  induction vs with
  | nil => simp [DistinctKeysItems]
  | cons v vs ih => simp [DistinctKeysItems, ih]

theorem distinctItems_mid {pre post : List (Json F)} {a : Json F} : DistinctKeysItems (pre ++ a :: post) ↔
    DistinctKeysItems pre ∧ DistinctKeys a ∧ DistinctKeysItems post := by
  induction pre with
  | nil => simp [DistinctKeysItems]
  | cons v vs ih => simp [DistinctKeysItems, ih, and_assoc]

theorem distinctEntries_mid {pre post : List (Str × Json F)} {k : Str} {a : Json F} :
    DistinctKeysEntries (pre ++ (k, a) :: post) ↔
      DistinctKeysEntries pre ∧ DistinctKeys a ∧ DistinctKeysEntries post := by
  induction pre with
  | nil => simp [DistinctKeysEntries]
  | cons e es ih => obtain ⟨l, v⟩ := e; simp [DistinctKeysEntries, ih, and_assoc]

theorem distinct_equiv {v w : Json F} (h : v ≃ w) : DistinctKeys v ↔ DistinctKeys w := by
  induction h with
  | refl => rfl
  | trans _ _ ih1 ih2 => exact ih1.trans ih2
  | arr pre post _ ih => simp only [DistinctKeys, distinctItems_mid, ih]
  | obj pre post k _ ih => simp only [DistinctKeys, distinctEntries_mid, ih, List.map_append, List.map_cons]
  | perm h => exact ⟨distinct_perm h, distinct_perm h.symm⟩

/-! ## Printing -/

section
variable [F64 F] [JsonNum F]

/-- The indent width of the two formatters. -/
def serdeIndent (pretty : Bool) : Nat := if pretty then 2 else 0

theorem flatten_spaces (n : Nat) : (List.replicate n [' ', ' ']).flatten = List.replicate (n * 2) ' ' := by
  induction n with
  | zero => rfl
  | succ n ih =>
    rw [List.replicate_succ, List.flatten_cons, ih, show (n + 1) * 2 = 2 + n * 2 by omega, ← List.replicate_append_replicate]
    rfl

theorem serdeBefore_eq (pretty first : Bool) (level : Nat) :
    serdeBefore pretty first level = (if first then [] else [',']) ++ jsonBreak (serdeIndent pretty) level := by
  unfold serdeBefore jsonBreak serdeIndent
  cases pretty <;> cases first <;> simp [flatten_spaces]

theorem serdeEnd_eq (pretty : Bool) (level : Nat) : serdeEnd pretty level = jsonBreak (serdeIndent pretty) level := by
  unfold serdeEnd jsonBreak serdeIndent
  cases pretty <;> simp [flatten_spaces]

/-- The texts after the first are preceded by commas. -/
def commaAll : List Str → Str
  | [] => []
  | t :: ts => ',' :: (t ++ commaAll ts)

theorem commaSep_all (t : Str) (ts : List Str) : commaSep (t :: ts) = t ++ commaAll ts := by
  induction ts generalizing t with
  | nil => simp [commaSep, commaAll]
  | cons u ts ih => rw [commaSep, ih, commaAll]; simp

mutual
theorem serdeWrite_eq (pretty : Bool) (level : Nat) : (v : Json F) →
    serdeWrite pretty level v = jsonLayout serdeString jsonNumber (serdeIndent pretty) level v
  | .prim .null => rfl
  | .prim (.bool true) => rfl
  | .prim (.bool false) => rfl
  | .prim (.num _) => rfl
  | .prim (.str _) => rfl
  | .arr [] => rfl
  | .arr (v :: vs) => by
    rw [serdeWrite, if_neg (by simp), jsonLayout, serdeItems_eq pretty true (level + 1) (v :: vs), serdeEnd_eq]
    rw [jsonLayoutItems, commaSep_all]
    simp [commaAll]
  | .obj [] => rfl
  | .obj ((k, v) :: es) => by
    rw [serdeWrite, if_neg (by simp), jsonLayout, serdeMembers_eq pretty true (level + 1) ((k, v) :: es), serdeEnd_eq]
    rw [jsonLayoutMembers, commaSep_all]
    simp [commaAll]
theorem serdeItems_eq (pretty first : Bool) (level : Nat) : (vs : List (Json F)) →
    serdeItems pretty first level vs =
      (if first then (commaAll (jsonLayoutItems serdeString jsonNumber (serdeIndent pretty) level vs)).drop 1
        else commaAll (jsonLayoutItems serdeString jsonNumber (serdeIndent pretty) level vs))
  | [] => by cases first <;> rfl
  | v :: vs => by
    rw [serdeItems, serdeBefore_eq, serdeWrite_eq pretty level v, serdeItems_eq pretty false level vs, jsonLayoutItems,
      commaAll]
    cases first <;> simp
theorem serdeMembers_eq (pretty first : Bool) (level : Nat) : (es : List (Str × Json F)) →
    serdeMembers pretty first level es =
      (if first then (commaAll (jsonLayoutMembers serdeString jsonNumber (serdeIndent pretty) level es)).drop 1
        else commaAll (jsonLayoutMembers serdeString jsonNumber (serdeIndent pretty) level es))
  | [] => by cases first <;> rfl
  | (k, v) :: es => by
    rw [serdeMembers, serdeBefore_eq, serdeWrite_eq pretty level v, serdeMembers_eq pretty false level es,
      jsonLayoutMembers, commaAll]
    have : (if pretty then [':', ' '] else [':']) = ':' :: (if serdeIndent pretty = 0 then [] else [' ']) := by
      cases pretty <;> rfl
    rw [this]
    cases first <;> simp
end

end

end Toon
