import Verif.Spec.Diff
import Verif.Lemmas.Layout
import Verif.Lemmas.Equiv

/-! The lines of a part of a value do not depend on the other parts. -/

namespace Toon

section
variable {F : Type}

/-! ## Without folding the surroundings do not matter -/

mutual

theorem value_free {n : Nat} {taken path : List Str} {fd : Nat} (v : Json F) {l : Layout F}
    (h : ValueLayout false n taken path fd v l) (taken' path' : List Str) (fd' : Nat) : ValueLayout false n taken' path' fd' v l := by
  match v with
  | .prim p => cases h; exact .prim p
  | .arr items =>
    cases h with
    | inline h1 => exact .inline h1
    | table h1 h2 => exact .table h1 h2
    | list h1 h2 h3 => exact .list h1 h2 h3
  | .obj es =>
    cases h with
    | object h1 => exact .object (entries_free es h1 _ _ _ _)
termination_by sizeOf v

theorem entries_free {n : Nat} {siblings taken path : List Str} {fd : Nat} (es : List (Str × Json F))
    {ls : List (Str × Layout F)} (h : EntriesLayout false n siblings taken path fd es ls)
    (siblings' taken' path' : List Str) (fd' : Nat) : EntriesLayout false n siblings' taken' path' fd' es ls := by
  match es with
  | [] => cases h; exact .nil
  | (k, v) :: es =>
    cases h with
    | folded h1 => simp at h1
    | plain h1 h2 h3 => exact .plain (by simp) (value_free v h2 _ _ _) (entries_free es h3 _ _ _ _)
termination_by sizeOf es

end

theorem entriesLayout_append {n : Nat} {s t p : List Str} {fd : Nat} {a b : List (Str × Json F)} {la lb : List (Str × Layout F)}
    (ha : EntriesLayout false n s t p fd a la) (hb : EntriesLayout false n s t p fd b lb) :
    EntriesLayout false n s t p fd (a ++ b) (la ++ lb) := by
  induction a generalizing la with
  | nil => cases ha; exact hb
  | cons e a ih =>
    cases ha with
    | folded h1 => simp at h1
    | plain h1 h2 h3 => exact .plain h1 h2 (ih h3)

variable [F64 F]

theorem entriesRows_append (d : Char) (depth : Nat) (a b : List (Str × Layout F)) :
    Layout.entriesRows d depth (a ++ b) = Layout.entriesRows d depth a ++ Layout.entriesRows d depth b := by
  induction a with
  | nil => rw [Layout.entriesRows]; rfl
  | cons e a ih => obtain ⟨k, v⟩ := e; simp only [List.cons_append, Layout.entriesRows, ih, List.append_assoc]

/-! ## Deeper -/

def lower (n : Nat) (r : Row) : Row := (r.1 + n, r.2)

mutual

theorem entryRows_lower (d : Char) (head : Str) (depth inner n : Nat) (l : Layout F) :
    l.entryRows d head (depth + n) (inner + n) = (l.entryRows d head depth inner).map (lower n) := by
  match l with
  | .prim p => simp [Layout.entryRows, lower]
  | .inline ps => simp [Layout.entryRows, lower]
  | .table cols rows => simp [Layout.entryRows, lower]
  | .list items => simp only [Layout.entryRows, List.map_cons, itemsRows_lower d inner n items, lower]
  | .object es => simp only [Layout.entryRows, List.map_cons, entriesRows_lower d inner n es, lower]

theorem entriesRows_lower (d : Char) (depth n : Nat) (es : List (Str × Layout F)) :
    Layout.entriesRows d (depth + n) es = (Layout.entriesRows d depth es).map (lower n) := by
  match es with
  | [] => simp [Layout.entriesRows]
  | (k, v) :: es =>
    rw [Layout.entriesRows, Layout.entriesRows, List.map_append, ← entryRows_lower d _ depth (depth + 1) n v,
      ← entriesRows_lower d depth n es, show depth + n + 1 = depth + 1 + n by omega]

theorem itemRows_lower (d : Char) (depth n : Nat) (l : Layout F) :
    l.itemRows d (depth + n) = (l.itemRows d depth).map (lower n) := by
  match l with
  | .prim p => simp [Layout.itemRows, lower]
  | .inline ps => simp [Layout.itemRows, lower]
  | .table cols rows => simp [Layout.itemRows, lower]; intros; omega
  | .list items =>
    simp only [Layout.itemRows, List.map_cons]
    rw [show depth + n + 1 = depth + 1 + n by omega, itemsRows_lower d (depth + 1) n items]
    rfl
  | .object [] => simp [Layout.itemRows, lower]
  | .object ((k, v) :: es) =>
    rw [Layout.itemRows, Layout.itemRows, List.map_append, ← entryRows_lower d _ depth (depth + 2) n v,
      ← entriesRows_lower d (depth + 1) n es, show depth + n + 2 = depth + 2 + n by omega,
      show depth + n + 1 = depth + 1 + n by omega]

theorem itemsRows_lower (d : Char) (depth n : Nat) (ls : List (Layout F)) :
    Layout.itemsRows d (depth + n) ls = (Layout.itemsRows d depth ls).map (lower n) := by
  match ls with
  | [] => simp [Layout.itemsRows]
  | v :: vs =>
    rw [Layout.itemsRows, Layout.itemsRows, List.map_append, itemRows_lower d depth n v, itemsRows_lower d depth n vs]

end

theorem rowText_lower (indent n : Nat) (r : Row) : rowText indent (lower n r) = pushed (indent * n) (rowText indent r) := by
  unfold rowText lower pushed
  rw [← List.append_assoc, List.replicate_append_replicate, Nat.mul_add, Nat.add_comm]

/-! ## Objects -/

theorem normalizeEntries_append (a b : List (Str × Json F)) :
    normalizeEntries (a ++ b) = normalizeEntries a ++ normalizeEntries b := by
  induction a with
  | nil => simp [normalizeEntries]
  | cons e a ih => obtain ⟨k, v⟩ := e; simp [normalizeEntries, ih]

/-- The lines of an object are those of its entries, whose layout has nothing to do with anything else. -/
theorem lines_object [LawfulF64 F] {opts : EncOpts} (ho : opts.fold = false) (es : List (Str × Json F)) :
    ∃ ls, EntriesLayout false opts.flattenDepth [] [] [] 0 (normalizeEntries es) ls ∧
      encodeLines opts (.obj es) = (Layout.entriesRows opts.delim 0 ls).map (rowText opts.indent) := by
  obtain ⟨l, h1, h2⟩ := document_layout opts (.obj (normalizeEntries es))
  rw [ho] at h1
  cases h1 with
  | @object _ _ _ _ ls h1 =>
    refine ⟨ls, entries_free _ h1 _ _ _ _, ?_⟩
    rw [encodeLines, normalize, encodeJsonValue]
    rw [Layout.documentRows] at h2
    rw [← h2, rowsIn, List.map_map]
    rfl

theorem lines_append [LawfulF64 F] {opts : EncOpts} (ho : opts.fold = false) (a b : List (Str × Json F)) :
    encodeLines opts (.obj (a ++ b)) = encodeLines opts (.obj a) ++ encodeLines opts (.obj b) := by
  obtain ⟨la, a1, a2⟩ := lines_object ho a
  obtain ⟨lb, b1, b2⟩ := lines_object ho b
  obtain ⟨lc, c1, c2⟩ := lines_object ho (a ++ b)
  rw [normalizeEntries_append] at c1
  have := entries_unique _ c1 (entriesLayout_append a1 b1)
  rw [a2, b2, c2, this, entriesRows_append, List.map_append]

theorem lines_nested [LawfulF64 F] {opts : EncOpts} (ho : opts.fold = false) (k : Str) (es : List (Str × Json F)) :
    encodeLines opts (.obj [(k, .obj es)]) =
      (keyTextOf k ++ [':']) :: (encodeLines opts (.obj es)).map (pushed opts.indent) := by
  obtain ⟨le, e1, e2⟩ := lines_object ho es
  obtain ⟨lc, c1, c2⟩ := lines_object ho [(k, .obj es)]
  have : EntriesLayout (F := F) false opts.flattenDepth [] [] [] 0 (normalizeEntries [(k, .obj es)]) [(k, .object le)] := by
    rw [normalizeEntries, normalize, normalizeEntries]
    exact .plain (by simp) (.object (entries_free _ e1 _ _ _ _)) .nil
  have := entries_unique _ c1 this
  rw [c2, e2, this, Layout.entriesRows, Layout.entryRows, Layout.entriesRows, List.append_nil, List.map_cons]
  congr 1
  rw [entriesRows_lower, List.map_map, List.map_map]
  apply List.map_congr_left
  intro r _
  simp only [Function.comp, rowText_lower, Nat.mul_one]

/-! ## With folding -/

theorem entryRows_head (d : Char) (head : Str) (depth inner : Nat) (l : Layout F) :
    ∃ (t : Str) (rows : List Row), l.entryRows d head depth inner = (depth, head ++ t) :: rows.map (lower inner) := by
  match l with
  | .prim p => exact ⟨_, [], by rw [Layout.entryRows]; rfl⟩
  | .inline ps => exact ⟨_, [], by rw [Layout.entryRows]; rfl⟩
  | .table cols rows => exact ⟨tableText d cols rows.length, rows.map fun row => (0, cellsText d row), by rw [Layout.entryRows]; simp [lower]⟩
  | .list items =>
    refine ⟨lengthMark d items.length ++ [':'], Layout.itemsRows d 0 items, ?_⟩
    rw [Layout.entryRows, ← itemsRows_lower, Nat.zero_add, List.append_assoc]
  | .object es => exact ⟨_, Layout.entriesRows d 0 es, by rw [Layout.entryRows, ← entriesRows_lower, Nat.zero_add]⟩

omit [F64 F] in
theorem entriesLayout_split {fold : Bool} {n : Nat} {S t p : List Str} {fd : Nat} {a b : List (Str × Json F)}
    {ls : List (Str × Layout F)} (h : EntriesLayout fold n S t p fd (a ++ b) ls) :
    ∃ la lb, ls = la ++ lb ∧ EntriesLayout fold n S t p fd a la ∧ EntriesLayout fold n S t p fd b lb := by
  induction a generalizing ls with
  | nil => exact ⟨[], ls, rfl, .nil, h⟩
  | cons e a ih =>
    cases h with
    | folded h1 h2 h3 h4 =>
      obtain ⟨la, lb, rfl, g1, g2⟩ := ih h4
      exact ⟨_ :: la, lb, rfl, .folded h1 h2 h3 g1, g2⟩
    | plain h1 h2 h3 =>
      obtain ⟨la, lb, rfl, g1, g2⟩ := ih h3
      exact ⟨_ :: la, lb, rfl, .plain h1 h2 g1, g2⟩

theorem identifier_bareKey {k : Str} (h : identifier k = true) : bareKey k = true := by
  cases k with
  | nil => simp [identifier] at h
  | cons c rest =>
    simp only [identifier, Bool.and_eq_true, List.all_eq_true] at h
    simp only [bareKey, Bool.and_eq_true, List.all_eq_true]
    exact ⟨h.1, fun x hx => by rw [h.2 x hx]; rfl⟩

theorem dotted_bareKey : ∀ (k : Str) (ks : List Str), (∀ s ∈ k :: ks, identifier s = true) → bareKey (dotted (k :: ks)) = true
  | k, [], h => identifier_bareKey (h k (by simp))
  | k, k' :: ks, h => by
    have ih := dotted_bareKey k' ks (fun s hs => h s (List.mem_cons_of_mem _ hs))
    have hk := identifier_bareKey (h k (by simp))
    rw [dotted]
    · cases k with
      | nil => simp [bareKey] at hk
      | cons c rest =>
        simp only [bareKey, List.cons_append, Bool.and_eq_true] at hk ⊢
        refine ⟨hk.1, ?_⟩
        rw [List.all_append, hk.2, Bool.true_and, List.all_cons]
        cases hd : dotted (k' :: ks) with
        | nil => rfl
        | cons c' rest' =>
          rw [hd] at ih
          simp only [bareKey, Bool.and_eq_true, Bool.or_eq_true] at ih
          simp only [List.all_cons, ih.2, Bool.and_true, Bool.or_eq_true, Bool.and_eq_true]
          refine ⟨by simp, ?_⟩
          rcases ih.1 with h1 | h1
          · left; left; simp [Char.isAlphanum, h1]
          · left; right; exact h1
    · simp

theorem foldedKey_text {k : Str} {ks : List Str} (h : ∀ s ∈ k :: ks, identifier s = true) :
    ∃ t, keyTextOf (dotted (k :: ks)) = keyTextOf k ++ t := by
  rw [keyTextOf, if_pos (dotted_bareKey k ks h), keyTextOf, if_pos (identifier_bareKey (h k (by simp)))]
  cases ks with
  | nil => exact ⟨[], by simp [dotted]⟩
  | cons k' ks => exact ⟨_, by rw [dotted]; simp⟩

omit [F64 F] in
theorem within_obj (outer : List (Surround F)) (s : Surround F) (v : Json F) : ∃ es, within outer (s.around v) = .obj es := by
  cases outer with
  | nil => exact ⟨_, rfl⟩
  | cons t ts => exact ⟨_, rfl⟩

theorem normalize_around (s : Surround F) (v : Json F) :
    normalize (s.around v) = .obj (normalizeEntries s.before ++ (s.key, normalize v) :: normalizeEntries s.after) := by
  rw [Surround.around, normalize, normalizeEntries_append, normalizeEntries]

theorem normalizeEntries_fst (es : List (Str × Json F)) : (normalizeEntries es).map Prod.fst = es.map Prod.fst := by
  induction es with
  | nil => rfl
  | cons e es ih => obtain ⟨k, v⟩ := e; simp [normalizeEntries, ih]

theorem around_shared {s : Surround F} (h : s.Shared) (v : Json F) (k : Str) (w : Json F) : normalize (s.around v) ≠ .obj [(k, w)] := by
  rw [normalize_around]
  intro e
  have e := congrArg List.length (Json.obj.inj e)
  have h1 := congrArg List.length (normalizeEntries_fst s.before)
  have h2 := congrArg List.length (normalizeEntries_fst s.after)
  simp only [List.length_map, List.length_append, List.length_cons, List.length_nil] at e h1 h2
  rcases h with h | h
  · have := List.length_pos_iff.mpr h; omega
  · have := List.length_pos_iff.mpr h; omega

/-- The rows above and below those of an entry. -/
theorem within_rows (fold : Bool) (n : Nat) (d : Char) (s : Surround F) (hs : s.Shared) (outer : List (Surround F))
    (ho : ∀ t ∈ outer, t.Shared) (taken path : List Str) (fd : Nat) :
    ∃ A B : List Row, ∀ v ls, ValueLayout fold n taken path fd (normalize (within outer (s.around v))) (.object ls) →
      ∃ (t : Str) (rows : List Row), Layout.entriesRows d 0 ls = A ++ (outer.length, keyTextOf s.key ++ t) :: rows.map (lower (outer.length + 1)) ++ B := by
  induction outer generalizing path with
  | nil =>
    by_cases hex : ∃ la lb, EntriesLayout fold n ((s.before ++ (s.key, Json.prim .null) :: s.after).map Prod.fst) taken path fd
        (normalizeEntries s.before) la ∧ EntriesLayout fold n ((s.before ++ (s.key, Json.prim .null) :: s.after).map Prod.fst)
        taken path fd (normalizeEntries s.after) lb
    · obtain ⟨la, lb, ha, hb⟩ := hex
      refine ⟨Layout.entriesRows d 0 la, Layout.entriesRows d 0 lb, fun v ls h => ?_⟩
      rw [within, normalize_around] at h
      cases h with
      | object h =>
        rw [List.map_append, List.map_cons, normalizeEntries_fst, normalizeEntries_fst] at h
        simp only [List.map_append, List.map_cons] at ha hb
        obtain ⟨la', lb', rfl, h1, h2⟩ := entriesLayout_split h
        obtain rfl := entries_unique _ ha h1
        cases h2 with
        | @folded _ _ _ _ _ _ ks leaf l _ ls g1 g2 g3 g4 =>
          obtain rfl := entries_unique _ hb g4
          obtain ⟨t, rows, e⟩ := entryRows_head d (keyTextOf (dotted (s.key :: ks))) 0 (0 + 1) l
          obtain ⟨t', e'⟩ := foldedKey_text g2.2.2.1
          refine ⟨t' ++ t, rows, ?_⟩
          rw [entriesRows_append, Layout.entriesRows, e, e']
          simp
        | @plain _ _ _ _ _ _ l _ _ g1 g2 g3 =>
          obtain rfl := entries_unique _ hb g3
          obtain ⟨t, rows, e⟩ := entryRows_head d (keyTextOf s.key) 0 (0 + 1) l
          refine ⟨t, rows, ?_⟩
          rw [entriesRows_append, Layout.entriesRows, e]
          simp
    · refine ⟨[], [], fun v ls h => absurd ?_ hex⟩
      rw [within, normalize_around] at h
      cases h with
      | object h =>
        rw [List.map_append, List.map_cons, normalizeEntries_fst, normalizeEntries_fst] at h
        obtain ⟨la', lb', rfl, h1, h2⟩ := entriesLayout_split h
        simp only [List.map_append, List.map_cons]
        cases h2 with
        | folded _ _ _ g => exact ⟨_, _, h1, g⟩
        | plain _ _ g => exact ⟨_, _, h1, g⟩
  | cons u outer ih =>
    obtain ⟨A, B, hAB⟩ := ih (fun t ht => ho t (by simp [ht])) (path ++ [u.key])
    have hsh : ∀ v k w, normalize (within outer (s.around v)) ≠ .obj [(k, w)] := by
      intro v
      cases outer with
      | nil => exact around_shared hs v
      | cons u' outer => exact around_shared (ho u' (by simp)) _
    have key : ∀ v ls, ValueLayout fold n taken path fd (normalize (within (u :: outer) (s.around v))) (.object ls) →
        ∃ la lb l', ls = la ++ (u.key, .object l') :: lb ∧
          EntriesLayout fold n ((u.before ++ (u.key, Json.prim .null) :: u.after).map Prod.fst) taken path fd
            (normalizeEntries u.before) la ∧
          EntriesLayout fold n ((u.before ++ (u.key, Json.prim .null) :: u.after).map Prod.fst) taken path fd
            (normalizeEntries u.after) lb ∧
          ValueLayout fold n taken (path ++ [u.key]) fd (normalize (within outer (s.around v))) (.object l') := by
      intro v ls h
      rw [within, normalize_around] at h
      cases h with
      | object h =>
        rw [List.map_append, List.map_cons, normalizeEntries_fst, normalizeEntries_fst] at h
        obtain ⟨la', lb', rfl, h1, h2⟩ := entriesLayout_split h
        simp only [List.map_append, List.map_cons]
        cases h2 with
        | @folded _ _ _ _ _ _ ks _ _ _ _ g1 g2 =>
          obtain ⟨⟨e, _⟩, hne, _⟩ := g2
          cases ks with
          | nil => exact absurd rfl hne
          | cons x ks => exact absurd e (hsh v x _)
        | plain g1 g2 g3 =>
          obtain ⟨es, he⟩ := within_obj outer s v
          rw [he, normalize] at g2
          cases g2 with
          | object g2 => exact ⟨_, _, _, rfl, h1, g3, by rw [he, normalize]; exact .object g2⟩
    by_cases hex : ∃ v ls, ValueLayout fold n taken path fd (normalize (within (u :: outer) (s.around v))) (.object ls)
    · obtain ⟨v, ls, h⟩ := hex
      obtain ⟨la, lb, _, _, ha, hb, _⟩ := key v ls h
      refine ⟨Layout.entriesRows d 0 la ++ (0, keyTextOf u.key ++ [':']) :: A.map (lower 1),
        B.map (lower 1) ++ Layout.entriesRows d 0 lb, fun v ls h => ?_⟩
      obtain ⟨la', lb', l', rfl, h1, h2, h3⟩ := key v ls h
      obtain rfl := entries_unique _ ha h1
      obtain rfl := entries_unique _ hb h2
      obtain ⟨t, rows, e⟩ := hAB v l' h3
      refine ⟨t, rows, ?_⟩
      rw [entriesRows_append, Layout.entriesRows, Layout.entryRows, entriesRows_lower, e]
      simp only [List.map_append, List.map_cons, List.map_map, List.append_assoc, List.cons_append, List.length_cons]
      have : (lower 1 ∘ lower (outer.length + 1) : Row → Row) = lower (outer.length + 1 + 1) := funext fun r => by
        simp [lower, Nat.add_assoc]
      rw [this]
      simp [lower]
    · exact ⟨[], [], fun v ls h => absurd ⟨v, ls, h⟩ hex⟩

theorem lines_within [LawfulF64 F] (opts : EncOpts) (s : Surround F) (hs : s.Shared) (outer : List (Surround F))
    (ho : ∀ t ∈ outer, t.Shared) :
    ∃ above below, ∀ v, ∃ (t : Str) (tail : List Str), encodeLines opts (within outer (s.around v)) =
      above ++ pushed (opts.indent * outer.length) (keyTextOf s.key ++ t) ::
        tail.map (pushed (opts.indent * (outer.length + 1))) ++ below := by
  have htaken : ∃ taken, ∀ v : Json F, dottedKeys (normalize (within outer (s.around v))) = taken := by
    cases outer with
    | nil =>
      exact ⟨(s.before.map Prod.fst ++ s.key :: s.after.map Prod.fst).filter fun k => decide ('.' ∈ k), fun v => by
        rw [within, normalize_around, dottedKeys, List.map_append, List.map_cons, normalizeEntries_fst, normalizeEntries_fst]⟩
    | cons u us =>
      exact ⟨(u.before.map Prod.fst ++ u.key :: u.after.map Prod.fst).filter fun k => decide ('.' ∈ k), fun v => by
        rw [within, normalize_around, dottedKeys, List.map_append, List.map_cons, normalizeEntries_fst, normalizeEntries_fst]⟩
  obtain ⟨taken, htaken⟩ := htaken
  obtain ⟨A, B, h⟩ := within_rows opts.fold opts.flattenDepth opts.delim s hs outer ho taken [] opts.flattenDepth
  refine ⟨A.map (rowText opts.indent), B.map (rowText opts.indent), fun v => ?_⟩
  obtain ⟨l, h1, h2⟩ := document_layout opts (normalize (within outer (s.around v)))
  rw [DocumentLayout, htaken] at h1
  have hobj : ∃ ls, l = .object ls := by
    obtain ⟨es, he⟩ := within_obj outer s v
    rw [he, normalize] at h1
    cases h1; exact ⟨_, rfl⟩
  obtain ⟨ls, rfl⟩ := hobj
  obtain ⟨t, rows, e⟩ := h v ls h1
  refine ⟨t, rows.map (rowText opts.indent), ?_⟩
  have h3 : encodeLines opts (within outer (s.around v)) = (Layout.entriesRows opts.delim 0 ls).map (rowText opts.indent) := by
    rw [encodeLines, encodeJsonValue]
    rw [Layout.documentRows] at h2
    rw [← h2, rowsIn, List.map_map]
    rfl
  rw [h3, e]
  simp only [List.map_append, List.map_cons, List.map_map]
  have : (rowText opts.indent ∘ lower (outer.length + 1)) = pushed (opts.indent * (outer.length + 1)) ∘ rowText opts.indent :=
    funext fun r => rowText_lower _ _ r
  rw [this]
  rfl

/-! ## Arrays -/

theorem normalizeItems_eq (vs : List (Json F)) : normalizeItems vs = vs.map normalize := by
  induction vs with
  | nil => rfl
  | cons v vs ih => simp [normalizeItems, ih]

theorem encodeItems_flat (opts : EncOpts) (vs : List (Json F)) (depth : Nat) :
    encodeItems opts vs depth = vs.flatMap fun v => encodeItem opts v depth := by
  induction vs with
  | nil => rw [encodeItems]; rfl
  | cons v vs ih => rw [encodeItems, ih]; rfl

theorem encodeItem_hyphen (opts : EncOpts) (v : Json F) (depth : Nat) :
    ∃ t ls, encodeItem opts v depth = ⟨depth, '-' :: t⟩ :: ls := by
  match v with
  | .prim p => rw [encodeItem]; exact ⟨_, _, rfl⟩
  | .arr items =>
    rw [encodeItem]
    split
    · exact ⟨_, _, rfl⟩
    · exact ⟨_, _, rfl⟩
  | .obj [] => rw [encodeItem, encodeObjectItem]; exact ⟨_, _, rfl⟩
  | .obj ((k, v) :: es) =>
    rw [encodeItem, encodeObjectItem.eq_def]
    simp only
    cases v with
    | prim p => exact ⟨_, _, rfl⟩
    | arr items =>
      simp only
      split
      · exact ⟨_, _, rfl⟩
      · split
        · exact ⟨_, _, rfl⟩
        · split
          · exact ⟨_, _, rfl⟩
          · exact ⟨_, _, rfl⟩
    | obj es => exact ⟨_, _, rfl⟩

/-- The lines of an array under a key. -/
theorem lines_array (opts : EncOpts) (k : Str) (items : List (Json F)) :
    encodeLines opts (.obj [(k, .arr items)]) = (keyTextOf k ++ arrayHead opts none (items.map normalize)) ::
      (arrayTail opts (items.map normalize) 0).map (renderLine opts.indent) := by
  rw [encodeLines, normalize, normalizeEntries, normalize, normalizeEntries, encodeJsonValue, encodeValue]
  rw [encodeObject, encodeEntries, encodeEntries, List.append_nil, normalizeItems_eq, encodeKeyValue.eq_def]
  split
  · rename_i folded hf
    rw [tryFold] at hf
    simp [Json.isObj] at hf
  · simp only
    rw [encodeArray_head_tail, List.map_cons, arrayHead_key, keyTextOf_eq]
    simp [renderLine]

/-- The lines of an array at the root. -/
theorem lines_root (opts : EncOpts) (items : List (Json F)) :
    encodeLines opts (.arr items) = arrayHead opts none (items.map normalize) ::
      (arrayTail opts (items.map normalize) 0).map (renderLine opts.indent) := by
  rw [encodeLines, normalize, encodeJsonValue, encodeValue, normalizeItems_eq, encodeArray_head_tail, List.map_cons]
  simp [renderLine]

theorem mixed_array (opts : EncOpts) {items : List (Json F)} (hm : Mixed items) :
    arrayHead opts none (items.map normalize) = lengthMark opts.delim items.length ++ [':'] ∧
    arrayTail opts (items.map normalize) 0 = items.flatMap fun v => encodeItem opts (normalize v) 1 := by
  obtain ⟨⟨p, hp⟩, hc⟩ := hm
  have hprim : Json.prim (normPrim p) ∈ items.map normalize := List.mem_map.mpr ⟨_, hp, by rw [normalize]⟩
  have hcont : ∃ c ∈ items.map normalize, c.isPrim = false := by
    rcases hc with ⟨vs, h⟩ | ⟨es, h⟩
    · exact ⟨_, List.mem_map.mpr ⟨_, h, rfl⟩, by rw [normalize]; rfl⟩
    · exact ⟨_, List.mem_map.mpr ⟨_, h, rfl⟩, by rw [normalize]; rfl⟩
  obtain ⟨c, hc1, hc2⟩ := hcont
  have h1 : isArrayOfPrims (items.map normalize) = false := by
    rw [Bool.eq_false_iff]
    intro h
    rw [isArrayOfPrims, List.all_eq_true] at h
    rw [h c hc1] at hc2; simp at hc2
  have h3 : isArrayOfObjs (items.map normalize) = false := by
    rw [Bool.eq_false_iff]
    intro h
    rw [isArrayOfObjs, List.all_eq_true] at h
    have := h _ hprim
    simp [Json.isObj] at this
  have h4 : tableHeader (items.map normalize) = none := by rw [tableHeader, h3]; rfl
  rw [arrayHead, arrayTail, h1, h4, listText_eq, List.length_map, encodeItems_flat, List.flatMap_map]
  exact ⟨rfl, rfl⟩

/-- The line of a row. -/
def rowLine (opts : EncOpts) (cols : List Str) (v : Json F) : Str :=
  match normalize v with
  | .obj es => renderLine opts.indent ⟨1, encodeAndJoin (rowValues es cols) opts.delim⟩
  | _ => []

theorem table_array (opts : EncOpts) {items : List (Json F)} {cols : List Str} (h : IsTable items cols) :
    arrayHead opts none (items.map normalize) = tableText opts.delim cols items.length ∧
    (arrayTail opts (items.map normalize) 0).map (renderLine opts.indent) = items.map (rowLine opts cols) := by
  have ht : IsTable (items.map normalize) cols := by rw [← normalizeItems_eq]; exact isTable_normalize.mpr h
  have h1 : isArrayOfPrims (items.map normalize) = false := by
    rw [Bool.eq_false_iff, ne_eq, ← arePrims_iff]; exact table_not_prims ht
  rw [arrayHead, arrayTail, h1, header_of_isTable ht, tableText_eq, List.length_map]
  refine ⟨rfl, ?_⟩
  simp only [Bool.false_eq_true, if_false]
  have hobj : ∀ item ∈ items, ∃ es, normalize item = .obj es := fun item hi => by
    obtain ⟨es, e, _⟩ := ht.2.2 (normalize item) (List.mem_map.mpr ⟨_, hi, rfl⟩)
    exact ⟨es, e⟩
  clear h ht h1
  induction items with
  | nil => rfl
  | cons v vs ih =>
    obtain ⟨es, he⟩ := hobj v (by simp)
    have := ih (fun item hi => hobj item (by simp [hi]))
    unfold tabularRows at this ⊢
    simp only [List.map_cons, rowLine, he, List.filterMap_cons, this]

end

end Toon
