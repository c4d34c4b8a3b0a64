import Verif.Lemmas.Runs
import Verif.Lemmas.DecodeValue

/-! The total length of the keys tells a misread text from the written value. -/

namespace Toon

section
variable {F : Type}

/-! ## Key lengths -/

/-- The total length of the key events. -/
def keyEv : List (Ev F) → Nat
  | [] => 0
  | .key k _ :: evs => k.length + keyEv evs
  | _ :: evs => keyEv evs

theorem keyEv_append (a b : List (Ev F)) : keyEv (a ++ b) = keyEv a + keyEv b := by
  induction a with
  | nil => simp [keyEv]
  | cons e a ih => cases e <;> simp [keyEv, ih] <;> omega

mutual
/-- The total length of the keys of a value. -/
def keyTotal : Json F → Nat
  | .prim _ => 0
  | .arr items => keyTotalItems items
  | .obj es => keyTotalEntries es
def keyTotalItems : List (Json F) → Nat
  | [] => 0
  | v :: vs => keyTotal v + keyTotalItems vs
def keyTotalEntries : List (Str × Json F) → Nat
  | [] => 0
  | (k, v) :: es => k.length + keyTotal v + keyTotalEntries es
end

mutual
theorem keyEv_events (t : ETree F) : keyEv t.events = keyTotal t.json := by
  match t with
  | .prim p => simp [ETree.events, ETree.json, keyEv, keyTotal]
  | .arr n items => simp [ETree.events, ETree.json, keyEv, keyTotal, keyEv_append, keyEv_eventsItems items]
  | .obj es => simp [ETree.events, ETree.json, keyEv, keyTotal, keyEv_append, keyEv_eventsEntries es]
theorem keyEv_eventsItems (ts : List (ETree F)) : keyEv (ETree.eventsItems ts) = keyTotalItems (ETree.jsonItems ts) := by
  match ts with
  | [] => simp [ETree.eventsItems, ETree.jsonItems, keyEv, keyTotalItems]
  | t :: ts => simp [ETree.eventsItems, ETree.jsonItems, keyTotalItems, keyEv_append, keyEv_events t, keyEv_eventsItems ts]
theorem keyEv_eventsEntries (es : List (Str × Bool × ETree F)) :
    keyEv (ETree.eventsEntries es) = keyTotalEntries (ETree.jsonEntries es) := by
  match es with
  | [] => simp [ETree.eventsEntries, ETree.jsonEntries, keyEv, keyTotalEntries]
  | (k, q, t) :: es =>
    simp [ETree.eventsEntries, ETree.jsonEntries, keyTotalEntries, keyEv, keyEv_append, keyEv_events t,
      keyEv_eventsEntries es]
    omega
end

theorem keyTotalItems_append (a b : List (Json F)) : keyTotalItems (a ++ b) = keyTotalItems a + keyTotalItems b := by
  induction a with
  | nil => simp [keyTotalItems]
  | cons v a ih => simp [keyTotalItems, ih]; omega

theorem keyTotalEntries_append (a b : List (Str × Json F)) :
    keyTotalEntries (a ++ b) = keyTotalEntries a + keyTotalEntries b := by
  induction a with
  | nil => simp [keyTotalEntries]
  | cons e a ih => obtain ⟨k, v⟩ := e; simp [keyTotalEntries, ih]; omega

theorem keyTotalEntries_perm {a b : List (Str × Json F)} (h : a.Perm b) : keyTotalEntries a = keyTotalEntries b := by
  induction h with
  | nil => rfl
  | cons e _ ih => obtain ⟨k, v⟩ := e; simp [keyTotalEntries, ih]
  | swap e e' l => obtain ⟨k, v⟩ := e; obtain ⟨k', v'⟩ := e'; simp [keyTotalEntries]; omega
  | trans _ _ ih1 ih2 => exact ih1.trans ih2

theorem keyTotal_equiv {a b : Json F} (h : Json.Equiv a b) : keyTotal a = keyTotal b := by
  induction h with
  | refl => rfl
  | trans _ _ ih1 ih2 => exact ih1.trans ih2
  | arr pre post _ ih => simp [keyTotal, keyTotalItems_append, keyTotalItems, ih]
  | obj pre post k _ ih => simp [keyTotal, keyTotalEntries_append, keyTotalEntries, ih]
  | perm h => simp [keyTotal, keyTotalEntries_perm h]

theorem keyTotalItems_rel {a b : List (Json F)} (h : RelItems (fun x y => keyTotal x = keyTotal y) a b) :
    keyTotalItems a = keyTotalItems b := by
  induction a generalizing b with
  | nil => cases b with
    | nil => rfl
    | cons => simp [RelItems] at h
  | cons x a ih => cases b with
    | nil => simp [RelItems] at h
    | cons y b =>
      simp only [RelItems] at h
      simp only [keyTotalItems, h.1, ih h.2]

theorem keyTotalItems_prims (ps : List (Prim F)) : keyTotalItems (ps.map Json.prim) = 0 := by
  induction ps with
  | nil => rfl
  | cons p ps ih => simp [keyTotalItems, keyTotal, ih]

theorem writableItems_prims (ps : List (Prim F)) : WritableItems (ps.map Json.prim) := by
  induction ps with
  | nil => simp [WritableItems]
  | cons p ps ih => simp [WritableItems, Writable, ih]

variable [F64 F]

mutual
theorem keyEv_emit (v : Json F) : keyEv (emitEvents v) = keyTotal v := by
  match v with
  | .prim p => simp [emitEvents, keyEv, keyTotal]
  | .arr items => simp [emitEvents, keyEv, keyTotal, keyEv_append, keyEv_emitItems items]
  | .obj es => simp [emitEvents, keyEv, keyTotal, keyEv_append, keyEv_emitEntries es]
theorem keyEv_emitItems (vs : List (Json F)) : keyEv (emitItems vs) = keyTotalItems vs := by
  match vs with
  | [] => simp [emitItems, keyEv, keyTotalItems]
  | v :: vs => simp [emitItems, keyTotalItems, keyEv_append, keyEv_emit v, keyEv_emitItems vs]
theorem keyEv_emitEntries (es : List (Str × Json F)) : keyEv (emitEntries es) = keyTotalEntries es := by
  match es with
  | [] => simp [emitEntries, keyEv, keyTotalEntries]
  | (k, v) :: es =>
    simp [emitEntries, keyTotalEntries, keyEv, keyEv_append, keyEv_emit v, keyEv_emitEntries es]
    omega
end

mutual
theorem keyTotal_normalize (v : Json F) : keyTotal (normalize v) = keyTotal v := by
  match v with
  | .prim p => simp [normalize, keyTotal]
  | .arr items => simp [normalize, keyTotal, keyTotalItems_normalize items]
  | .obj es => simp [normalize, keyTotal, keyTotalEntries_normalize es]
theorem keyTotalItems_normalize (vs : List (Json F)) : keyTotalItems (normalizeItems vs) = keyTotalItems vs := by
  match vs with
  | [] => simp [normalizeItems, keyTotalItems]
  | v :: vs => simp [normalizeItems, keyTotalItems, keyTotal_normalize v, keyTotalItems_normalize vs]
theorem keyTotalEntries_normalize (es : List (Str × Json F)) :
    keyTotalEntries (normalizeEntries es) = keyTotalEntries es := by
  match es with
  | [] => simp [normalizeEntries, keyTotalEntries]
  | (k, v) :: es =>
    simp [normalizeEntries, keyTotalEntries, keyTotal_normalize v, keyTotalEntries_normalize es]
end

mutual
theorem sized_normalize (v : Json F) : Sized (normalize v) ↔ Sized v := by
  match v with
  | .prim p => simp [normalize, Sized]
  | .arr items => simp only [normalize, Sized, normalizeItems_length, sizedItems_normalize items]
  | .obj es => simp only [normalize, Sized, sizedEntries_normalize es]
theorem sizedItems_normalize (vs : List (Json F)) : SizedItems (normalizeItems vs) ↔ SizedItems vs := by
  match vs with
  | [] => simp [normalizeItems, SizedItems]
  | v :: vs => simp only [normalizeItems, SizedItems, sized_normalize v, sizedItems_normalize vs]
theorem sizedEntries_normalize (es : List (Str × Json F)) : SizedEntries (normalizeEntries es) ↔ SizedEntries es := by
  match es with
  | [] => simp [normalizeEntries, SizedEntries]
  | (k, v) :: es => simp only [normalizeEntries, SizedEntries, sized_normalize v, sizedEntries_normalize es]
end

/-! ## Outcomes -/

/-- If reading succeeds, the keys have at least the length `n`, and more unless `P` holds. -/
def KeyBound (r : Reading F) (n : Nat) (P : Prop) : Prop :=
  ∀ evs, r = .ok evs → n ≤ keyEv evs ∧ (keyEv evs = n → P)

omit [F64 F] in
theorem KeyBound.error (e : Err) (n : Nat) (P : Prop) : KeyBound (F := F) (.error e) n P := by intro evs h; simp at h

omit [F64 F] in
theorem KeyBound.ok {evs : List (Ev F)} {n : Nat} {P : Prop} (h : keyEv evs = n) (hP : P) : KeyBound (.ok evs) n P := by
  intro evs' he
  simp only [Except.ok.injEq] at he
  subst he
  exact ⟨Nat.le_of_eq h.symm, fun _ => hP⟩

omit [F64 F] in
theorem KeyBound.seq {a b : Reading F} {n m : Nat} {P Q : Prop} (ha : KeyBound a n P) (hb : KeyBound b m Q) :
    KeyBound (a.seq b) (n + m) (P ∧ Q) := by
  intro evs he
  cases a with
  | error e => simp [Reading.seq] at he
  | ok x =>
    cases b with
    | error e => simp [Reading.seq] at he
    | ok y =>
      simp only [Reading.seq, Except.ok.injEq] at he
      subst he
      obtain ⟨h1, h2⟩ := ha x rfl
      obtain ⟨h3, h4⟩ := hb y rfl
      rw [keyEv_append]
      exact ⟨by omega, fun h => ⟨h2 (by omega), h4 (by omega)⟩⟩

omit [F64 F] in
theorem KeyBound.to {r : Reading F} {n m : Nat} {P Q : Prop} (h : KeyBound r n P) (hn : n = m) (hP : P → Q) : KeyBound r m Q := by
  subst hn
  exact fun evs he => ⟨(h evs he).1, fun hk => hP ((h evs he).2 hk)⟩

/-! ## The induction -/

omit [F64 F] in
theorem not_over {n : Nat} (h : ¬ n ≤ maxDeclaredLength) : maxDeclaredLength < n := by omega

theorem prims_writable {items : List (Json F)} (tbl : Bool) (hp : isArrayOfPrims items = true)
    (hl : items.length ≤ maxDeclaredLength) : Writable tbl (.arr items) := by
  rw [primsOf_all hp] at hl ⊢
  generalize primsOf items = ps at hl ⊢
  simp only [Writable]
  refine ⟨hl, ?_, Or.inr (writableItems_prims ps)⟩
  rintro _ cols ⟨_, ⟨es, rest, h1, _⟩, _⟩
  cases ps <;> simp at h1

theorem prims_outcome [LawfulF64 F] {ctx : Ctx} (hb : ctx.blanks = []) {base : Nat} {d : Char} (hd : GoodDelim d)
    (tbl : Bool) (key : Option Str) {items : List (Json F)} (hp : isArrayOfPrims items = true) (hn : NormalItems items)
    (hs : items.length < 2 ^ 64) :
    ∃ r : Reading F, ArrRun ctx base (encodeInlineArrayLine items d key) [] key r ∧
      KeyBound r (keyTotalItems items) (Writable tbl (.arr items)) := by
  by_cases hl : items.length ≤ maxDeclaredLength
  · refine ⟨_, (arrSpec_inline hb hd hl hp hn).arrRun, KeyBound.ok ?_ (prims_writable tbl hp hl)⟩
    rw [keyEv_emit, keyTotal]
  · unfold encodeInlineArrayLine
    simp only
    split
    · have := arrRun_error (F := F) (ctx := ctx) (base := base) hd
        (parseHeader_over (not_over hl) hs key none hd []) []
      rw [List.append_nil] at this
      exact ⟨_, this, KeyBound.error _ _ _⟩
    · exact ⟨_, arrRun_error hd (parseHeader_over (not_over hl) hs key none hd _) [], KeyBound.error _ _ _⟩

theorem keyPrim_outcome [LawfulF64 F] {ctx : Ctx} {depth : Nat} {d : Char} (hd : GoodDelim d) (k : Str) {p : Prim F}
    (hn : normPrim p = p) :
    ∃ r : Reading F, KVRun ctx depth (encodeKey k ++ ':' :: ' ' :: encodePrimitive p d) [] r ∧
      KeyBound r k.length (∀ s, p = .str s → bareKey k = true → headerLike s = false) := by
  by_cases h : ∀ s, p = .str s → bareKey k = true → headerLike s = false
  · have := kvSpec_prim (F := F) (ctx := ctx) (depth := depth) hd (k := k) hn
      (fun s hs hv => h s hs (by rw [bareKey_eq]; exact hv))
    refine ⟨_, this.run, KeyBound.ok ?_ h⟩
    simp [keyEv, emitEvents]
  · obtain ⟨s, rfl, hk, hs⟩ : ∃ s, p = .str s ∧ bareKey k = true ∧ headerLike s = true := by
      simpa [Classical.not_forall] using h
    rw [bareKey_eq] at hk
    simp only [encodePrimitive, encodeString_headerLike hs]
    obtain ⟨r, h1, h2⟩ := kvRun_misread (F := F) (ctx := ctx) (depth := depth) hk hs
    refine ⟨r, h1, ?_⟩
    intro evs he
    obtain ⟨k', _, _, items, rfl, hlt, _⟩ := h2 evs he
    simp only [List.cons_append, keyEv]
    exact ⟨by omega, fun h => by omega⟩

mutual
theorem object_outcome [LawfulF64 F] {ctx : Ctx} (hb : ctx.blanks = []) {opts : EncOpts} (hd : GoodDelim opts.delim)
    (hf : opts.fold = false)
    (entries : List (Str × Json F)) (depth : Nat) (rlk : Option (List Str)) (pp : Option Str) (rem : Option Nat)
    (hk : DistinctKeysEntries entries) (hs : SizedEntries entries) (hn : NormalEntries entries) :
    ∃ r : Reading F, KVRuns ctx depth (encodeObject opts entries depth rlk pp rem) r ∧
      KeyBound r (keyTotalEntries entries) (WritableEntries entries) := by
  rw [encodeObject]
  exact entries_outcome hb hd hf _ _ _ _ entries depth hk hs hn
termination_by (sizeOf entries, 3)

theorem entries_outcome [LawfulF64 F] {ctx : Ctx} (hb : ctx.blanks = []) {opts : EncOpts} (hd : GoodDelim opts.delim)
    (hf : opts.fold = false) (siblings : List Str) (rlk : Option (List Str)) (pp : Option Str) (fd : Nat)
    (entries : List (Str × Json F)) (depth : Nat) (hk : DistinctKeysEntries entries) (hs : SizedEntries entries)
    (hn : NormalEntries entries) :
    ∃ r : Reading F, KVRuns ctx depth (encodeEntries opts siblings rlk pp fd entries depth) r ∧
      KeyBound r (keyTotalEntries entries) (WritableEntries entries) := by
  match entries, hk, hs, hn with
  | [], _, _, _ =>
    rw [encodeEntries]
    exact ⟨_, KVRuns.nil, KeyBound.ok (by simp [keyEv, keyTotalEntries]) (by simp [WritableEntries])⟩
  | (k, v) :: rest, hk, hs, hn =>
    simp only [DistinctKeysEntries] at hk
    simp only [SizedEntries] at hs
    simp only [NormalEntries] at hn
    rw [encodeEntries, encodeKeyValue_eq, tryFold_off hf]
    obtain ⟨c, tl, r, hl, h1, h2⟩ := entry_outcome hb hd hf rlk (extendPath pp k) fd k v depth hk.1 hs.1 hn.1
    obtain ⟨rs, h3, h4⟩ := entries_outcome hb hd hf siblings rlk pp fd rest depth hk.2 hs.2 hn.2
    simp only [hl]
    refine ⟨_, KVRuns.cons h1 h3, (h2.seq h4).to (by simp [keyTotalEntries]) ?_⟩
    rintro ⟨⟨h5, h6⟩, h7⟩
    simp only [WritableEntries]
    exact ⟨h5, h6, h7⟩
termination_by (sizeOf entries, 2)

theorem entry_outcome [LawfulF64 F] {ctx : Ctx} (hb : ctx.blanks = []) {opts : EncOpts} (hd : GoodDelim opts.delim)
    (hf : opts.fold = false) (rlk : Option (List Str)) (path : Str) (fd : Nat)
    (key : Str) (value : Json F) (depth : Nat) (hk : DistinctKeys value) (hs : Sized value) (hn : Normal value) :
    ∃ (c : Str) (tl : List OutLine) (r : Reading F), writeEntry opts rlk path fd key value depth = ⟨depth, c⟩ :: tl ∧ KVRun ctx depth c tl r ∧
      KeyBound r (key.length + keyTotal value)
        ((∀ s, value = .prim (.str s) → bareKey key = true → headerLike s = false) ∧ Writable true value) := by
  match value, hk, hs, hn with
  | .prim p, _, _, hn =>
    obtain ⟨r, h1, h2⟩ := keyPrim_outcome (ctx := ctx) (depth := depth) hd key (by simpa only [Normal] using hn)
    exact ⟨_, _, r, rfl, h1, h2.to (by simp [keyTotal]) fun h => ⟨fun s hs => h s (by simpa using hs), by simp [Writable]⟩⟩
  | .arr items, hk, hs, hn =>
    rw [writeEntry]
    rw [encodeArray_head_tail]
    obtain ⟨r, h1, h2⟩ := array_outcome hb hd hf (some key) items depth hk hs hn
    refine ⟨_, _, _, rfl, kvRun_arr h1, (KeyBound.seq (KeyBound.ok rfl trivial) h2).to ?_ fun h => ⟨by simp, h.2⟩⟩
    simp [keyEv, keyTotal]
  | .obj es, hk, hs, hn =>
    simp only [DistinctKeys] at hk
    simp only [Sized] at hs
    simp only [Normal] at hn
    obtain ⟨r, h1, h2⟩ := object_outcome hb hd hf es (depth + 1) rlk (some path) (some fd) hk.2 hs hn
    refine ⟨_, _, _, rfl, kvRun_obj h1, (KeyBound.seq (KeyBound.ok rfl trivial)
      (h2.seq (KeyBound.ok rfl trivial))).to ?_ fun h => ⟨by simp, by simpa [Writable] using h.2.1⟩⟩
    simp [keyEv, keyTotal]
termination_by (sizeOf value, 0)

theorem array_outcome [LawfulF64 F] {ctx : Ctx} (hb : ctx.blanks = []) {opts : EncOpts} (hd : GoodDelim opts.delim)
    (hf : opts.fold = false) (key : Option Str) (items : List (Json F)) (depth : Nat) (hk : DistinctKeys (.arr items))
    (hs : Sized (.arr items)) (hn : Normal (.arr items)) :
    ∃ r : Reading F, ArrRun ctx depth (arrayHead opts key items) (arrayTail opts items depth) key r ∧
      KeyBound r (keyTotalItems items) (Writable true (.arr items)) := by
  simp only [DistinctKeys] at hk
  simp only [Sized] at hs
  simp only [Normal] at hn
  rw [arrayHead, arrayTail]
  split
  · rename_i hp
    exact prims_outcome hb hd true key hp hn hs.1
  · by_cases hl : items.length ≤ maxDeclaredLength
    · cases ht : tableHeader items with
      | some cols =>
        simp only
        have hcols : ∀ cols', IsTable items cols' → cols' = cols := by
          intro cols' hc
          have := header_of_isTable hc
          rw [ht] at this
          simpa using this.symm
        by_cases hbr : ∀ c ∈ cols, '}' ∉ c
        · refine ⟨_, (arrSpec_table hb hd hl ht hbr hn).arrRun, KeyBound.ok ?_ ?_⟩
          · rw [keyEv_emit, keyTotal]
            exact keyTotalItems_rel (table_rel (al := false) (fun _ es es' h => by simp [keyTotal, keyTotalEntries_perm h])
              (fun _ => rfl) ht hk (by simp))
          · simp only [Writable]
            exact ⟨hl, fun _ cols' hc => by rw [hcols cols' hc]; exact hbr, Or.inl ⟨trivial, cols, isTable_of_header ht⟩⟩
        · have hbr' : ∃ c ∈ cols, '}' ∈ c := by simpa [Classical.not_forall] using hbr
          have := arrRun_error (F := F) (ctx := ctx) (base := depth) hd
            (parseHeader_brace hl key hd hbr' []) (tabularRows items cols (depth + 1) opts.delim)
          rw [List.append_nil] at this
          exact ⟨_, this, KeyBound.error _ _ _⟩
      | none =>
        simp only
        obtain ⟨r, h1, h2⟩ := items_outcome hb hd hf items (depth + 1) hk hs.2 hn
        refine ⟨_, arrRun_list hb hd hl h1, (KeyBound.seq (KeyBound.ok rfl trivial)
          (h2.seq (KeyBound.ok rfl trivial))).to (by simp [keyEv]) ?_⟩
        rintro ⟨_, h, _⟩
        simp only [Writable]
        refine ⟨hl, ?_, Or.inr h⟩
        intro _ cols hc
        rw [header_of_isTable hc] at ht
        simp at ht
    · have := arrRun_error (F := F) (ctx := ctx) (base := depth) hd
        (parseHeader_over (not_over hl) hs.1 key (tableHeader items) hd [])
        (match tableHeader items with
          | some header => tabularRows items header (depth + 1) opts.delim
          | none => encodeItems opts items (depth + 1))
      rw [List.append_nil] at this
      exact ⟨_, this, KeyBound.error _ _ _⟩
termination_by (sizeOf items, 4)

theorem items_outcome [LawfulF64 F] {ctx : Ctx} (hb : ctx.blanks = []) {opts : EncOpts} (hd : GoodDelim opts.delim)
    (hf : opts.fold = false) (items : List (Json F)) (depth : Nat) (hk : DistinctKeysItems items) (hs : SizedItems items)
    (hn : NormalItems items) :
    ∃ r : Reading F, ItemRuns ctx depth (encodeItems opts items depth) items.length r ∧
      KeyBound r (keyTotalItems items) (WritableItems items) := by
  match items, hk, hs, hn with
  | [], _, _, _ =>
    rw [encodeItems]
    exact ⟨_, ItemRuns.nil, KeyBound.ok (by simp [keyEv, keyTotalItems]) (by simp [WritableItems])⟩
  | v :: vs, hk, hs, hn =>
    simp only [DistinctKeysItems] at hk
    simp only [SizedItems] at hs
    simp only [NormalItems] at hn
    rw [encodeItems, List.length_cons]
    obtain ⟨c, tl, r, hl, h1, h2⟩ := item_outcome hb hd hf v depth hk.1 hs.1 hn.1
    obtain ⟨rs, h3, h4⟩ := items_outcome hb hd hf vs depth hk.2 hs.2 hn.2
    rw [hl]
    refine ⟨_, ItemRuns.cons h1 h3, (h2.seq h4).to (by simp [keyTotalItems]) ?_⟩
    simp only [WritableItems]
    exact id
termination_by (sizeOf items, 3)

theorem item_outcome [LawfulF64 F] {ctx : Ctx} (hb : ctx.blanks = []) {opts : EncOpts} (hd : GoodDelim opts.delim)
    (hf : opts.fold = false) (value : Json F) (depth : Nat) (hk : DistinctKeys value) (hs : Sized value)
    (hn : Normal value) :
    ∃ (c : Str) (tl : List OutLine) (r : Reading F), encodeItem opts value depth = ⟨depth, c⟩ :: tl ∧ ItemRun ctx depth c tl r ∧
      KeyBound r (keyTotal value) (Writable false value) := by
  match value, hk, hs, hn with
  | .prim p, _, _, hn =>
    rw [encodeItem]
    exact ⟨_, _, _, rfl, (itemSpec_prim hd (by simpa only [Normal] using hn)).run,
      KeyBound.ok (by rw [keyEv_emit]) (by simp [Writable])⟩
  | .arr items, hk, hs, hn =>
    rw [encodeItem]
    simp only [DistinctKeys] at hk
    simp only [Sized] at hs
    simp only [Normal] at hn
    split
    · rename_i hp
      obtain ⟨r, h1, h2⟩ := prims_outcome (ctx := ctx) (base := depth) hb hd false none hp hn hs.1
      exact ⟨_, _, _, rfl, itemRun_arr h1, h2.to (by simp [keyTotal]) id⟩
    · by_cases hl : items.length ≤ maxDeclaredLength
      · obtain ⟨r, h1, h2⟩ := items_outcome hb hd hf items (depth + 1) hk hs.2 hn
        refine ⟨_, _, _, rfl, itemRun_arr (arrRun_list hb hd hl h1), (KeyBound.seq (KeyBound.ok rfl trivial)
          (h2.seq (KeyBound.ok rfl trivial))).to (by simp [keyEv, keyTotal]) ?_⟩
        rintro ⟨_, h, _⟩
        simp only [Writable]
        exact ⟨hl, by simp, Or.inr h⟩
      · have := arrRun_error (F := F) (ctx := ctx) (base := depth) hd
          (parseHeader_over (not_over hl) hs.1 none none hd []) (encodeItems opts items (depth + 1))
        rw [List.append_nil] at this
        exact ⟨_, _, _, rfl, itemRun_arr this, KeyBound.error _ _ _⟩
  | .obj es, hk, hs, hn =>
    rw [encodeItem]
    simp only [DistinctKeys] at hk
    simp only [Sized] at hs
    simp only [Normal] at hn
    obtain ⟨c, tl, r, h0, h1, h2⟩ := objectItem_outcome hb hd hf es depth hk.2 hs hn
    exact ⟨c, tl, r, h0, h1, h2.to (by simp [keyTotal]) (by simp [Writable])⟩
termination_by (sizeOf value, 1)

theorem objectItem_outcome [LawfulF64 F] {ctx : Ctx} (hb : ctx.blanks = []) {opts : EncOpts} (hd : GoodDelim opts.delim)
    (hf : opts.fold = false) (entries : List (Str × Json F)) (depth : Nat) (hk : DistinctKeysEntries entries)
    (hs : SizedEntries entries) (hn : NormalEntries entries) :
    ∃ (c : Str) (tl : List OutLine) (r : Reading F), encodeObjectItem opts entries depth = ⟨depth, c⟩ :: tl ∧ ItemRun ctx depth c tl r ∧
      KeyBound r (keyTotalEntries entries) (WritableEntries entries) := by
  match entries, hk, hs, hn with
  | [], _, _, _ =>
    rw [encodeObjectItem]
    exact ⟨_, _, _, rfl, itemSpec_empty.run, KeyBound.ok (by simp [keyEv_emit, keyTotal]) (by simp [WritableEntries])⟩
  | (k, v) :: rest, hk, hs, hn =>
    simp only [DistinctKeysEntries] at hk
    simp only [SizedEntries] at hs
    simp only [NormalEntries] at hn
    obtain ⟨rs, h3, h4⟩ := object_outcome hb hd hf rest (depth + 1) none none none hk.2 hs.2 hn.2
    rw [encodeObjectItem_cons]
    have key : ∀ (c : Str) (tl : List OutLine) (r : Reading F), KVRun ctx (depth + 1) c tl r →
        KeyBound r (k.length + keyTotal v)
          ((∀ s, v = .prim (.str s) → bareKey k = true → headerLike s = false) ∧ Writable true v) →
        ∃ (c' : Str) (tl' : List OutLine) (r' : Reading F), ⟨depth, dash c⟩ :: (tl ++ encodeObject opts rest (depth + 1) none none none) = ⟨depth, c'⟩ :: tl' ∧
          ItemRun ctx depth c' tl' r' ∧ KeyBound r' (keyTotalEntries ((k, v) :: rest)) (WritableEntries ((k, v) :: rest)) := by
      intro c tl r h1 h2
      refine ⟨_, _, _, rfl, itemRun_obj h1 h3, (KeyBound.seq (KeyBound.ok rfl trivial) (h2.seq
        (h4.seq (KeyBound.ok rfl trivial)))).to (by simp [keyEv, keyTotalEntries]) ?_⟩
      rintro ⟨_, ⟨h5, h6⟩, h7, _⟩
      simp only [WritableEntries]
      exact ⟨h5, h6, h7⟩
    match v, hk, hs, hn, key with
    | .prim p, hk, hs, hn, key =>
      obtain ⟨r, h1, h2⟩ := keyPrim_outcome (ctx := ctx) (depth := depth + 1) hd k (by simpa only [Normal] using hn.1)
      exact key _ _ _ h1 (h2.to (by simp [keyTotal]) fun h => ⟨fun s hs => h s (by simpa using hs), by simp [Writable]⟩)
    | .arr items, hk, hs, hn, key =>
      obtain ⟨r, h1, h2⟩ := array_outcome hb hd hf (some k) items (depth + 1) hk.1 hs.1 hn.1
      exact key _ _ _ (kvRun_arr h1) ((KeyBound.seq (KeyBound.ok rfl trivial) h2).to (by simp [keyEv, keyTotal])
        fun h => ⟨by simp, h.2⟩)
    | .obj es, hk, hs, hn, key =>
      have hk1 := hk.1
      have hs1 := hs.1
      have hn1 := hn.1
      simp only [DistinctKeys] at hk1
      simp only [Sized] at hs1
      simp only [Normal] at hn1
      obtain ⟨r, h1, h2⟩ := object_outcome hb hd hf es (depth + 2) none none none hk1.2 hs1 hn1
      exact key _ _ _ (kvRun_obj h1) ((KeyBound.seq (KeyBound.ok rfl trivial) (h2.seq (KeyBound.ok rfl trivial))).to
        (by simp [keyEv, keyTotal]) fun h => ⟨by simp, by simpa [Writable] using h.2.1⟩)
termination_by (sizeOf entries, 0)

end

/-! ## The whole text -/

theorem decodeLines_outcome [LawfulF64 F] {ctx : Ctx} (hb : ctx.blanks = []) {opts : EncOpts} (hd : GoodDelim opts.delim)
    (hf : opts.fold = false) {v : Json F} (hk : DistinctKeys v) (hs : Sized v) (hn : Normal v)
    {lines : List Line} (hp : Proj lines (encodeValue opts v)) :
    KeyBound (decodeLines (F := F) ctx lines) (keyTotal v) (Writable true v) := by
  cases v with
  | prim p =>
    have hw : Writable true (.prim p) := by simp [Writable]
    rw [decodeLines_written hb hd hw hn hp]
    exact KeyBound.ok (by simp [shape, keyEv_emit]) hw
  | arr items =>
    unfold decodeLines
    simp only [encodeValue] at hp
    rw [encodeArray_head_tail] at hp
    obtain ⟨l, ls, rfl, hdp, hc, hp⟩ := Proj.cons hp
    obtain ⟨r, h1, h2⟩ := array_outcome hb hd hf none items 0 hk hs hn
    obtain ⟨n, fields, d, suffix, hd', hform⟩ := h1.form
    have harr : isArrayHeaderContent (arrayHead opts none items) = true := by
      rw [hform]; exact arrayHeader_none n fields hd' suffix
    simp only [rootHeader, hc, harr, if_true]
    rcases h1.run with ⟨e, he, rfl⟩ | ⟨hh, hparse, hkey, hq, hdec⟩
    · simp only [he, bind, Except.bind]
      exact KeyBound.error _ _ _
    · obtain ⟨last', e⟩ := hdec ls [] (some l) (5 * (l :: ls).length + 5) hp (by intro l hl; simp at hl)
        (by simp only [List.length_cons]; omega)
      rw [List.append_nil] at e
      simp only [hparse, bind, Except.bind, e]
      cases r with
      | error x => simp only [Reading.at]; exact KeyBound.error _ _ _
      | ok evs => simp only [Reading.at, pure, Except.pure]; exact h2
  | obj es =>
    unfold decodeLines
    simp only [DistinctKeys] at hk
    simp only [Sized] at hs
    simp only [Normal] at hn
    simp only [encodeValue] at hp
    obtain ⟨r, h1, h2⟩ := object_outcome hb hd hf es 0 none none none hk.2 hs hn
    have h2 : KeyBound r (keyTotal (.obj es)) (Writable true (.obj es)) := h2.to (by simp [keyTotal]) (by simp [Writable])
    generalize encodeObject opts es 0 none none none = os at h1 hp
    cases h1 with
    | nil =>
      rw [Proj.nil_iff.mp hp]
      exact KeyBound.seq (KeyBound.ok (evs := [.startObj]) rfl trivial) (h2.seq
        (KeyBound.ok (evs := [.endObj]) rfl trivial)) |>.to (by simp [keyEv]) fun h => h.2.1
    | @cons c tl ls0 r rs h1 h3 =>
      rw [List.cons_append] at hp
      obtain ⟨l, ls, rfl, hdp, hc, hp⟩ := Proj.cons hp
      obtain ⟨l1, l2, rfl, hp1, hp2⟩ := hp.split
      have hr : RestLe 0 (l2 ++ []) := h3.restLe hp2 (by intro l hl; simp at hl)
      rw [List.append_nil] at hr
      obtain ⟨last1, e1⟩ := h1.2 l1 l2 (some l) (5 * (l :: (l1 ++ l2)).length + 5) hp1 hr
        (by simp only [List.length_cons, List.length_append]; omega)
      obtain ⟨last2, e2⟩ := h3.root l2 last1 (5 * (l :: (l1 ++ l2)).length + 5) hp2
        (by simp only [List.length_cons, List.length_append]; omega)
      simp only [rootHeader, hc, h1.1.arr, Bool.false_eq_true, if_false, bind, Except.bind, h1.1.kvl, Bool.not_true,
        Bool.and_false, e1]
      cases r with
      | error x => simp only [Reading.at]; exact KeyBound.error _ _ _
      | ok evs =>
        simp only [Reading.at, e2]
        cases rs with
        | error x => simp only [Reading.at]; exact KeyBound.error _ _ _
        | ok evs' =>
          simp only [Reading.at, pure, Except.pure]
          have := KeyBound.seq (KeyBound.ok (evs := [.startObj]) rfl trivial) (h2.seq
            (KeyBound.ok (evs := [.endObj]) rfl trivial)) |>.to (m := keyTotal (.obj es)) (by simp [keyEv]) fun h => h.2.1
          simpa [Reading.seq] using this

theorem decode_outcome [LawfulF64 F] {opts : EncOpts} (hi : 0 < opts.indent) (hd : GoodDelim opts.delim)
    (hf : opts.fold = false) (strict : Bool) {v : Json F} (hk : DistinctKeys v) (hs : Sized v) {w : Json F}
    (h : decodeFromLines { indent := opts.indent, strict := strict, expand := false } (encodeLines opts v) = .ok w)
    (hw : keyTotal w = keyTotal v) : Writable true v := by
  obtain ⟨t, ht, _, rfl⟩ := decodeFromLines_tree rfl h
  obtain ⟨lines, h1, h2⟩ := parseLines_render hi strict (encodeValue opts (normalize v))
    (fun l hl => (linesIn_value hd _ l hl).1) 0
  unfold decodeStream encodeLines encodeJsonValue at ht
  simp only [h1, bind, Except.bind] at ht
  have := decodeLines_outcome (ctx := ⟨strict, []⟩) rfl hd hf ((distinct_normalize v).mpr hk) ((sized_normalize v).mpr hs)
    (normal_normalize v) h2
  have := (this t.events ht).2 (by rw [keyEv_events, hw, keyTotal_normalize])
  exact (writable_normalize true v).mp this

end

end Toon
