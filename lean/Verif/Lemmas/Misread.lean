import Verif.Spec.Misread
import Verif.Lemmas.Outcome
import Verif.Lemmas.GrammarArrays
import Verif.Lemmas.Layout
import Verif.Lemmas.Build

/-! What becomes of a value that is written and read again: the induction. -/

namespace Toon

section
variable {F : Type}

/-! ## Outcomes -/

/-- If reading succeeds, the events are those of a tree whose value satisfies `R`; and every value that satisfies `R` is
read. -/
structure Yields {α β : Type} (ev : α → List (Ev F)) (js : α → β) (r : Reading F) (R : β → Prop) : Prop where
  only : ∀ evs, r = .ok evs → ∃ t, evs = ev t ∧ R (js t)
  all : ∀ w, R w → ∃ t, r = .ok (ev t) ∧ js t = w

/-- The events of one entry. -/
def entryEvents (e : Str × Bool × ETree F) : List (Ev F) := .key e.1 e.2.1 :: e.2.2.events

def entryJson (e : Str × Bool × ETree F) : Str × Json F := (e.1, e.2.2.json)

abbrev YieldsTree (r : Reading F) (R : Json F → Prop) : Prop := Yields ETree.events ETree.json r R
abbrev YieldsItems (r : Reading F) (R : List (Json F) → Prop) : Prop := Yields ETree.eventsItems ETree.jsonItems r R
abbrev YieldsEntry (r : Reading F) (R : Str × Json F → Prop) : Prop := Yields entryEvents entryJson r R
abbrev YieldsEntries (r : Reading F) (R : List (Str × Json F) → Prop) : Prop := Yields ETree.eventsEntries ETree.jsonEntries r R

theorem Yields.error {α β : Type} {ev : α → List (Ev F)} {js : α → β} {R : β → Prop} (e : Err) (h : ∀ w, ¬ R w) :
    Yields ev js (.error e) R := ⟨by simp, fun w hw => absurd hw (h w)⟩

theorem Yields.ok {α β : Type} {ev : α → List (Ev F)} {js : α → β} {R : β → Prop} (t : α) (h : ∀ w, R w ↔ w = js t) :
    Yields ev js (.ok (ev t)) R :=
  ⟨fun evs he => ⟨t, by simpa using he.symm, (h _).mpr rfl⟩, fun w hw => ⟨t, rfl, ((h w).mp hw).symm⟩⟩

theorem Yields.to {α β : Type} {ev : α → List (Ev F)} {js : α → β} {r : Reading F} {R S : β → Prop} (h : Yields ev js r R)
    (hi : ∀ w, R w ↔ S w) : Yields ev js r S :=
  ⟨fun evs he => let ⟨t, h1, h2⟩ := h.only evs he; ⟨t, h1, (hi _).mp h2⟩, fun w hw => h.all w ((hi w).mpr hw)⟩

theorem seq_ok_iff_both {a b : Reading F} {evs : List (Ev F)} : a.seq b = .ok evs ↔ ∃ x y, a = .ok x ∧ b = .ok y ∧ evs = x ++ y := by
  cases a with
  | error e => simp [Reading.seq]
  | ok x =>
    cases b with
    | error e => simp [Reading.seq]
    | ok y => simp [Reading.seq, eq_comm]

/-- An entry and further ones. -/
theorem YieldsEntry.cons {a b : Reading F} {R : Str × Json F → Prop} {S : List (Str × Json F) → Prop} (ha : YieldsEntry a R)
    (hb : YieldsEntries b S) : YieldsEntries (a.seq b) (fun es => ∃ e rest, es = e :: rest ∧ R e ∧ S rest) := by
  constructor
  · intro evs he
    obtain ⟨x, y, h1, h2, rfl⟩ := seq_ok_iff_both.mp he
    obtain ⟨e, rfl, h3⟩ := ha.only x h1
    obtain ⟨es, rfl, h4⟩ := hb.only y h2
    obtain ⟨k, q, t⟩ := e
    exact ⟨(k, q, t) :: es, by simp [entryEvents, ETree.eventsEntries], _, _, by rw [ETree.jsonEntries]; rfl, h3, h4⟩
  · rintro w ⟨e, rest, rfl, h1, h2⟩
    obtain ⟨⟨k, q, t⟩, h3, rfl⟩ := ha.all e h1
    obtain ⟨es, h4, rfl⟩ := hb.all rest h2
    exact ⟨(k, q, t) :: es, seq_ok_iff_both.mpr ⟨_, _, h3, h4, by simp [entryEvents, ETree.eventsEntries]⟩, by simp [entryJson, ETree.jsonEntries]⟩

/-- An element and further ones. -/
theorem YieldsTree.cons {a b : Reading F} {R : Json F → Prop} {S : List (Json F) → Prop} (ha : YieldsTree a R)
    (hb : YieldsItems b S) : YieldsItems (a.seq b) (fun vs => ∃ v rest, vs = v :: rest ∧ R v ∧ S rest) := by
  constructor
  · intro evs he
    obtain ⟨x, y, h1, h2, rfl⟩ := seq_ok_iff_both.mp he
    obtain ⟨t, rfl, h3⟩ := ha.only x h1
    obtain ⟨ts, rfl, h4⟩ := hb.only y h2
    exact ⟨t :: ts, by simp [ETree.eventsItems], _, _, by rw [ETree.jsonItems], h3, h4⟩
  · rintro w ⟨v, rest, rfl, h1, h2⟩
    obtain ⟨t, h3, rfl⟩ := ha.all v h1
    obtain ⟨ts, h4, rfl⟩ := hb.all rest h2
    exact ⟨t :: ts, seq_ok_iff_both.mpr ⟨_, _, h3, h4, by simp [ETree.eventsItems]⟩, by simp [ETree.jsonItems]⟩

theorem YieldsEntries.object {r : Reading F} {R : List (Str × Json F) → Prop} (h : YieldsEntries r R) :
    YieldsTree (Reading.seq (.ok [.startObj]) (r.seq (.ok [.endObj]))) (fun w => ∃ es, w = .obj es ∧ R es) := by
  constructor
  · intro evs he
    obtain ⟨x, y, h1, h2, rfl⟩ := seq_ok_iff_both.mp he
    obtain ⟨x', y', h3, h4, rfl⟩ := seq_ok_iff_both.mp h2
    simp only [Except.ok.injEq] at h1 h4
    subst h1 h4
    obtain ⟨es, rfl, h5⟩ := h.only x' h3
    exact ⟨.obj es, by simp [ETree.events], _, by rw [ETree.json], h5⟩
  · rintro w ⟨es, rfl, h1⟩
    obtain ⟨ts, h2, rfl⟩ := h.all es h1
    exact ⟨.obj ts, seq_ok_iff_both.mpr ⟨_, _, rfl, seq_ok_iff_both.mpr ⟨_, _, h2, rfl, rfl⟩, by simp [ETree.events]⟩, by rw [ETree.json]⟩

theorem YieldsItems.array {r : Reading F} {R : List (Json F) → Prop} (n : Nat) (h : YieldsItems r R) :
    YieldsTree (Reading.seq (.ok [.startArr n]) (r.seq (.ok [.endArr]))) (fun w => ∃ ws, w = .arr ws ∧ R ws) := by
  constructor
  · intro evs he
    obtain ⟨x, y, h1, h2, rfl⟩ := seq_ok_iff_both.mp he
    obtain ⟨x', y', h3, h4, rfl⟩ := seq_ok_iff_both.mp h2
    simp only [Except.ok.injEq] at h1 h4
    subst h1 h4
    obtain ⟨es, rfl, h5⟩ := h.only x' h3
    exact ⟨.arr n es, by simp [ETree.events], _, by rw [ETree.json], h5⟩
  · rintro w ⟨es, rfl, h1⟩
    obtain ⟨ts, h2, rfl⟩ := h.all es h1
    exact ⟨.arr n ts, seq_ok_iff_both.mpr ⟨_, _, rfl, seq_ok_iff_both.mpr ⟨_, _, h2, rfl, rfl⟩, by simp [ETree.events]⟩, by rw [ETree.json]⟩

theorem YieldsTree.keyed {r : Reading F} {R : Json F → Prop} (k : Str) (q : Bool) (h : YieldsTree r R) :
    YieldsEntry (Reading.seq (.ok [.key k q]) r) (fun e => e.1 = k ∧ R e.2) := by
  constructor
  · intro evs he
    obtain ⟨x, y, h1, h2, rfl⟩ := seq_ok_iff_both.mp he
    simp only [Except.ok.injEq] at h1
    subst h1
    obtain ⟨t, rfl, h3⟩ := h.only y h2
    exact ⟨(k, q, t), by simp [entryEvents], rfl, h3⟩
  · rintro ⟨k', w⟩ ⟨h1, h2⟩
    simp only at h1 h2
    subst h1
    obtain ⟨t, h3, rfl⟩ := h.all w h2
    exact ⟨(k', q, t), seq_ok_iff_both.mpr ⟨_, _, rfl, h3, by simp [entryEvents]⟩, rfl⟩

theorem seq_assoc (a b c : Reading F) : (a.seq b).seq c = a.seq (b.seq c) := by
  cases a <;> cases b <;> cases c <;> simp [Reading.seq]

variable [F64 F]

omit [F64 F] in
theorem YieldsTree.emit {R : Json F → Prop} (v : Json F) (h : ∀ w, R w ↔ w = v) : YieldsTree (.ok (emitEvents v)) R := by
  rw [← events_treeOf]
  exact Yields.ok (treeOf v) (by rw [json_treeOf]; exact h)

/-! ## Parts of the value -/

theorem readsBackItems_prims (strict : Bool) (ps : List (Prim F)) (ws : List (Json F)) :
    ReadsBackItems strict (ps.map Json.prim) ws ↔ ws = ps.map Json.prim := by
  induction ps generalizing ws with
  | nil => simp [ReadsBackItems]
  | cons p ps ih =>
    simp only [List.map_cons, ReadsBackItems, ReadsBack, ih]
    constructor
    · rintro ⟨_, _, rfl, rfl, rfl⟩; rfl
    · rintro rfl; exact ⟨_, _, rfl, rfl, rfl⟩

omit [F64 F] in
theorem not_isTable_prims (ps : List (Prim F)) : ¬ ∃ cols, IsTable (ps.map Json.prim) cols := by
  rintro ⟨cols, _, ⟨es, rest, h1, _⟩, _⟩
  cases ps <;> simp at h1

theorem readsBack_prims (strict tbl : Bool) {items : List (Json F)} (hp : isArrayOfPrims items = true)
    (hl : items.length ≤ maxDeclaredLength) (w : Json F) : ReadsBack strict tbl (.arr items) w ↔ w = .arr items := by
  have hl' : items.length ≤ 100000000 := hl
  rw [primsOf_all hp] at hl' ⊢
  generalize primsOf items = ps at hl' ⊢
  simp only [ReadsBack]
  constructor
  · rintro ⟨_, ⟨_, cols, h, _⟩ | ⟨_, ws, rfl, h⟩⟩
    · exact absurd ⟨cols, h⟩ (not_isTable_prims ps)
    · rw [(readsBackItems_prims strict ps ws).mp h]
  · rintro rfl
    exact ⟨hl', Or.inr ⟨fun h => not_isTable_prims ps h.2, _, rfl, (readsBackItems_prims strict ps _).mpr rfl⟩⟩

theorem not_readsBack_over (strict tbl : Bool) {items : List (Json F)} (hl : ¬ items.length ≤ maxDeclaredLength) (w : Json F) :
    ¬ ReadsBack strict tbl (.arr items) w := by
  simp only [ReadsBack]
  exact fun h => hl h.1

omit [F64 F] in
theorem rowPrims_columns : ∀ (cols : List Str) (es : List (Str × Json F)), (∀ c ∈ cols, ∃ p, lookupKey c es = some (.prim p)) →
    ∃ ps, rowPrims es cols = .ok ps ∧ zipRow cols ps = cols.map fun c => (c, (lookupKey c es).getD (.prim .null))
  | [], _, _ => ⟨[], rfl, rfl⟩
  | c :: cols, es, h => by
    obtain ⟨p, hp⟩ := h c (by simp)
    obtain ⟨ps, h1, h2⟩ := rowPrims_columns cols es (fun x hx => h x (by simp [hx]))
    have hp' := hp
    rw [lookupKey_eq] at hp'
    refine ⟨p :: ps, by simp only [rowPrims, hp', h1], ?_⟩
    rw [List.map_cons, ← h2, zipRow, hp]
    rfl

theorem tableRows_columns {items : List (Json F)} {cols : List Str} (h : IsTable items cols) :
    tableRows items cols = items.map (inColumns cols) := by
  have h3 := h.2.2
  clear h
  induction items with
  | nil => rfl
  | cons v vs ih =>
    obtain ⟨es, rfl, _, hc⟩ := h3 v (by simp)
    obtain ⟨ps, h1, h2⟩ := rowPrims_columns cols es hc
    have e : tableRows (.obj es :: vs) cols = .obj (zipRow cols (rowValues es cols)) :: tableRows vs cols := rfl
    have e2 : rowValues es cols = ps := by simp only [rowValues, h1]
    rw [e, e2, h2, ih (fun x hx => h3 x (by simp [hx])), List.map_cons]
    rfl

theorem prims_yields [LawfulF64 F] {ctx : Ctx} (hb : ctx.blanks = []) {base : Nat} {d : Char} (hd : GoodDelim d)
    (tbl : Bool) (key : Option Str) {items : List (Json F)} (hp : isArrayOfPrims items = true) (hn : NormalItems items)
    (hs : items.length < 2 ^ 64) :
    ∃ r : Reading F, ArrRun ctx base (encodeInlineArrayLine items d key) [] key r ∧
      YieldsTree r (ReadsBack ctx.strict tbl (.arr items)) := by
  by_cases hl : items.length ≤ maxDeclaredLength
  · exact ⟨_, (arrSpec_inline hb hd hl hp hn).arrRun, YieldsTree.emit _ (readsBack_prims _ tbl hp hl)⟩
  · unfold encodeInlineArrayLine
    simp only
    split
    · have := arrRun_error (F := F) (ctx := ctx) (base := base) hd
        (parseHeader_over (not_over hl) hs key none hd []) []
      rw [List.append_nil] at this
      exact ⟨_, this, Yields.error _ (not_readsBack_over _ _ hl)⟩
    · exact ⟨_, arrRun_error hd (parseHeader_over (not_over hl) hs key none hd _) [], Yields.error _ (not_readsBack_over _ _ hl)⟩

omit [F64 F] in
theorem eventsItems_ofPrims : ∀ ps : List (Prim F), ETree.eventsItems (ps.map ETree.prim) = ps.map Ev.prim
  | [] => by simp [ETree.eventsItems]
  | p :: ps => by simp [ETree.eventsItems, ETree.events, eventsItems_ofPrims ps]

omit [F64 F] in
theorem jsonItems_ofPrims : ∀ ps : List (Prim F), ETree.jsonItems (ps.map ETree.prim) = ps.map Json.prim
  | [] => by simp [ETree.jsonItems]
  | p :: ps => by simp [ETree.jsonItems, ETree.json, jsonItems_ofPrims ps]

/-- An entry whose string looks like a header, exactly. -/
theorem kvRun_misreadAs {ctx : Ctx} {depth : Nat} {k s : Str} (hk : isValidUnquotedKey k = true) (hs : headerLike s = true) :
    ∃ r : Reading F, KVRun ctx depth (encodeKey k ++ ':' :: ' ' :: quoted s) [] r ∧ YieldsEntry r (MisreadAs ctx.strict k s) := by
  have hkl := keyLine_colon k (' ' :: quoted s)
  have hq : quotedText s = quoted s := by rw [quotedText_eq]; simp [quoted]
  rw [encodeKey_valid hk] at hkl ⊢
  rcases (parseHeader_quotedValue hk s).2 hs with ⟨e, he⟩ | ⟨h, hp, k', hkey, _, _, _⟩
  · refine ⟨.error e, ⟨hkl, ?_⟩, Yields.error _ ?_⟩
    · intro ls rest last fuel hpj hr hf
      obtain ⟨f, rfl⟩ : ∃ f, fuel = f + 1 := ⟨fuel - 1, by omega⟩
      rw [decodeKV]
      exact ⟨none, by simp only [he, bind, Except.bind, Reading.at]⟩
    · rintro w ⟨h, _, _, _, h1, _⟩
      rw [hq, ← headerMeans_iff, he] at h1
      simp at h1
  · obtain ⟨t, ht⟩ := parseHeader_inline (c := k ++ ':' :: ' ' :: '"' :: escapeString s) (h := h) (by
      rw [← hp]; congr 1; simp [quoted])
    have hm := (headerMeans_iff _ _).mp hp
    have hg := headerMeans_good hm
    have huniq : ∀ h', HeaderMeans (k ++ ':' :: ' ' :: quotedText s) h' → h' = h := by
      intro h' h1
      rw [hq, ← headerMeans_iff, hp] at h1
      simpa using h1.symm
    cases hi : decodeInline (F := F) h t ctx.strict with
    | error e =>
      refine ⟨.error e, ⟨hkl, ?_⟩, Yields.error _ ?_⟩
      · intro ls rest last fuel hpj hr hf
        obtain ⟨f, rfl⟩ : ∃ f, fuel = f + 2 := ⟨fuel - 2, by omega⟩
        rw [decodeKV]
        simp only [hp, bind, Except.bind, keyedHeader, hkey]
        rw [decodeArray]
        simp only [ht, hi, bind, Except.bind, Reading.at]
        exact ⟨none, trivial⟩
      · rintro w ⟨h', text, cells, prims, h1, h2, h3, h4, h5, h6, h7⟩
        obtain rfl := huniq h' h1
        rw [ht] at h3
        simp only [Option.some.injEq] at h3
        subst h3
        have := (decodeInline_iff hg (hg.inline t ht) ctx.strict _).mpr ⟨cells, prims, h4, h5, h6, rfl⟩
        rw [hi] at this
        simp at this
    | ok evs =>
      obtain ⟨cells, prims, h4, h5, h6, rfl⟩ := (decodeInline_iff hg (hg.inline t ht) ctx.strict _).mp hi
      refine ⟨.ok (entryEvents (k', h.keyQuoted, .arr h.length (prims.map .prim))), ⟨hkl, ?_⟩, Yields.ok _ ?_⟩
      · intro ls rest last fuel hpj hr hf
        rw [Proj.nil_iff.mp hpj]
        obtain ⟨f, rfl⟩ : ∃ f, fuel = f + 2 := ⟨fuel - 2, by omega⟩
        refine ⟨last, ?_⟩
        rw [decodeKV]
        simp only [hp, bind, Except.bind, keyedHeader, hkey]
        rw [decodeArray]
        simp only [ht, hi, bind, Except.bind, pure, Except.pure, Reading.at, List.nil_append, List.cons_append, entryEvents,
          ETree.events, eventsItems_ofPrims]
      · rintro ⟨k'', w⟩
        simp only [entryJson, ETree.json, jsonItems_ofPrims]
        constructor
        · rintro ⟨h', text, cells', prims', h1, h2, h3, h4', h5', h6', h7⟩
          obtain rfl := huniq h' h1
          rw [ht] at h3
          simp only [Option.some.injEq] at h3
          subst h3
          have := (decodeInline_iff hg (hg.inline t ht) ctx.strict _).mpr ⟨cells', prims', h4', h5', h6', rfl⟩
          rw [hi] at this
          simp only [Except.ok.injEq] at this
          have hpp : prims = prims' := by
            have inj : Function.Injective (Ev.prim : Prim F → Ev F) := fun a b h => by simpa using h
            exact (List.map_inj_right (fun a b h => inj h)).mp this
          rw [hkey] at h2
          simp only [Option.some.injEq] at h2
          simp only at h7
          rw [h7, hpp, h2]
        · intro he
          obtain ⟨rfl, rfl⟩ := Prod.mk.inj he
          exact ⟨h, t, cells, prims, by rw [hq]; exact hm, hkey, ht, h4, h5, h6, rfl⟩

theorem keyPrim_yields [LawfulF64 F] {ctx : Ctx} {depth : Nat} {d : Char} (hd : GoodDelim d) (k : Str) {p : Prim F}
    (hn : normPrim p = p) :
    ∃ r : Reading F, KVRun ctx depth (encodeKey k ++ ':' :: ' ' :: encodePrimitive p d) [] r ∧
      YieldsEntry r (fun e => (∃ s, Json.prim p = .prim (.str s) ∧ LooksLikeHeader k s ∧ MisreadAs ctx.strict k s e) ∨
        ((∀ s, Json.prim p = .prim (.str s) → ¬ LooksLikeHeader k s) ∧ e.1 = k ∧ ReadsBack ctx.strict true (.prim p) e.2)) := by
  by_cases h : ∀ s, p = .str s → ¬ LooksLikeHeader k s
  · have := kvSpec_prim (F := F) (ctx := ctx) (depth := depth) hd (k := k) hn
      (fun s hs hv => by
        have := h s hs
        simp only [LooksLikeHeader, not_and] at this
        simpa using this (by rw [bareKey_eq]; exact hv))
    refine ⟨_, this.run, ?_⟩
    refine Yields.ok (ev := entryEvents) (k, !isValidUnquotedKey k, .prim p) ?_
    rintro ⟨k', w⟩
    simp only [entryJson, ETree.json, ReadsBack]
    constructor
    · rintro (⟨s, h1, h2, _⟩ | ⟨_, rfl, rfl⟩)
      · exact absurd h2 (h s (by simpa using h1))
      · rfl
    · intro he
      obtain ⟨rfl, rfl⟩ := Prod.mk.inj he
      exact Or.inr ⟨fun s hs => h s (by simpa using hs), rfl, rfl⟩
  · obtain ⟨s, rfl, hl⟩ : ∃ s, p = .str s ∧ LooksLikeHeader k s := by
      simpa [Classical.not_forall] using h
    have hk := hl.1
    rw [bareKey_eq] at hk
    simp only [encodePrimitive, encodeString_headerLike hl.2]
    obtain ⟨r, h1, h2⟩ := kvRun_misreadAs (F := F) (ctx := ctx) (depth := depth) hk hl.2
    refine ⟨r, h1, h2.to ?_⟩
    intro e
    constructor
    · exact fun h => Or.inl ⟨s, rfl, hl, h⟩
    · rintro (⟨s', h3, _, h4⟩ | ⟨h3, _⟩)
      · simp only [Json.prim.injEq, Prim.str.injEq] at h3
        rw [h3]; exact h4
      · exact absurd hl (h3 s rfl)

/-! ## The induction -/

/-- What an entry becomes. -/
def EntryReadsBack (strict : Bool) (k : Str) (v : Json F) (e : Str × Json F) : Prop :=
  (∃ s, v = .prim (.str s) ∧ LooksLikeHeader k s ∧ MisreadAs strict k s e) ∨
    ((∀ s, v = .prim (.str s) → ¬ LooksLikeHeader k s) ∧ e.1 = k ∧ ReadsBack strict true v e.2)

theorem entryReadsBack_other {strict : Bool} {k : Str} {v : Json F} (hv : ∀ s, v ≠ .prim (.str s)) (e : Str × Json F) :
    (e.1 = k ∧ ReadsBack strict true v e.2) ↔ EntryReadsBack strict k v e :=
  ⟨fun h => Or.inr ⟨fun s hs => absurd hs (hv s), h⟩, fun h => h.elim (fun ⟨s, hs, _⟩ => absurd hs (hv s)) (·.2)⟩

mutual
theorem object_yields [LawfulF64 F] {ctx : Ctx} (hb : ctx.blanks = []) {opts : EncOpts} (hd : GoodDelim opts.delim)
    (hf : opts.fold = false)
    (entries : List (Str × Json F)) (depth : Nat) (rlk : Option (List Str)) (pp : Option Str) (rem : Option Nat)
    (hs : SizedEntries entries) (hn : NormalEntries entries) :
    ∃ r : Reading F, KVRuns ctx depth (encodeObject opts entries depth rlk pp rem) r ∧
      YieldsEntries r (ReadsBackEntries ctx.strict entries) := by
  rw [encodeObject]
  exact entries_yields hb hd hf _ _ _ _ entries depth hs hn
termination_by (sizeOf entries, 3)

theorem entries_yields [LawfulF64 F] {ctx : Ctx} (hb : ctx.blanks = []) {opts : EncOpts} (hd : GoodDelim opts.delim)
    (hf : opts.fold = false) (siblings : List Str) (rlk : Option (List Str)) (pp : Option Str) (fd : Nat)
    (entries : List (Str × Json F)) (depth : Nat) (hs : SizedEntries entries)
    (hn : NormalEntries entries) :
    ∃ r : Reading F, KVRuns ctx depth (encodeEntries opts siblings rlk pp fd entries depth) r ∧
      YieldsEntries r (ReadsBackEntries ctx.strict entries) := by
  match entries, hs, hn with
  | [], _, _ =>
    rw [encodeEntries]
    exact ⟨_, KVRuns.nil, Yields.ok (ev := ETree.eventsEntries) [] (by simp [ReadsBackEntries, ETree.jsonEntries])⟩
  | (k, v) :: rest, hs, hn =>
    simp only [SizedEntries] at hs
    simp only [NormalEntries] at hn
    rw [encodeEntries, encodeKeyValue_eq, tryFold_off hf]
    obtain ⟨c, tl, r, hl, h1, h2⟩ := entry_yields hb hd hf rlk (extendPath pp k) fd k v depth hs.1 hn.1
    obtain ⟨rs, h3, h4⟩ := entries_yields hb hd hf siblings rlk pp fd rest depth hs.2 hn.2
    simp only [hl]
    exact ⟨_, KVRuns.cons h1 h3, (YieldsEntry.cons h2 h4).to (fun w => by simp only [ReadsBackEntries, EntryReadsBack])⟩
termination_by (sizeOf entries, 2)

theorem entry_yields [LawfulF64 F] {ctx : Ctx} (hb : ctx.blanks = []) {opts : EncOpts} (hd : GoodDelim opts.delim)
    (hf : opts.fold = false) (rlk : Option (List Str)) (path : Str) (fd : Nat)
    (key : Str) (value : Json F) (depth : Nat) (hs : Sized value) (hn : Normal value) :
    ∃ (c : Str) (tl : List OutLine) (r : Reading F), writeEntry opts rlk path fd key value depth = ⟨depth, c⟩ :: tl ∧ KVRun ctx depth c tl r ∧
      YieldsEntry r (EntryReadsBack ctx.strict key value) := by
  match value, hs, hn with
  | .prim p, _, hn =>
    obtain ⟨r, h1, h2⟩ := keyPrim_yields (ctx := ctx) (depth := depth) hd key (by simpa only [Normal] using hn)
    exact ⟨_, _, r, rfl, h1, h2⟩
  | .arr items, hs, hn =>
    rw [writeEntry]
    rw [encodeArray_head_tail]
    obtain ⟨r, h1, h2⟩ := array_yields hb hd hf (some key) items depth hs hn
    exact ⟨_, _, _, rfl, kvRun_arr h1, (YieldsTree.keyed _ _ h2).to (entryReadsBack_other (by simp))⟩
  | .obj es, hs, hn =>
    simp only [Sized] at hs
    simp only [Normal] at hn
    obtain ⟨r, h1, h2⟩ := object_yields hb hd hf es (depth + 1) rlk (some path) (some fd) hs hn
    refine ⟨_, _, _, rfl, kvRun_obj h1, ?_⟩
    have := YieldsTree.keyed key (!isValidUnquotedKey key) (YieldsEntries.object h2)
    rw [← seq_assoc] at this
    refine this.to fun e => ?_
    rw [← entryReadsBack_other (by simp)]
    simp only [ReadsBack]
termination_by (sizeOf value, 0)

theorem array_yields [LawfulF64 F] {ctx : Ctx} (hb : ctx.blanks = []) {opts : EncOpts} (hd : GoodDelim opts.delim)
    (hf : opts.fold = false) (key : Option Str) (items : List (Json F)) (depth : Nat)
    (hs : Sized (.arr items)) (hn : Normal (.arr items)) :
    ∃ r : Reading F, ArrRun ctx depth (arrayHead opts key items) (arrayTail opts items depth) key r ∧
      YieldsTree r (ReadsBack ctx.strict true (.arr items)) := by
  simp only [Sized] at hs
  simp only [Normal] at hn
  rw [arrayHead, arrayTail]
  split
  · rename_i hp
    exact prims_yields hb hd true key hp hn hs.1
  · by_cases hl : items.length ≤ maxDeclaredLength
    · cases ht : tableHeader items with
      | some cols =>
        simp only
        have hcols : ∀ cols', IsTable items cols' → cols' = cols := by
          intro cols' hc
          have := header_of_isTable hc
          rw [ht] at this
          simpa using this.symm
        have htab := isTable_of_header ht
        by_cases hbr : ∀ c ∈ cols, '}' ∉ c
        · refine ⟨_, (arrSpec_table hb hd hl ht hbr hn).arrRun, YieldsTree.emit _ ?_⟩
          intro w
          simp only [ReadsBack]
          constructor
          · rintro ⟨_, ⟨_, cols', h1, _, rfl⟩ | ⟨h1, _⟩⟩
            · rw [hcols cols' h1, tableRows_columns htab]
            · exact absurd ⟨trivial, cols, htab⟩ h1
          · rintro rfl
            exact ⟨hl, Or.inl ⟨trivial, cols, htab, hbr, by rw [tableRows_columns htab]⟩⟩
        · have hbr' : ∃ c ∈ cols, '}' ∈ c := by simpa [Classical.not_forall] using hbr
          have := arrRun_error (F := F) (ctx := ctx) (base := depth) hd
            (parseHeader_brace hl key hd hbr' []) (tabularRows items cols (depth + 1) opts.delim)
          rw [List.append_nil] at this
          refine ⟨_, this, Yields.error _ ?_⟩
          intro w
          simp only [ReadsBack]
          rintro ⟨_, ⟨_, cols', h1, h2, _⟩ | ⟨h1, _⟩⟩
          · rw [hcols cols' h1] at h2; exact hbr h2
          · exact h1 ⟨trivial, cols, htab⟩
      | none =>
        simp only
        have hnt : ¬ ∃ cols, IsTable items cols := by
          rintro ⟨cols, hc⟩
          rw [header_of_isTable hc] at ht
          simp at ht
        obtain ⟨r, h1, h2⟩ := items_yields hb hd hf items (depth + 1) hs.2 hn
        refine ⟨_, arrRun_list hb hd hl h1, (YieldsItems.array _ h2).to ?_⟩
        intro w
        simp only [ReadsBack]
        constructor
        · exact fun h => ⟨hl, Or.inr ⟨fun h => hnt h.2, h⟩⟩
        · rintro ⟨_, ⟨_, cols', h1, _⟩ | ⟨_, h⟩⟩
          · exact absurd ⟨_, h1⟩ hnt
          · exact h
    · have := arrRun_error (F := F) (ctx := ctx) (base := depth) hd
        (parseHeader_over (not_over hl) hs.1 key (tableHeader items) hd [])
        (match tableHeader items with
          | some header => tabularRows items header (depth + 1) opts.delim
          | none => encodeItems opts items (depth + 1))
      rw [List.append_nil] at this
      exact ⟨_, this, Yields.error _ (not_readsBack_over _ _ hl)⟩
termination_by (sizeOf items, 4)

theorem items_yields [LawfulF64 F] {ctx : Ctx} (hb : ctx.blanks = []) {opts : EncOpts} (hd : GoodDelim opts.delim)
    (hf : opts.fold = false) (items : List (Json F)) (depth : Nat) (hs : SizedItems items)
    (hn : NormalItems items) :
    ∃ r : Reading F, ItemRuns ctx depth (encodeItems opts items depth) items.length r ∧
      YieldsItems r (ReadsBackItems ctx.strict items) := by
  match items, hs, hn with
  | [], _, _ =>
    rw [encodeItems]
    exact ⟨_, ItemRuns.nil, Yields.ok (ev := ETree.eventsItems) [] (by simp [ReadsBackItems, ETree.jsonItems])⟩
  | v :: vs, hs, hn =>
    simp only [SizedItems] at hs
    simp only [NormalItems] at hn
    rw [encodeItems, List.length_cons]
    obtain ⟨c, tl, r, hl, h1, h2⟩ := item_yields hb hd hf v depth hs.1 hn.1
    obtain ⟨rs, h3, h4⟩ := items_yields hb hd hf vs depth hs.2 hn.2
    rw [hl]
    exact ⟨_, ItemRuns.cons h1 h3, (YieldsTree.cons h2 h4).to (fun w => by simp only [ReadsBackItems])⟩
termination_by (sizeOf items, 3)

theorem item_yields [LawfulF64 F] {ctx : Ctx} (hb : ctx.blanks = []) {opts : EncOpts} (hd : GoodDelim opts.delim)
    (hf : opts.fold = false) (value : Json F) (depth : Nat) (hs : Sized value)
    (hn : Normal value) :
    ∃ (c : Str) (tl : List OutLine) (r : Reading F), encodeItem opts value depth = ⟨depth, c⟩ :: tl ∧ ItemRun ctx depth c tl r ∧
      YieldsTree r (ReadsBack ctx.strict false value) := by
  match value, hs, hn with
  | .prim p, _, hn =>
    rw [encodeItem]
    exact ⟨_, _, _, rfl, (itemSpec_prim hd (by simpa only [Normal] using hn)).run, YieldsTree.emit _ (fun w => by simp only [ReadsBack])⟩
  | .arr items, hs, hn =>
    rw [encodeItem]
    simp only [Sized] at hs
    simp only [Normal] at hn
    split
    · rename_i hp
      obtain ⟨r, h1, h2⟩ := prims_yields (ctx := ctx) (base := depth) hb hd false none hp hn hs.1
      exact ⟨_, _, _, rfl, itemRun_arr h1, h2⟩
    · by_cases hl : items.length ≤ maxDeclaredLength
      · obtain ⟨r, h1, h2⟩ := items_yields hb hd hf items (depth + 1) hs.2 hn
        refine ⟨_, _, _, rfl, itemRun_arr (arrRun_list hb hd hl h1), (YieldsItems.array _ h2).to ?_⟩
        intro w
        simp only [ReadsBack]
        constructor
        · exact fun h => ⟨hl, Or.inr ⟨by simp, h⟩⟩
        · rintro ⟨_, ⟨h, _⟩ | ⟨_, h⟩⟩
          · simp at h
          · exact h
      · have := arrRun_error (F := F) (ctx := ctx) (base := depth) hd
          (parseHeader_over (not_over hl) hs.1 none none hd []) (encodeItems opts items (depth + 1))
        rw [List.append_nil] at this
        exact ⟨_, _, _, rfl, itemRun_arr this, Yields.error _ (not_readsBack_over _ _ hl)⟩
  | .obj es, hs, hn =>
    rw [encodeItem]
    simp only [Sized] at hs
    simp only [Normal] at hn
    obtain ⟨c, tl, r, h0, h1, h2⟩ := objectItem_yields hb hd hf es depth hs hn
    exact ⟨c, tl, r, h0, h1, h2.to (fun w => by simp only [ReadsBack])⟩
termination_by (sizeOf value, 1)

theorem objectItem_yields [LawfulF64 F] {ctx : Ctx} (hb : ctx.blanks = []) {opts : EncOpts} (hd : GoodDelim opts.delim)
    (hf : opts.fold = false) (entries : List (Str × Json F)) (depth : Nat)
    (hs : SizedEntries entries) (hn : NormalEntries entries) :
    ∃ (c : Str) (tl : List OutLine) (r : Reading F), encodeObjectItem opts entries depth = ⟨depth, c⟩ :: tl ∧ ItemRun ctx depth c tl r ∧
      YieldsTree r (fun w => ∃ es', w = .obj es' ∧ ReadsBackEntries ctx.strict entries es') := by
  match entries, hs, hn with
  | [], _, _ =>
    rw [encodeObjectItem]
    refine ⟨_, _, _, rfl, itemSpec_empty.run, YieldsTree.emit _ ?_⟩
    simp [ReadsBackEntries]
  | (k, v) :: rest, hs, hn =>
    simp only [SizedEntries] at hs
    simp only [NormalEntries] at hn
    obtain ⟨rs, h3, h4⟩ := object_yields hb hd hf rest (depth + 1) none none none hs.2 hn.2
    rw [encodeObjectItem_cons]
    have key : ∀ (c : Str) (tl : List OutLine) (r : Reading F), KVRun ctx (depth + 1) c tl r →
        YieldsEntry r (EntryReadsBack ctx.strict k v) →
        ∃ (c' : Str) (tl' : List OutLine) (r' : Reading F), ⟨depth, dash c⟩ :: (tl ++ encodeObject opts rest (depth + 1) none none none) = ⟨depth, c'⟩ :: tl' ∧
          ItemRun ctx depth c' tl' r' ∧ YieldsTree r' (fun w => ∃ es', w = .obj es' ∧ ReadsBackEntries ctx.strict ((k, v) :: rest) es') := by
      intro c tl r h1 h2
      refine ⟨_, _, _, rfl, itemRun_obj h1 h3, ?_⟩
      have := YieldsEntries.object (YieldsEntry.cons h2 h4)
      rw [seq_assoc] at this
      exact this.to fun w => by simp only [ReadsBackEntries, EntryReadsBack]
    match v, hs, hn, key with
    | .prim p, hs, hn, key =>
      obtain ⟨r, h1, h2⟩ := keyPrim_yields (ctx := ctx) (depth := depth + 1) hd k (by simpa only [Normal] using hn.1)
      exact key _ _ _ h1 h2
    | .arr items, hs, hn, key =>
      obtain ⟨r, h1, h2⟩ := array_yields hb hd hf (some k) items (depth + 1) hs.1 hn.1
      exact key _ _ _ (kvRun_arr h1) ((YieldsTree.keyed _ _ h2).to (entryReadsBack_other (by simp)))
    | .obj es, hs, hn, key =>
      have hs1 := hs.1
      have hn1 := hn.1
      simp only [Sized] at hs1
      simp only [Normal] at hn1
      obtain ⟨r, h1, h2⟩ := object_yields hb hd hf es (depth + 2) none none none hs1 hn1
      refine key _ _ _ (kvRun_obj h1) ?_
      have := YieldsTree.keyed k (!isValidUnquotedKey k) (YieldsEntries.object h2)
      rw [← seq_assoc] at this
      refine this.to fun e => ?_
      rw [← entryReadsBack_other (by simp)]
      simp only [ReadsBack]
termination_by (sizeOf entries, 0)

end

/-! ## The whole text -/

theorem decodeLines_yields [LawfulF64 F] {ctx : Ctx} (hb : ctx.blanks = []) {opts : EncOpts} (hd : GoodDelim opts.delim)
    (hf : opts.fold = false) {v : Json F} (hs : Sized v) (hn : Normal v)
    {lines : List Line} (hp : Proj lines (encodeValue opts v)) :
    YieldsTree (decodeLines (F := F) ctx lines) (ReadsBack ctx.strict true v) := by
  cases v with
  | prim p =>
    have hw : Writable true (.prim p) := by simp [Writable]
    rw [decodeLines_written hb hd hw hn hp]
    exact YieldsTree.emit _ (fun w => by simp only [ReadsBack, shape])
  | arr items =>
    unfold decodeLines
    simp only [encodeValue] at hp
    rw [encodeArray_head_tail] at hp
    obtain ⟨l, ls, rfl, hdp, hc, hp⟩ := Proj.cons hp
    obtain ⟨r, h1, h2⟩ := array_yields hb hd hf none items 0 hs hn
    obtain ⟨n, fields, d, suffix, hd', hform⟩ := h1.form
    have harr : isArrayHeaderContent (arrayHead opts none items) = true := by
      rw [hform]; exact arrayHeader_none n fields hd' suffix
    simp only [rootHeader, hc, harr, if_true]
    rcases h1.run with ⟨e, he, rfl⟩ | ⟨hh, hparse, hkey, hq, hdec⟩
    · simp only [he, bind, Except.bind]
      exact h2
    · obtain ⟨last', e⟩ := hdec ls [] (some l) (5 * (l :: ls).length + 5) hp (by intro l hl; simp at hl)
        (by simp only [List.length_cons]; omega)
      rw [List.append_nil] at e
      simp only [hparse, bind, Except.bind, e]
      cases r with
      | error x => simp only [Reading.at]; exact h2
      | ok evs => simp only [Reading.at, pure, Except.pure]; exact h2
  | obj es =>
    unfold decodeLines
    simp only [Sized] at hs
    simp only [Normal] at hn
    simp only [encodeValue] at hp
    obtain ⟨r, h1, h2⟩ := object_yields hb hd hf es 0 none none none hs hn
    have h2 := (YieldsEntries.object h2).to (S := ReadsBack ctx.strict true (.obj es)) (fun w => by simp only [ReadsBack])
    generalize encodeObject opts es 0 none none none = os at h1 hp
    cases h1 with
    | nil =>
      rw [Proj.nil_iff.mp hp]
      exact h2
    | @cons c tl ls0 r rs h1 h3 =>
      rw [List.cons_append] at hp
      obtain ⟨l, ls, rfl, hdp, hc, hp⟩ := Proj.cons hp
      obtain ⟨l1, l2, rfl, hp1, hp2⟩ := hp.split
      have hr : RestLe 0 (l2 ++ []) := h3.restLe hp2 (by intro l hl; simp at hl)
      rw [List.append_nil] at hr
      obtain ⟨last1, e1⟩ := h1.2 l1 l2 (some l) (5 * (l :: (l1 ++ l2)).length + 5) hp1 hr
        (by simp only [List.length_cons, List.length_append]; omega)
      obtain ⟨last2, e2⟩ := h3.root l2 last1 (5 * (l :: (l1 ++ l2)).length + 5) hp2
        (by simp only [List.length_cons, List.length_append]; omega)
      simp only [rootHeader, hc, h1.1.arr, Bool.false_eq_true, if_false, bind, Except.bind, h1.1.kvl, Bool.not_true,
        Bool.and_false, e1]
      cases r with
      | error x => simp only [Reading.at]; simpa [Reading.seq] using h2
      | ok evs =>
        simp only [Reading.at, e2]
        cases rs with
        | error x => simp only [Reading.at]; simpa [Reading.seq] using h2
        | ok evs' =>
          simp only [Reading.at, pure, Except.pure]
          simpa [Reading.seq] using h2

end

end Toon
