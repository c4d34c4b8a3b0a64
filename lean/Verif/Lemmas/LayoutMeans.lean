import Verif.Spec.LayoutMeans
import Verif.Lemmas.Misread
import Verif.Lemmas.OutcomeFold

/-! What the lines of a layout are read as: the induction of `Lemmas/Misread.lean`, with folding. -/

namespace Toon

section
variable {F : Type}

/-! ## Outcomes -/

/-- Reading succeeds exactly with the events of what satisfies `R`. -/
def Gives {α : Type} (ev : α → List (Ev F)) (r : Reading F) (R : α → Prop) : Prop :=
  ∀ evs, r = .ok evs ↔ ∃ t, evs = ev t ∧ R t

abbrev GivesTree (r : Reading F) (R : ETree F → Prop) : Prop := Gives ETree.events r R
abbrev GivesItems (r : Reading F) (R : List (ETree F) → Prop) : Prop := Gives ETree.eventsItems r R
abbrev GivesEntry (r : Reading F) (R : Str × Bool × ETree F → Prop) : Prop := Gives entryEvents r R
abbrev GivesEntries (r : Reading F) (R : List (Str × Bool × ETree F) → Prop) : Prop := Gives ETree.eventsEntries r R

theorem Gives.error {α : Type} {ev : α → List (Ev F)} {R : α → Prop} (e : Err) (h : ∀ t, ¬ R t) : Gives ev (.error e) R :=
  fun evs => ⟨by simp, fun ⟨t, _, ht⟩ => absurd ht (h t)⟩

theorem Gives.ok {α : Type} {ev : α → List (Ev F)} {R : α → Prop} (t : α) (h : ∀ t', R t' ↔ t' = t) : Gives ev (.ok (ev t)) R := by
  intro evs
  constructor
  · intro he
    simp only [Except.ok.injEq] at he
    exact ⟨t, he.symm, (h t).mpr rfl⟩
  · rintro ⟨t', rfl, ht⟩
    rw [(h t').mp ht]

theorem Gives.to {α : Type} {ev : α → List (Ev F)} {r : Reading F} {R S : α → Prop} (h : Gives ev r R) (hi : ∀ t, R t ↔ S t) :
    Gives ev r S := by
  intro evs
  rw [h evs]
  simp only [hi]

/-- An entry and further ones. -/
theorem GivesEntry.cons {a b : Reading F} {R : Str × Bool × ETree F → Prop} {S : List (Str × Bool × ETree F) → Prop}
    (ha : GivesEntry a R) (hb : GivesEntries b S) :
    GivesEntries (a.seq b) (fun es => ∃ e rest, es = e :: rest ∧ R e ∧ S rest) := by
  intro evs
  rw [seq_ok_iff_both]
  constructor
  · rintro ⟨x, y, h1, h2, rfl⟩
    obtain ⟨⟨k, q, t⟩, rfl, h3⟩ := (ha x).mp h1
    obtain ⟨es, rfl, h4⟩ := (hb y).mp h2
    exact ⟨(k, q, t) :: es, by simp [entryEvents, ETree.eventsEntries], _, _, rfl, h3, h4⟩
  · rintro ⟨_, rfl, ⟨k, q, t⟩, es, rfl, h3, h4⟩
    exact ⟨_, _, (ha _).mpr ⟨_, rfl, h3⟩, (hb _).mpr ⟨_, rfl, h4⟩, by simp [entryEvents, ETree.eventsEntries]⟩

/-- An element and further ones. -/
theorem GivesTree.cons {a b : Reading F} {R : ETree F → Prop} {S : List (ETree F) → Prop} (ha : GivesTree a R) (hb : GivesItems b S) :
    GivesItems (a.seq b) (fun ts => ∃ t rest, ts = t :: rest ∧ R t ∧ S rest) := by
  intro evs
  rw [seq_ok_iff_both]
  constructor
  · rintro ⟨x, y, h1, h2, rfl⟩
    obtain ⟨t, rfl, h3⟩ := (ha x).mp h1
    obtain ⟨ts, rfl, h4⟩ := (hb y).mp h2
    exact ⟨t :: ts, by simp [ETree.eventsItems], _, _, rfl, h3, h4⟩
  · rintro ⟨_, rfl, t, ts, rfl, h3, h4⟩
    exact ⟨_, _, (ha _).mpr ⟨_, rfl, h3⟩, (hb _).mpr ⟨_, rfl, h4⟩, by simp [ETree.eventsItems]⟩

theorem GivesEntries.object {r : Reading F} {R : List (Str × Bool × ETree F) → Prop} (h : GivesEntries r R) :
    GivesTree (Reading.seq (.ok [.startObj]) (r.seq (.ok [.endObj]))) (fun t => ∃ es, t = .obj es ∧ R es) := by
  intro evs
  simp only [seq_ok_iff_both]
  constructor
  · rintro ⟨x, y, h1, ⟨x', y', h3, h4, rfl⟩, rfl⟩
    simp only [Except.ok.injEq] at h1 h4
    subst h1 h4
    obtain ⟨es, rfl, h5⟩ := (h x').mp h3
    exact ⟨.obj es, by simp [ETree.events], _, rfl, h5⟩
  · rintro ⟨_, rfl, es, rfl, h1⟩
    exact ⟨_, _, rfl, ⟨_, _, (h _).mpr ⟨_, rfl, h1⟩, rfl, rfl⟩, by simp [ETree.events]⟩

theorem GivesItems.array {r : Reading F} {R : List (ETree F) → Prop} (n : Nat) (h : GivesItems r R) :
    GivesTree (Reading.seq (.ok [.startArr n]) (r.seq (.ok [.endArr]))) (fun t => ∃ ts, t = .arr n ts ∧ R ts) := by
  intro evs
  simp only [seq_ok_iff_both]
  constructor
  · rintro ⟨x, y, h1, ⟨x', y', h3, h4, rfl⟩, rfl⟩
    simp only [Except.ok.injEq] at h1 h4
    subst h1 h4
    obtain ⟨es, rfl, h5⟩ := (h x').mp h3
    exact ⟨.arr n es, by simp [ETree.events], _, rfl, h5⟩
  · rintro ⟨_, rfl, es, rfl, h1⟩
    exact ⟨_, _, rfl, ⟨_, _, (h _).mpr ⟨_, rfl, h1⟩, rfl, rfl⟩, by simp [ETree.events]⟩

theorem GivesTree.keyed {r : Reading F} {R : ETree F → Prop} (k : Str) (q : Bool) (h : GivesTree r R) :
    GivesEntry (Reading.seq (.ok [.key k q]) r) (fun e => e.1 = k ∧ e.2.1 = q ∧ R e.2.2) := by
  intro evs
  rw [seq_ok_iff_both]
  constructor
  · rintro ⟨x, y, h1, h2, rfl⟩
    simp only [Except.ok.injEq] at h1
    subst h1
    obtain ⟨t, rfl, h3⟩ := (h y).mp h2
    exact ⟨(k, q, t), by simp [entryEvents], rfl, rfl, h3⟩
  · rintro ⟨⟨k', q', t⟩, rfl, h1, h2, h3⟩
    simp only at h1 h2 h3
    subst h1 h2
    exact ⟨_, _, rfl, (h _).mpr ⟨_, rfl, h3⟩, by simp [entryEvents]⟩

theorem GivesTree.emit {R : ETree F → Prop} (v : Json F) (h : ∀ t, R t ↔ t = treeOf v) : GivesTree (.ok (emitEvents v)) R := by
  rw [← events_treeOf]
  exact Gives.ok (treeOf v) h

/-! ## Parts of the layout -/

theorem treesOf_prims : ∀ ps : List (Prim F), treesOf (ps.map Json.prim) = ps.map ETree.prim
  | [] => rfl
  | p :: ps => by simp [treesOf, treeOf, treesOf_prims ps]

theorem zipRow_tree : ∀ (cols : List Str) (ps : List (Prim F)),
    treeEntries (zipRow cols ps) = (cols.zip ps).map fun c => (c.1, !bareKey c.1, .prim c.2)
  | [], _ => by simp [zipRow, treeEntries]
  | _ :: _, [] => by simp [zipRow, treeEntries]
  | c :: cols, p :: ps => by simp [zipRow, treeEntries, treeOf, bareKey_eq, zipRow_tree cols ps]

theorem tableRows_rows (cols : List Str) : ∀ items : List (Json F), (tableRows items cols).length = (rowsOf items cols).length
  | [] => rfl
  | v :: vs => by
    have ih := tableRows_rows cols vs
    unfold tableRows rowsOf at ih ⊢
    cases v <;> simpa using ih

theorem tableRows_trees (cols : List Str) : ∀ items : List (Json F),
    treesOf (tableRows items cols) = (rowsOf items cols).map fun row => .obj ((cols.zip row).map fun c => (c.1, !bareKey c.1, .prim c.2))
  | [] => rfl
  | v :: vs => by
    have ih := tableRows_trees cols vs
    unfold tableRows rowsOf at ih ⊢
    cases v <;> simp [treesOf, treeOf, zipRow_tree, ih]

variable [F64 F]

/-- What an entry of a layout becomes. -/
def EntryLaidOut (strict : Bool) (k : Str) (l : Layout F) (e : Str × Bool × ETree F) : Prop :=
  (∃ s, l = .prim (.str s) ∧ LooksLikeHeader k s ∧ MisreadTree strict k s e) ∨
    ((∀ s, l = .prim (.str s) → ¬ LooksLikeHeader k s) ∧ e.1 = k ∧ e.2.1 = !bareKey k ∧ l.Means strict e.2.2)

theorem entryLaidOut_other {strict : Bool} {k : Str} {l : Layout F} (hv : ∀ s, l ≠ .prim (.str s)) (e : Str × Bool × ETree F) :
    (e.1 = k ∧ e.2.1 = !isValidUnquotedKey k ∧ l.Means strict e.2.2) ↔ EntryLaidOut strict k l e := by
  rw [← bareKey_eq]
  exact ⟨fun h => Or.inr ⟨fun s hs => absurd hs (hv s), h⟩, fun h => h.elim (fun ⟨s, hs, _⟩ => absurd hs (hv s)) (·.2)⟩

omit [F64 F] in
theorem arrayLayout_other {fold : Bool} {n : Nat} {taken path : List Str} {fd : Nat} {items : List (Json F)} {l : Layout F}
    (h : ValueLayout fold n taken path fd (.arr items) l) (s : Str) : l ≠ .prim (.str s) := by
  cases h <;> simp

theorem inline_laidOut [LawfulF64 F] {ctx : Ctx} (hb : ctx.blanks = []) {base : Nat} {d : Char} (hd : GoodDelim d)
    (key : Option Str) {items : List (Json F)} {ps : List (Prim F)} (hp : ArePrims items ps) (hn : NormalItems items)
    (hs : items.length < 2 ^ 64) :
    ∃ r : Reading F, ArrRun ctx base (encodeInlineArrayLine items d key) [] key r ∧
      GivesTree r (Layout.Means ctx.strict (.inline ps)) := by
  have ha := (arePrims_iff items).mp ⟨ps, hp⟩
  have hlen : items.length = ps.length := by rw [hp]; simp
  by_cases hl : items.length ≤ maxDeclaredLength
  · refine ⟨_, (arrSpec_inline hb hd hl ha hn).arrRun, GivesTree.emit _ fun t => ?_⟩
    have e : treeOf (.arr items) = .arr ps.length (ps.map .prim) := by rw [treeOf, hlen, hp, treesOf_prims]
    rw [e]
    simp only [Layout.Means]
    exact ⟨fun h => h.2, fun h => ⟨by rw [← hlen]; exact hl, h⟩⟩
  · have hno : ∀ t, ¬ Layout.Means ctx.strict (.inline ps) t := by
      intro t h
      simp only [Layout.Means, ← hlen] at h
      exact hl h.1
    unfold encodeInlineArrayLine
    simp only
    split
    · have := arrRun_error (F := F) (ctx := ctx) (base := base) hd
        (parseHeader_over (not_over hl) hs key none hd []) []
      rw [List.append_nil] at this
      exact ⟨_, this, Gives.error _ hno⟩
    · exact ⟨_, arrRun_error hd (parseHeader_over (not_over hl) hs key none hd _) [], Gives.error _ hno⟩

/-- An entry whose string looks like a header, exactly. -/
theorem kvRun_misreadTree {ctx : Ctx} {depth : Nat} {k s : Str} (hk : isValidUnquotedKey k = true) (hs : headerLike s = true) :
    ∃ r : Reading F, KVRun ctx depth (encodeKey k ++ ':' :: ' ' :: quoted s) [] r ∧ GivesEntry r (MisreadTree ctx.strict k s) := by
  have hkl := keyLine_colon k (' ' :: quoted s)
  have hq : quotedText s = quoted s := by rw [quotedText_eq]; simp [quoted]
  rw [encodeKey_valid hk] at hkl ⊢
  rcases (parseHeader_quotedValue hk s).2 hs with ⟨e, he⟩ | ⟨h, hp, k', hkey, _, _, _⟩
  · refine ⟨.error e, ⟨hkl, ?_⟩, Gives.error _ ?_⟩
    · intro ls rest last fuel hpj hr hf
      obtain ⟨f, rfl⟩ : ∃ f, fuel = f + 1 := ⟨fuel - 1, by omega⟩
      rw [decodeKV]
      exact ⟨none, by simp only [he, bind, Except.bind, Reading.at]⟩
    · rintro w ⟨h, _, _, _, h1, _⟩
      rw [hq, ← headerMeans_iff, he] at h1
      simp at h1
  · obtain ⟨t, ht⟩ := parseHeader_inline (c := k ++ ':' :: ' ' :: '"' :: escapeString s) (h := h) (by
      rw [← hp]; congr 1; simp [quoted])
    have hm := (headerMeans_iff _ _).mp hp
    have hg := headerMeans_good hm
    have huniq : ∀ h', HeaderMeans (k ++ ':' :: ' ' :: quotedText s) h' → h' = h := by
      intro h' h1
      rw [hq, ← headerMeans_iff, hp] at h1
      simpa using h1.symm
    cases hi : decodeInline (F := F) h t ctx.strict with
    | error e =>
      refine ⟨.error e, ⟨hkl, ?_⟩, Gives.error _ ?_⟩
      · intro ls rest last fuel hpj hr hf
        obtain ⟨f, rfl⟩ : ∃ f, fuel = f + 2 := ⟨fuel - 2, by omega⟩
        rw [decodeKV]
        simp only [hp, bind, Except.bind, keyedHeader, hkey]
        rw [decodeArray]
        simp only [ht, hi, bind, Except.bind, Reading.at]
        exact ⟨none, trivial⟩
      · rintro w ⟨h', text, cells, prims, h1, h2, h3, h4, h5, h6, _⟩
        obtain rfl := huniq h' h1
        rw [ht] at h3
        simp only [Option.some.injEq] at h3
        subst h3
        have := (decodeInline_iff hg (hg.inline t ht) ctx.strict _).mpr ⟨cells, prims, h4, h5, h6, rfl⟩
        rw [hi] at this
        simp at this
    | ok evs =>
      obtain ⟨cells, prims, h4, h5, h6, rfl⟩ := (decodeInline_iff hg (hg.inline t ht) ctx.strict _).mp hi
      refine ⟨.ok (entryEvents (k', h.keyQuoted, .arr h.length (prims.map .prim))), ⟨hkl, ?_⟩, Gives.ok _ ?_⟩
      · intro ls rest last fuel hpj hr hf
        rw [Proj.nil_iff.mp hpj]
        obtain ⟨f, rfl⟩ : ∃ f, fuel = f + 2 := ⟨fuel - 2, by omega⟩
        refine ⟨last, ?_⟩
        rw [decodeKV]
        simp only [hp, bind, Except.bind, keyedHeader, hkey]
        rw [decodeArray]
        simp only [ht, hi, bind, Except.bind, pure, Except.pure, Reading.at, List.nil_append, List.cons_append, entryEvents,
          ETree.events, eventsItems_ofPrims]
      · rintro ⟨k'', q'', w⟩
        constructor
        · rintro ⟨h', text, cells', prims', h1, h2, h3, h4', h5', h6', h7, h8⟩
          obtain rfl := huniq h' h1
          rw [ht] at h3
          simp only [Option.some.injEq] at h3
          subst h3
          have := (decodeInline_iff hg (hg.inline t ht) ctx.strict _).mpr ⟨cells', prims', h4', h5', h6', rfl⟩
          rw [hi] at this
          simp only [Except.ok.injEq] at this
          have hpp : prims = prims' := by
            have inj : Function.Injective (Ev.prim : Prim F → Ev F) := fun a b h => by simpa using h
            exact (List.map_inj_right (fun a b h => inj h)).mp this
          rw [hkey] at h2
          simp only [Option.some.injEq] at h2
          simp only at h7 h8
          rw [h7, h8, hpp, h2]
        · intro he
          rw [he]
          exact ⟨h, t, cells, prims, by rw [hq]; exact hm, hkey, ht, h4, h5, h6, rfl, rfl⟩

theorem keyPrim_laidOut [LawfulF64 F] {ctx : Ctx} {depth : Nat} {d : Char} (hd : GoodDelim d) (k : Str) {p : Prim F}
    (hn : normPrim p = p) :
    ∃ r : Reading F, KVRun ctx depth (encodeKey k ++ ':' :: ' ' :: encodePrimitive p d) [] r ∧
      GivesEntry r (EntryLaidOut ctx.strict k (.prim p)) := by
  by_cases h : ∀ s, p = .str s → ¬ LooksLikeHeader k s
  · have := kvSpec_prim (F := F) (ctx := ctx) (depth := depth) hd (k := k) hn
      (fun s hs hv => by
        have := h s hs
        simp only [LooksLikeHeader, not_and] at this
        simpa using this (by rw [bareKey_eq]; exact hv))
    refine ⟨_, this.run, ?_⟩
    refine Gives.ok (ev := entryEvents) (k, !isValidUnquotedKey k, .prim p) ?_
    rintro ⟨k', q', t⟩
    simp only [EntryLaidOut, Layout.Means, Layout.prim.injEq]
    constructor
    · rintro (⟨s, h1, h2, _⟩ | ⟨_, rfl, rfl, rfl⟩)
      · exact absurd h2 (h s h1)
      · rw [bareKey_eq]
    · intro he
      obtain ⟨rfl, he⟩ := Prod.mk.inj he
      obtain ⟨rfl, rfl⟩ := Prod.mk.inj he
      exact Or.inr ⟨fun s hs => h s hs, rfl, by rw [bareKey_eq], rfl⟩
  · obtain ⟨s, rfl, hl⟩ : ∃ s, p = .str s ∧ LooksLikeHeader k s := by
      simpa [Classical.not_forall] using h
    have hk := hl.1
    rw [bareKey_eq] at hk
    simp only [encodePrimitive, encodeString_headerLike hl.2]
    obtain ⟨r, h1, h2⟩ := kvRun_misreadTree (F := F) (ctx := ctx) (depth := depth) hk hl.2
    refine ⟨r, h1, h2.to ?_⟩
    intro e
    constructor
    · exact fun h => Or.inl ⟨s, rfl, hl, h⟩
    · rintro (⟨s', h3, _, h4⟩ | ⟨h3, _⟩)
      · simp only [Layout.prim.injEq, Prim.str.injEq] at h3
        rw [h3]; exact h4
      · exact absurd hl (h3 s rfl)

mutual
theorem entries_laidOut [LawfulF64 F] {ctx : Ctx} (hb : ctx.blanks = []) {opts : EncOpts} (hd : GoodDelim opts.delim)
    (siblings taken path : List Str) (rlk : Option (List Str)) (pp : Option Str) (fd : Nat)
    (ht : TakenIs rlk taken) (hp : PathIs pp path) (entries : List (Str × Json F)) (depth : Nat) (hs : SizedEntries entries)
    (hn : NormalEntries entries) :
    ∃ ls, EntriesLayout opts.fold opts.flattenDepth siblings taken path fd entries ls ∧
      ∃ r : Reading F, KVRuns ctx depth (encodeEntries opts siblings rlk pp fd entries depth) r ∧
        GivesEntries r (Layout.MeansEntries ctx.strict ls) := by
  match entries, hs, hn with
  | [], _, _ =>
    rw [encodeEntries]
    exact ⟨[], .nil, _, KVRuns.nil, Gives.ok (ev := ETree.eventsEntries) [] (by simp [Layout.MeansEntries])⟩
  | (k, v) :: rest, hs, hn =>
    simp only [SizedEntries] at hs
    simp only [NormalEntries] at hn
    obtain ⟨ls, h0, rs, h3, h4⟩ := entries_laidOut hb hd siblings taken path rlk pp fd ht hp rest depth hs.2 hn.2
    rcases tryFold_foldable (opts := opts) (siblings := siblings) ht hp fd k v with ⟨ks, leaf, hf, hfo, he⟩ | ⟨hno, he⟩
    · have hlt : sizeOf leaf < sizeOf v := tryFold_size he
      have hv : v = nested ks leaf := hfo.1.1
      have hs1 := hs.1
      have hn1 := hn.1
      rw [hv] at hs1 hn1
      obtain ⟨l, c, tl, r, g0, hl, h1, h2⟩ := entry_laidOut hb hd taken (path ++ k :: ks) rlk (fd - (k :: ks).length) ht (by simp)
        (dotted (k :: ks)) leaf depth (nested_sized ks hs1) (nested_normal ks hn1)
      refine ⟨(dotted (k :: ks), l) :: ls, .folded hf hfo g0 h0, ?_⟩
      rw [encodeEntries, encodeKeyValue_eq, he]
      dsimp only
      rw [extendPath_is hp _ (by simp), hl]
      exact ⟨_, KVRuns.cons h1 h3, (GivesEntry.cons h2 h4).to (fun w => by simp only [Layout.MeansEntries, EntryLaidOut])⟩
    · obtain ⟨l, c, tl, r, g0, hl, h1, h2⟩ := entry_laidOut hb hd taken (path ++ [k]) rlk fd ht (by simp) k v depth hs.1 hn.1
      refine ⟨(k, l) :: ls, .plain hno g0 h0, ?_⟩
      rw [encodeEntries, encodeKeyValue_eq, he]
      dsimp only
      rw [show extendPath pp k = dotted (path ++ [k]) from extendPath_is hp [k] (by simp), hl]
      exact ⟨_, KVRuns.cons h1 h3, (GivesEntry.cons h2 h4).to (fun w => by simp only [Layout.MeansEntries, EntryLaidOut])⟩
termination_by (sizeOf entries, 2)

theorem entry_laidOut [LawfulF64 F] {ctx : Ctx} (hb : ctx.blanks = []) {opts : EncOpts} (hd : GoodDelim opts.delim)
    (taken path : List Str) (rlk : Option (List Str)) (fd : Nat) (ht : TakenIs rlk taken) (hp : path ≠ [])
    (key : Str) (value : Json F) (depth : Nat) (hs : Sized value) (hn : Normal value) :
    ∃ (l : Layout F) (c : Str) (tl : List OutLine) (r : Reading F), ValueLayout opts.fold opts.flattenDepth taken path fd value l ∧
      writeEntry opts rlk (dotted path) fd key value depth = ⟨depth, c⟩ :: tl ∧ KVRun ctx depth c tl r ∧
      GivesEntry r (EntryLaidOut ctx.strict key l) := by
  match value, hs, hn with
  | .prim p, _, hn =>
    obtain ⟨r, h1, h2⟩ := keyPrim_laidOut (ctx := ctx) (depth := depth) hd key (by simpa only [Normal] using hn)
    exact ⟨_, _, _, r, .prim p, rfl, h1, h2⟩
  | .arr items, hs, hn =>
    rw [writeEntry]
    rw [encodeArray_head_tail]
    obtain ⟨l, h0, r, h1, h2⟩ := array_laidOut hb hd (some key) items depth hs hn
    exact ⟨l, _, _, _, h0 _ _ _, rfl, kvRun_arr h1, (GivesTree.keyed _ _ h2).to (entryLaidOut_other (arrayLayout_other (h0 [] [] 0)))⟩
  | .obj es, hs, hn =>
    simp only [Sized] at hs
    simp only [Normal] at hn
    obtain ⟨ls, h0, r, h1, h2⟩ := entries_laidOut hb hd (es.map Prod.fst) taken path rlk (some (dotted path)) fd ht
      (by unfold PathIs; rw [if_neg hp]) es (depth + 1) hs hn
    have e : encodeObject opts es (depth + 1) rlk (some (dotted path)) (some fd) =
        encodeEntries opts (es.map Prod.fst) rlk (some (dotted path)) fd es (depth + 1) := by
      rw [encodeObject, rootLiterals_pos (by omega)]; rfl
    rw [← e] at h1
    refine ⟨.object ls, _, _, _, .object h0, rfl, kvRun_obj h1, ?_⟩
    have := GivesTree.keyed key (!isValidUnquotedKey key) (GivesEntries.object h2)
    rw [← seq_assoc] at this
    refine this.to fun e => ?_
    rw [← entryLaidOut_other (by simp)]
    simp only [Layout.Means]
termination_by (sizeOf value, 5)

theorem array_laidOut [LawfulF64 F] {ctx : Ctx} (hb : ctx.blanks = []) {opts : EncOpts} (hd : GoodDelim opts.delim)
    (key : Option Str) (items : List (Json F)) (depth : Nat)
    (hs : Sized (.arr items)) (hn : Normal (.arr items)) :
    ∃ l : Layout F, (∀ taken path fd, ValueLayout opts.fold opts.flattenDepth taken path fd (.arr items) l) ∧
      ∃ r : Reading F, ArrRun ctx depth (arrayHead opts key items) (arrayTail opts items depth) key r ∧
        GivesTree r (l.Means ctx.strict) := by
  simp only [Sized] at hs
  simp only [Normal] at hn
  rw [arrayHead, arrayTail]
  by_cases hprim : isArrayOfPrims items = true
  · obtain ⟨ps, hps⟩ := (arePrims_iff items).mpr hprim
    rw [if_pos hprim, if_pos hprim]
    exact ⟨.inline ps, fun _ _ _ => .inline hps, inline_laidOut hb hd key hps hn hs.1⟩
  · have hnp : ¬ ∃ ps, ArePrims items ps := fun h => hprim ((arePrims_iff items).mp h)
    rw [if_neg hprim, if_neg hprim]
    have over : ∀ tail, ¬ items.length ≤ maxDeclaredLength → ∀ l : Layout F, (∀ w, ¬ l.Means ctx.strict w) →
        ∃ r : Reading F, ArrRun ctx depth (formatHeader items.length key (tableHeader items) opts.delim) tail key r ∧
          GivesTree r (l.Means ctx.strict) := by
      intro tail hl l hno
      have := arrRun_error (F := F) (ctx := ctx) (base := depth) hd
        (parseHeader_over (not_over hl) hs.1 key (tableHeader items) hd []) tail
      rw [List.append_nil] at this
      exact ⟨_, this, Gives.error _ hno⟩
    cases hh : tableHeader items with
    | some cols =>
      rw [hh] at over
      simp only
      have htab := isTable_of_header hh
      obtain ⟨c1, c2⟩ := tableCells_of cols items (fun item hi => by
        obtain ⟨es, e1, _, e3⟩ := htab.2.2 item hi; exact ⟨es, e1, e3⟩)
      refine ⟨.table cols (rowsOf items cols), fun _ _ _ => .table htab c1, ?_⟩
      by_cases hl : items.length ≤ maxDeclaredLength
      · by_cases hbr : ∀ c ∈ cols, '}' ∉ c
        · refine ⟨_, (arrSpec_table hb hd hl hh hbr hn).arrRun, GivesTree.emit _ fun w => ?_⟩
          simp only [Layout.Means, c2]
          rw [treeOf, tableRows_trees, tableRows_rows, c2]
          exact ⟨fun h => h.2.2, fun h => ⟨hl, hbr, h⟩⟩
        · have hbr' : ∃ c ∈ cols, '}' ∈ c := by simpa [Classical.not_forall] using hbr
          have := arrRun_error (F := F) (ctx := ctx) (base := depth) hd
            (parseHeader_brace hl key hd hbr' []) (tabularRows items cols (depth + 1) opts.delim)
          rw [List.append_nil] at this
          refine ⟨_, this, Gives.error _ fun w h => ?_⟩
          simp only [Layout.Means] at h
          exact hbr h.2.1
      · exact over _ hl _ fun w h => by
          simp only [Layout.Means, c2] at h
          exact hl h.1
    | none =>
      rw [hh] at over
      simp only
      obtain ⟨ls, h0, r, h1, h2⟩ := items_laidOut hb hd items (depth + 1) hs.2 hn
      have hlen := itemsLayout_length h0
      refine ⟨.list ls, fun _ _ _ => .list hnp (fun ⟨cols, hc⟩ => by rw [header_of_isTable hc] at hh; cases hh) h0, ?_⟩
      by_cases hl : items.length ≤ maxDeclaredLength
      · refine ⟨_, arrRun_list hb hd hl h1, (GivesItems.array _ h2).to fun w => ?_⟩
        simp only [Layout.Means, hlen]
        exact ⟨fun h => ⟨hl, h⟩, fun h => h.2⟩
      · exact over _ hl _ fun w h => by
          simp only [Layout.Means, hlen] at h
          exact hl h.1
termination_by (sizeOf items, 4)

theorem items_laidOut [LawfulF64 F] {ctx : Ctx} (hb : ctx.blanks = []) {opts : EncOpts} (hd : GoodDelim opts.delim)
    (items : List (Json F)) (depth : Nat) (hs : SizedItems items) (hn : NormalItems items) :
    ∃ ls, ItemsLayout opts.fold opts.flattenDepth items ls ∧
      ∃ r : Reading F, ItemRuns ctx depth (encodeItems opts items depth) items.length r ∧
        GivesItems r (Layout.MeansItems ctx.strict ls) := by
  match items, hs, hn with
  | [], _, _ =>
    rw [encodeItems]
    exact ⟨[], .nil, _, ItemRuns.nil, Gives.ok (ev := ETree.eventsItems) [] (by simp [Layout.MeansItems])⟩
  | v :: vs, hs, hn =>
    simp only [SizedItems] at hs
    simp only [NormalItems] at hn
    rw [encodeItems, List.length_cons]
    obtain ⟨l, c, tl, r, g0, hl, h1, h2⟩ := item_laidOut hb hd v depth hs.1 hn.1
    obtain ⟨ls, h0, rs, h3, h4⟩ := items_laidOut hb hd vs depth hs.2 hn.2
    rw [hl]
    exact ⟨l :: ls, .cons g0 h0, _, ItemRuns.cons h1 h3, (GivesTree.cons h2 h4).to (fun w => by simp only [Layout.MeansItems])⟩
termination_by (sizeOf items, 3)

theorem item_laidOut [LawfulF64 F] {ctx : Ctx} (hb : ctx.blanks = []) {opts : EncOpts} (hd : GoodDelim opts.delim)
    (value : Json F) (depth : Nat) (hs : Sized value) (hn : Normal value) :
    ∃ (l : Layout F) (c : Str) (tl : List OutLine) (r : Reading F), ItemLayout opts.fold opts.flattenDepth value l ∧
      encodeItem opts value depth = ⟨depth, c⟩ :: tl ∧ ItemRun ctx depth c tl r ∧ GivesTree r (l.Means ctx.strict) := by
  match value, hs, hn with
  | .prim p, _, hn =>
    rw [encodeItem]
    exact ⟨.prim p, _, _, _, .prim p, rfl, (itemSpec_prim hd (by simpa only [Normal] using hn)).run,
      GivesTree.emit _ (fun w => by simp only [Layout.Means, treeOf])⟩
  | .arr items, hs, hn =>
    rw [encodeItem]
    simp only [Sized] at hs
    simp only [Normal] at hn
    by_cases hprim : isArrayOfPrims items = true
    · obtain ⟨ps, hps⟩ := (arePrims_iff items).mpr hprim
      rw [if_pos hprim]
      obtain ⟨r, h1, h2⟩ := inline_laidOut (ctx := ctx) (base := depth) hb hd none hps hn hs.1
      exact ⟨.inline ps, _, _, _, .inline hps, rfl, itemRun_arr h1, h2⟩
    · have hnp : ¬ ∃ ps, ArePrims items ps := fun h => hprim ((arePrims_iff items).mp h)
      rw [if_neg hprim]
      obtain ⟨ls, h0, r, h1, h2⟩ := items_laidOut hb hd items (depth + 1) hs.2 hn
      have hlen := itemsLayout_length h0
      by_cases hl : items.length ≤ maxDeclaredLength
      · refine ⟨.list ls, _, _, _, .list hnp h0, rfl, itemRun_arr (arrRun_list hb hd hl h1), (GivesItems.array _ h2).to fun w => ?_⟩
        simp only [Layout.Means, hlen]
        exact ⟨fun h => ⟨hl, h⟩, fun h => h.2⟩
      · have := arrRun_error (F := F) (ctx := ctx) (base := depth) hd
          (parseHeader_over (not_over hl) hs.1 none none hd []) (encodeItems opts items (depth + 1))
        rw [List.append_nil] at this
        refine ⟨.list ls, _, _, _, .list hnp h0, rfl, itemRun_arr this, Gives.error _ fun w h => ?_⟩
        simp only [Layout.Means, hlen] at h
        exact hl h.1
  | .obj [], _, _ =>
    rw [encodeItem, encodeObjectItem]
    refine ⟨.object [], _, _, _, .empty, rfl, itemSpec_empty.run, GivesTree.emit _ fun w => ?_⟩
    simp [Layout.Means, Layout.MeansEntries, treeOf, treeEntries]
  | .obj ((k, v) :: rest), hs, hn =>
    simp only [Sized, SizedEntries] at hs
    simp only [Normal, NormalEntries] at hn
    obtain ⟨ls, h0, rs, h3, h4⟩ := entries_laidOut hb hd (rest.map Prod.fst) [] [] none none opts.flattenDepth (.inr ⟨rfl, rfl⟩) rfl
      rest (depth + 1) hs.2 hn.2
    have e : encodeObject opts rest (depth + 1) none none none =
        encodeEntries opts (rest.map Prod.fst) none none opts.flattenDepth rest (depth + 1) := by
      rw [encodeObject, rootLiterals_pos (by omega)]; rfl
    rw [encodeItem, encodeObjectItem_cons, e]
    have key : ∀ (l : Layout F) (c : Str) (tl : List OutLine) (r : Reading F),
        ValueLayout opts.fold opts.flattenDepth [] [] opts.flattenDepth v l → KVRun ctx (depth + 1) c tl r →
        GivesEntry r (EntryLaidOut ctx.strict k l) →
        ∃ (l' : Layout F) (c' : Str) (tl' : List OutLine) (r' : Reading F),
          ItemLayout opts.fold opts.flattenDepth (.obj ((k, v) :: rest)) l' ∧
          ⟨depth, dash c⟩ :: (tl ++ encodeEntries opts (rest.map Prod.fst) none none opts.flattenDepth rest (depth + 1)) = ⟨depth, c'⟩ :: tl' ∧
          ItemRun ctx depth c' tl' r' ∧ GivesTree r' (l'.Means ctx.strict) := by
      intro l c tl r h5 h1 h2
      refine ⟨.object ((k, l) :: ls), _, _, _, .object h5 h0, rfl, itemRun_obj h1 h3, ?_⟩
      have := GivesEntries.object (GivesEntry.cons h2 h4)
      rw [seq_assoc] at this
      exact this.to fun w => by simp only [Layout.Means, Layout.MeansEntries, EntryLaidOut]
    match v, hs, hn, key with
    | .prim p, hs, hn, key =>
      obtain ⟨r, h1, h2⟩ := keyPrim_laidOut (ctx := ctx) (depth := depth + 1) hd k (by simpa only [Normal] using hn.1)
      exact key _ _ _ _ (.prim p) h1 h2
    | .arr items, hs, hn, key =>
      obtain ⟨l, h5, r, h1, h2⟩ := array_laidOut hb hd (some k) items (depth + 1) hs.1 hn.1
      exact key _ _ _ _ (h5 _ _ _) (kvRun_arr h1) ((GivesTree.keyed _ _ h2).to (entryLaidOut_other (arrayLayout_other (h5 [] [] 0))))
    | .obj es, hs, hn, key =>
      have hs1 := hs.1
      have hn1 := hn.1
      simp only [Sized] at hs1
      simp only [Normal] at hn1
      obtain ⟨ls1, h5, r, h1, h2⟩ := entries_laidOut hb hd (es.map Prod.fst) [] [] none none opts.flattenDepth (.inr ⟨rfl, rfl⟩) rfl
        es (depth + 2) hs1 hn1
      have e1 : encodeObject opts es (depth + 2) none none none =
          encodeEntries opts (es.map Prod.fst) none none opts.flattenDepth es (depth + 2) := by
        rw [encodeObject, rootLiterals_pos (by omega)]; rfl
      rw [← e1] at h1
      refine key _ _ _ _ (.object h5) (kvRun_obj h1) ?_
      have := GivesTree.keyed k (!isValidUnquotedKey k) (GivesEntries.object h2)
      rw [← seq_assoc] at this
      refine this.to fun e => ?_
      rw [← entryLaidOut_other (by simp)]
      simp only [Layout.Means]
termination_by (sizeOf value, 1)

end

/-! ## The whole text -/

theorem decodeLines_laidOut [LawfulF64 F] {ctx : Ctx} (hb : ctx.blanks = []) {opts : EncOpts} (hd : GoodDelim opts.delim)
    {v : Json F} (hs : Sized v) (hn : Normal v) {lines : List Line} (hp : Proj lines (encodeValue opts v)) :
    ∃ l, DocumentLayout opts.fold opts.flattenDepth v l ∧ GivesTree (decodeLines (F := F) ctx lines) (l.Means ctx.strict) := by
  cases v with
  | prim p =>
    have hw : Writable true (.prim p) := by simp [Writable]
    rw [decodeLines_written hb hd hw hn hp]
    exact ⟨.prim p, .prim p, GivesTree.emit _ (fun w => by simp only [Layout.Means, shape, treeOf])⟩
  | arr items =>
    unfold decodeLines
    simp only [encodeValue] at hp
    rw [encodeArray_head_tail] at hp
    obtain ⟨l, ls, rfl, hdp, hc, hp⟩ := Proj.cons hp
    obtain ⟨lay, h0, r, h1, h2⟩ := array_laidOut hb hd none items 0 hs hn
    refine ⟨lay, h0 _ _ _, ?_⟩
    obtain ⟨n, fields, d, suffix, hd', hform⟩ := h1.form
    have harr : isArrayHeaderContent (arrayHead opts none items) = true := by
      rw [hform]; exact arrayHeader_none n fields hd' suffix
    simp only [rootHeader, hc, harr, if_true]
    rcases h1.run with ⟨e, he, rfl⟩ | ⟨hh, hparse, hkey, hq, hdec⟩
    · simp only [he, bind, Except.bind]
      exact h2
    · obtain ⟨last', e⟩ := hdec ls [] (some l) (5 * (l :: ls).length + 5) hp (by intro l hl; simp at hl)
        (by simp only [List.length_cons]; omega)
      rw [List.append_nil] at e
      simp only [hparse, bind, Except.bind, e]
      cases r with
      | error x => simp only [Reading.at]; exact h2
      | ok evs => simp only [Reading.at, pure, Except.pure]; exact h2
  | obj es =>
    unfold decodeLines
    simp only [Sized] at hs
    simp only [Normal] at hn
    simp only [encodeValue] at hp
    obtain ⟨lay, h0, r, h1, h2⟩ := entries_laidOut hb hd (es.map Prod.fst) (dottedKeys (.obj es)) [] (some (dottedKeys (.obj es))) none
      opts.flattenDepth (.inl rfl) rfl es 0 hs hn
    have e : encodeObject opts es 0 none none none =
        encodeEntries opts (es.map Prod.fst) (some (dottedKeys (.obj es))) none opts.flattenDepth es 0 := by
      rw [encodeObject]
      congr 1
      simp [rootLiterals, dottedKeys]
    rw [← e] at h1
    have h2 := (GivesEntries.object h2).to (S := Layout.Means ctx.strict (.object lay)) (fun w => by simp only [Layout.Means, treeOf])
    refine ⟨.object lay, .object h0, ?_⟩
    generalize encodeObject opts es 0 none none none = os at h1 hp
    cases h1 with
    | nil =>
      rw [Proj.nil_iff.mp hp]
      exact h2
    | @cons c tl ls0 r rs h1 h3 =>
      rw [List.cons_append] at hp
      obtain ⟨l, ls, rfl, hdp, hc, hp⟩ := Proj.cons hp
      obtain ⟨l1, l2, rfl, hp1, hp2⟩ := hp.split
      have hr : RestLe 0 (l2 ++ []) := h3.restLe hp2 (by intro l hl; simp at hl)
      rw [List.append_nil] at hr
      obtain ⟨last1, e1⟩ := h1.2 l1 l2 (some l) (5 * (l :: (l1 ++ l2)).length + 5) hp1 hr
        (by simp only [List.length_cons, List.length_append]; omega)
      obtain ⟨last2, e2⟩ := h3.root l2 last1 (5 * (l :: (l1 ++ l2)).length + 5) hp2
        (by simp only [List.length_cons, List.length_append]; omega)
      simp only [rootHeader, hc, h1.1.arr, Bool.false_eq_true, if_false, bind, Except.bind, h1.1.kvl, Bool.not_true,
        Bool.and_false, e1]
      cases r with
      | error x => simp only [Reading.at]; simpa [Reading.seq] using h2
      | ok evs =>
        simp only [Reading.at, e2]
        cases rs with
        | error x => simp only [Reading.at]; simpa [Reading.seq] using h2
        | ok evs' =>
          simp only [Reading.at, pure, Except.pure]
          simpa [Reading.seq] using h2

end

end Toon
