import Verif.Lemmas.Outcome
import Verif.Lemmas.EquivInv
import Verif.Lemmas.FoldExpand
import Verif.Lemmas.Layout
import Verif.Lemmas.Host
import Verif.Lemmas.EventsInj

/-! What the decoder reads from a written value, folded or not, and when path expansion gives that value back. -/

namespace Toon

section
variable {F : Type}

/-! ## Keys -/

theorem keyPath_dotted {segs : List Str} (hl : 2 ≤ segs.length) (h : ∀ s ∈ segs, identifier s = true) :
    keyPath false (dotted segs) = segs := by
  have hne : segs ≠ [] := by intro he; subst he; simp at hl
  have hs : splitDots (dotted segs) = segs := by
    rw [splitDots_eq, dotted_eq, splitOn_joinWith hne (all_nodot fun s hs => by rw [← identifier_eq]; exact h s hs)]
  unfold keyPath
  rw [hs, if_pos ⟨rfl, hl, by simpa using h⟩]

theorem dotted_bare {k : Str} (h : DottedPath k) : isValidUnquotedKey k = true := by
  obtain ⟨segs, hl, hi, rfl⟩ := h
  rw [dotted_eq]
  exact joined_valid (by intro he; subst he; simp at hl) fun s hs => by rw [← identifier_eq]; exact hi s hs

theorem identifier_single {s : Str} (h : identifier s = true) : ¬ DottedPath s := by
  rintro ⟨segs, hl, hi, rfl⟩
  rw [identifier_eq] at h
  refine all_nodot (segs := [dotted segs]) (by simpa using h) (dotted segs) (by simp) ?_
  rw [dotted_eq]
  match segs, hl with
  | a :: b :: r, _ => exact sep_mem_joinWith

/-- The written entry is read as it is. -/
theorem entryReads_key {P : Str → Json F → Prop} {k : Str} {v : Json F} {t : ETree F}
    (h : Json.Equiv (expanded t) v → P k v) : EntryReads P (k, v) (k, !isValidUnquotedKey k, t) := by
  have hq : (!isValidUnquotedKey k) = true → ¬ DottedPath k := fun hq hd => by simp [dotted_bare hd] at hq
  by_cases hd : DottedPath k
  · obtain ⟨segs, hl, hi, rfl⟩ := hd
    match segs, hl, hi with
    | a :: b :: r, hl, hi =>
      have hs : (slot (dotted (a :: b :: r), !isValidUnquotedKey (dotted (a :: b :: r)), t)).1 = a := by
        simp only [slot, dotted_bare ⟨_, hl, hi, rfl⟩, Bool.not_true, keyPath_dotted hl hi]
      exact ⟨hq, by rw [hs]; exact identifier_single (hi a (by simp)), Or.inr (Or.inl ⟨_, hl, hi, rfl⟩),
        fun _ hn _ => absurd ⟨_, hl, hi, rfl⟩ hn⟩
  · have hs : slot (k, !isValidUnquotedKey k, t) = (k, expanded t) := by
      simp only [slot, keyPath_single (Or.inr hd), nested]
    exact ⟨hq, by rw [hs]; exact hd, by rw [hs]; exact Or.inl rfl, fun _ _ he => h (by rw [hs] at he; exact he)⟩

/-- The written entry is folded. -/
theorem entryReads_fold {P : Str → Json F → Prop} {k : Str} {ks : List Str} {leaf : Json F} {t : ETree F} (hne : ks ≠ [])
    (hi : ∀ s ∈ k :: ks, identifier s = true) (h : Json.Equiv (expanded t) leaf → P k (nested ks leaf)) :
    EntryReads P (k, nested ks leaf) (dotted (k :: ks), !isValidUnquotedKey (dotted (k :: ks)), t) := by
  have hl : 2 ≤ (k :: ks).length := by
    have := List.length_pos_iff.mpr hne
    simp only [List.length_cons]; omega
  have hb := dotted_bare ⟨_, hl, hi, rfl⟩
  have hs : slot (dotted (k :: ks), !isValidUnquotedKey (dotted (k :: ks)), t) = (k, nested ks (expanded t)) := by
    simp only [slot, hb, Bool.not_true, keyPath_dotted hl hi]
  refine ⟨fun hq => by simp [hb] at hq, by rw [hs]; exact identifier_single (hi k (by simp)), by rw [hs]; exact Or.inl rfl,
    fun _ _ he => h (equiv_nested ks ?_)⟩
  rw [hs] at he
  exact he

/-- The written entry is misread. -/
theorem entryReads_misread {P : Str → Json F → Prop} {k k' : Str} {v : Json F} {t : ETree F} (hc : ':' ∈ k')
    (hl : k.length < k'.length) : EntryReads P (k, v) (k', false, t) := by
  have hd : ¬ DottedPath k' := fun h => validKey_not_mem (dotted_bare h) (c := ':') (by decide) hc
  have hs : (slot (k', false, t)).1 = k' := by simp only [slot, keyPath_single (Or.inr hd)]
  exact ⟨fun h => by simp at h, by rw [hs]; exact hd, Or.inr (Or.inr (by rw [hs]; exact hl)),
    fun he => by rw [hs] at he; subst he; exact absurd hl (by simp)⟩

/-! ## Values that come back -/

theorem allKeysItems_append (P : Str → Prop) (a b : List (Json F)) :
    AllKeysItems P (a ++ b) ↔ AllKeysItems P a ∧ AllKeysItems P b := by
  induction a with
  | nil => simp [AllKeysItems]
  | cons v a ih => simp [AllKeysItems, ih, and_assoc]

theorem allKeysEntries_iff (P : Str → Prop) (es : List (Str × Json F)) :
    AllKeysEntries P es ↔ ∀ e ∈ es, P e.1 ∧ AllKeys P e.2 := by
  induction es with
  | nil => simp [AllKeysEntries]
  | cons e es ih => obtain ⟨k, v⟩ := e; simp [AllKeysEntries, ih, and_assoc]

theorem allKeys_equiv {P : Str → Prop} {a b : Json F} (h : Json.Equiv a b) : AllKeys P a ↔ AllKeys P b := by
  induction h with
  | refl => rfl
  | trans _ _ ih1 ih2 => exact ih1.trans ih2
  | arr pre post _ ih => simp [AllKeys, allKeysItems_append, AllKeysItems, ih]
  | obj pre post k _ ih =>
    simp only [AllKeys, allKeysEntries_iff, List.forall_mem_append, List.forall_mem_cons, ih]
  | perm h => simp only [AllKeys, allKeysEntries_iff, h.mem_iff]

mutual
/-- A tree that stands for its own value, and expands to it, has no dotted keys. -/
theorem treeOf_reads (v : Json F) (hk : DistinctKeys v) (he : Json.Equiv (expanded (treeOf v)) v) : NoDottedKeys v := by
  match v, hk, he with
  | .prim p, _, _ => simp [NoDottedKeys, AllKeys]
  | .arr items, hk, he =>
    simp only [treeOf, expanded] at he
    simp only [DistinctKeys] at hk
    simp only [NoDottedKeys, AllKeys]
    exact treesOf_reads items hk (equiv_arr he)
  | .obj es, hk, he =>
    simp only [DistinctKeys] at hk
    simp only [treeOf] at he
    obtain ⟨h1, h2⟩ := object_reads (treeEntries_reads es hk.2) hk.1 he
    simp only [NoDottedKeys, AllKeys, allKeysEntries_iff]
    exact fun e hm => ⟨h1 e hm, h2 e hm⟩
theorem treesOf_reads (vs : List (Json F)) (hk : DistinctKeysItems vs)
    (he : RelItems Json.Equiv (expandedItems (treesOf vs)) vs) : AllKeysItems (fun k => ¬ DottedPath k) vs := by
  match vs, hk, he with
  | [], _, _ => simp [AllKeysItems]
  | v :: vs, hk, he =>
    simp only [DistinctKeysItems] at hk
    simp only [treesOf, expandedItems] at he
    simp only [AllKeysItems]
    exact ⟨treeOf_reads v hk.1 he.1, treesOf_reads vs hk.2 he.2⟩
theorem treeEntries_reads (es : List (Str × Json F)) (hk : DistinctKeysEntries es) :
    Pointwise (EntryReads fun _ v => NoDottedKeys v) es (treeEntries es) := by
  match es, hk with
  | [], _ => exact .nil
  | (k, v) :: es, hk =>
    simp only [DistinctKeysEntries] at hk
    simp only [treeEntries]
    exact .cons (entryReads_key fun he => treeOf_reads v hk.1 he) (treeEntries_reads es hk.2)
end

/-- What survival of an entry says about it. -/
def KeptEntry (k : Str) (v : Json F) : Prop :=
  (∀ s, v = .prim (.str s) → bareKey k = true → headerLike s = false) ∧ Writable true v ∧ NoDottedKeys v

theorem kept_entries {es : List (Str × Json F)} (h : ∀ e ∈ es, KeptEntry e.1 e.2) : WritableEntries es := by
  induction es with
  | nil => simp [WritableEntries]
  | cons e es ih =>
    obtain ⟨k, v⟩ := e
    simp only [WritableEntries]
    have := h (k, v) (by simp)
    exact ⟨this.1, this.2.1, ih fun e he => h e (by simp [he])⟩

theorem kept_nested {ks : List Str} {leaf : Json F} (hi : ∀ s ∈ ks, identifier s = true)
    (hs : ∀ s, leaf = .prim (.str s) → headerLike s = false) (hw : Writable true leaf) (hd : NoDottedKeys leaf) :
    (∀ s, nested ks leaf = .prim (.str s) → headerLike s = false) ∧ Writable true (nested ks leaf) ∧
      NoDottedKeys (nested ks leaf) := by
  induction ks with
  | nil => exact ⟨hs, hw, hd⟩
  | cons k ks ih =>
    obtain ⟨h1, h2, h3⟩ := ih fun s hs => hi s (by simp [hs])
    simp only [nested, Writable, WritableEntries, NoDottedKeys, AllKeys, AllKeysEntries]
    exact ⟨by simp, ⟨fun s hv _ => h1 s hv, h2, trivial⟩, identifier_single (hi k (by simp)), h3, trivial⟩

theorem chain_distinct : ∀ (ks : List Str) {leaf : Json F}, DistinctKeys (nested ks leaf) → DistinctKeys leaf
  | [], _, h => h
  | k :: ks, _, h => by
    simp only [nested, DistinctKeys, DistinctKeysEntries] at h
    exact chain_distinct ks h.2.1

theorem nested_sized : ∀ (ks : List Str) {leaf : Json F}, Sized (nested ks leaf) → Sized leaf
  | [], _, h => h
  | k :: ks, _, h => by
    simp only [nested, Sized, SizedEntries] at h
    exact nested_sized ks h.1

theorem nested_normal [F64 F] : ∀ (ks : List Str) {leaf : Json F}, Normal (nested ks leaf) → Normal leaf
  | [], _, h => h
  | k :: ks, _, h => by
    simp only [nested, Normal, NormalEntries] at h
    exact nested_normal ks h.1

/-! ## Readings -/

/-- If reading succeeds it gives a tree, and if that expands to `v` then `P` holds. -/
def ReadsAs (r : Reading F) (v : Json F) (P : Prop) : Prop :=
  ∀ evs, r = .ok evs → ∃ t : ETree F, evs = t.events ∧ (Json.Equiv (expanded t) v → P)

/-- If reading succeeds it gives an entry: the written one, or a misread one with a longer key. -/
def ReadsEntry (r : Reading F) (k : Str) (v : Json F) : Prop :=
  ∀ evs, r = .ok evs → ∃ (k' : Str) (q : Bool) (t : ETree F), evs = .key k' q :: t.events ∧
    ((k' = k ∧ q = (!isValidUnquotedKey k) ∧ (Json.Equiv (expanded t) v → KeptEntry k v)) ∨
      (q = false ∧ ':' ∈ k' ∧ k.length < k'.length))

def ReadsEntries (r : Reading F) (es : List (Str × Json F)) : Prop :=
  ∀ evs, r = .ok evs → ∃ tes : List (Str × Bool × ETree F), evs = ETree.eventsEntries tes ∧ Pointwise (EntryReads KeptEntry) es tes

def ReadsItems (r : Reading F) (vs : List (Json F)) : Prop :=
  ∀ evs, r = .ok evs → ∃ ts : List (ETree F), evs = ETree.eventsItems ts ∧
    Pointwise (fun v t => Json.Equiv (expanded t) v → Writable false v ∧ NoDottedKeys v) vs ts

theorem seq_ok {a b : Reading F} {evs : List (Ev F)} (h : a.seq b = .ok evs) :
    ∃ x y, a = .ok x ∧ b = .ok y ∧ evs = x ++ y := by
  cases a with
  | error e => simp [Reading.seq] at h
  | ok x =>
    cases b with
    | error e => simp [Reading.seq] at h
    | ok y =>
      simp only [Reading.seq, Except.ok.injEq] at h
      exact ⟨x, y, rfl, rfl, h.symm⟩

theorem ReadsAs.error (e : Err) (v : Json F) (P : Prop) : ReadsAs (F := F) (.error e) v P := by intro evs h; simp at h

theorem ReadsAs.tree {t : ETree F} {v : Json F} {P : Prop} (h : Json.Equiv (expanded t) v → P) : ReadsAs (.ok t.events) v P := by
  intro evs he
  simp only [Except.ok.injEq] at he
  exact ⟨t, he.symm, h⟩

theorem ReadsAs.obj {r : Reading F} {es : List (Str × Json F)} (tbl : Bool) (hn : (es.map Prod.fst).Nodup) (h : ReadsEntries r es) :
    ReadsAs (Reading.seq (.ok [.startObj]) (r.seq (.ok [.endObj]))) (.obj es) (Writable tbl (.obj es) ∧ NoDottedKeys (.obj es)) := by
  intro evs he
  obtain ⟨x, y, hx, hy, rfl⟩ := seq_ok he
  obtain ⟨z, w, hz, hw, rfl⟩ := seq_ok hy
  simp only [Except.ok.injEq] at hx hw
  subst hx hw
  obtain ⟨tes, rfl, hp⟩ := h z hz
  refine ⟨.obj tes, by simp [ETree.events], fun he => ?_⟩
  obtain ⟨h1, h2⟩ := object_reads hp hn he
  simp only [NoDottedKeys, AllKeys, allKeysEntries_iff, Writable]
  exact ⟨kept_entries h2, fun e hm => ⟨h1 e hm, (h2 e hm).2.2⟩⟩

theorem relItems_reads {vs : List (Json F)} {ts : List (ETree F)}
    (hp : Pointwise (fun v t => Json.Equiv (expanded t) v → Writable false v ∧ NoDottedKeys v) vs ts)
    (hr : RelItems Json.Equiv (expandedItems ts) vs) : WritableItems vs ∧ AllKeysItems (fun k => ¬ DottedPath k) vs := by
  induction hp with
  | nil => simp [WritableItems, AllKeysItems]
  | cons h _ ih =>
    simp only [expandedItems] at hr
    have h1 := h hr.1
    have h2 := ih hr.2
    simp only [WritableItems, AllKeysItems]
    exact ⟨⟨h1.1, h2.1⟩, h1.2, h2.2⟩

theorem ReadsAs.arr {r : Reading F} {n : Nat} {vs : List (Json F)} (h : ReadsItems r vs) :
    ReadsAs (Reading.seq (.ok [.startArr n]) (r.seq (.ok [.endArr]))) (.arr vs)
      (WritableItems vs ∧ NoDottedKeys (.arr vs)) := by
  intro evs he
  obtain ⟨x, y, hx, hy, rfl⟩ := seq_ok he
  obtain ⟨z, w, hz, hw, rfl⟩ := seq_ok hy
  simp only [Except.ok.injEq] at hx hw
  subst hx hw
  obtain ⟨ts, rfl, hp⟩ := h z hz
  refine ⟨.arr n ts, by simp [ETree.events], fun he => ?_⟩
  simp only [expanded] at he
  simp only [NoDottedKeys, AllKeys]
  exact relItems_reads hp (equiv_arr he)

theorem ReadsAs.to {r : Reading F} {v : Json F} {P Q : Prop} (h : ReadsAs r v P) (hP : P → Q) : ReadsAs r v Q := by
  intro evs he
  obtain ⟨t, h1, h2⟩ := h evs he
  exact ⟨t, h1, fun h => hP (h2 h)⟩

theorem ReadsAs.entry {r : Reading F} {k : Str} {v : Json F} (h : ReadsAs r v (KeptEntry k v)) :
    ReadsEntry (Reading.seq (.ok [.key k (!isValidUnquotedKey k)]) r) k v := by
  intro evs he
  obtain ⟨x, y, hx, hy, rfl⟩ := seq_ok he
  simp only [Except.ok.injEq] at hx
  subst hx
  obtain ⟨t, rfl, hp⟩ := h y hy
  exact ⟨k, _, t, by simp, Or.inl ⟨rfl, rfl, hp⟩⟩

theorem ReadsEntry.same {r : Reading F} {k : Str} {v : Json F} (h : ReadsEntry r k v) {evs : List (Ev F)} (he : r = .ok evs) :
    ∃ e : Str × Bool × ETree F, evs = .key e.1 e.2.1 :: e.2.2.events ∧ EntryReads KeptEntry (k, v) e := by
  obtain ⟨k', q, t, h1, h2⟩ := h evs he
  refine ⟨(k', q, t), h1, ?_⟩
  rcases h2 with ⟨rfl, rfl, h⟩ | ⟨rfl, hc, hl⟩
  · exact entryReads_key h
  · exact entryReads_misread hc hl

/-- The folded entry stands for the chain. -/
theorem ReadsEntry.folded {r : Reading F} {k : Str} {ks : List Str} {leaf : Json F} (hne : ks ≠ [])
    (hi : ∀ s ∈ k :: ks, identifier s = true) (h : ReadsEntry r (dotted (k :: ks)) leaf) {evs : List (Ev F)} (he : r = .ok evs) :
    ∃ e : Str × Bool × ETree F, evs = .key e.1 e.2.1 :: e.2.2.events ∧ EntryReads KeptEntry (k, nested ks leaf) e := by
  obtain ⟨k', q, t, h1, h2⟩ := h evs he
  refine ⟨(k', q, t), h1, ?_⟩
  have hl2 : 2 ≤ (k :: ks).length := by
    have := List.length_pos_iff.mpr hne
    simp only [List.length_cons]; omega
  rcases h2 with ⟨rfl, rfl, h⟩ | ⟨rfl, hc, hl⟩
  · refine entryReads_fold hne hi fun h3 => ?_
    obtain ⟨h4, h5, h6⟩ := h h3
    have hb : bareKey (dotted (k :: ks)) = true := by rw [bareKey_eq]; exact dotted_bare ⟨_, hl2, hi, rfl⟩
    obtain ⟨h7, h8, h9⟩ := kept_nested (ks := ks) (fun s hs => hi s (by simp [hs])) (fun s hs => h4 s hs hb) h5 h6
    exact ⟨fun s hs _ => h7 s hs, h8, h9⟩
  · refine entryReads_misread hc (Nat.lt_of_le_of_lt ?_ hl)
    match ks, hne with
    | a :: r, _ => simp [dotted]

theorem ReadsEntries.cons {r rs : Reading F} {k : Str} {v : Json F} {es : List (Str × Json F)}
    (h : ∀ evs, r = .ok evs → ∃ e : Str × Bool × ETree F, evs = .key e.1 e.2.1 :: e.2.2.events ∧ EntryReads KeptEntry (k, v) e)
    (hs : ReadsEntries rs es) : ReadsEntries (r.seq rs) ((k, v) :: es) := by
  intro evs he
  obtain ⟨x, y, hx, hy, rfl⟩ := seq_ok he
  obtain ⟨⟨k', q, t⟩, rfl, h1⟩ := h x hx
  obtain ⟨tes, rfl, h2⟩ := hs y hy
  exact ⟨(k', q, t) :: tes, by simp [ETree.eventsEntries], .cons h1 h2⟩

theorem ReadsItems.cons {r rs : Reading F} {v : Json F} {vs : List (Json F)}
    (h : ReadsAs r v (Writable false v ∧ NoDottedKeys v)) (hs : ReadsItems rs vs) : ReadsItems (r.seq rs) (v :: vs) := by
  intro evs he
  obtain ⟨x, y, hx, hy, rfl⟩ := seq_ok he
  obtain ⟨t, rfl, h1⟩ := h x hx
  obtain ⟨ts, rfl, h2⟩ := hs y hy
  exact ⟨t :: ts, by simp [ETree.eventsItems], .cons h1 h2⟩

/-! ## Primitives and rows -/

variable [F64 F]

theorem prims_reads [LawfulF64 F] {ctx : Ctx} (hb : ctx.blanks = []) {base : Nat} {d : Char} (hd : GoodDelim d)
    (tbl : Bool) (key : Option Str) {items : List (Json F)} (hp : isArrayOfPrims items = true) (hn : NormalItems items)
    (hs : items.length < 2 ^ 64) :
    ∃ r : Reading F, ArrRun ctx base (encodeInlineArrayLine items d key) [] key r ∧
      ReadsAs r (.arr items) (Writable tbl (.arr items) ∧ NoDottedKeys (.arr items)) := by
  by_cases hl : items.length ≤ maxDeclaredLength
  · refine ⟨_, (arrSpec_inline hb hd hl hp hn).arrRun, ?_⟩
    rw [← events_treeOf]
    refine ReadsAs.tree fun _ => ⟨prims_writable tbl hp hl, ?_⟩
    rw [primsOf_all hp]
    generalize primsOf items = ps
    simp only [NoDottedKeys, AllKeys]
    induction ps with
    | nil => simp [AllKeysItems]
    | cons p ps ih => simp [AllKeysItems, AllKeys, ih]
  · unfold encodeInlineArrayLine
    simp only
    split
    · have := arrRun_error (F := F) (ctx := ctx) (base := base) hd
        (parseHeader_over (not_over hl) hs key none hd []) []
      rw [List.append_nil] at this
      exact ⟨_, this, ReadsAs.error _ _ _⟩
    · exact ⟨_, arrRun_error hd (parseHeader_over (not_over hl) hs key none hd _) [], ReadsAs.error _ _ _⟩

theorem keyPrim_reads [LawfulF64 F] {ctx : Ctx} {depth : Nat} {d : Char} (hd : GoodDelim d) (k : Str) {p : Prim F}
    (hn : normPrim p = p) :
    ∃ r : Reading F, KVRun ctx depth (encodeKey k ++ ':' :: ' ' :: encodePrimitive p d) [] r ∧ ReadsEntry r k (.prim p) := by
  by_cases h : ∀ s, p = .str s → bareKey k = true → headerLike s = false
  · have := kvSpec_prim (F := F) (ctx := ctx) (depth := depth) hd (k := k) hn
      (fun s hs hv => h s hs (by rw [bareKey_eq]; exact hv))
    refine ⟨_, this.run, ?_⟩
    intro evs he
    simp only [Except.ok.injEq] at he
    subst he
    refine ⟨k, _, .prim p, by simp [emitEvents, ETree.events], Or.inl ⟨rfl, rfl, fun _ => ⟨fun s hs => h s (by simpa using hs), ?_⟩⟩⟩
    simp [Writable, NoDottedKeys, AllKeys]
  · obtain ⟨s, rfl, hk, hs⟩ : ∃ s, p = .str s ∧ bareKey k = true ∧ headerLike s = true := by
      simpa [Classical.not_forall] using h
    rw [bareKey_eq] at hk
    simp only [encodePrimitive, encodeString_headerLike hs]
    obtain ⟨r, h1, h2⟩ := kvRun_misread (F := F) (ctx := ctx) (depth := depth) hk hs
    refine ⟨r, h1, ?_⟩
    intro evs he
    obtain ⟨k', hh, t, items, rfl, hlt, hc, hi⟩ := h2 evs he
    obtain ⟨ts, rfl, _⟩ := decodeInline_tree hi
    exact ⟨k', false, .arr hh.length ts, by simp [ETree.events], Or.inr ⟨rfl, hc, hlt⟩⟩

/-! ## The induction -/

mutual
theorem object_reads_back [LawfulF64 F] {ctx : Ctx} (hb : ctx.blanks = []) {opts : EncOpts} (hd : GoodDelim opts.delim)
    (entries : List (Str × Json F)) (depth : Nat) (rlk : Option (List Str)) (pp : Option Str) (rem : Option Nat)
    (hk : DistinctKeysEntries entries) (hs : SizedEntries entries) (hn : NormalEntries entries) :
    ∃ r : Reading F, KVRuns ctx depth (encodeObject opts entries depth rlk pp rem) r ∧ ReadsEntries r entries := by
  rw [encodeObject]
  exact entries_reads_back hb hd _ _ _ _ entries depth hk hs hn
termination_by (sizeOf entries, 3)

theorem entries_reads_back [LawfulF64 F] {ctx : Ctx} (hb : ctx.blanks = []) {opts : EncOpts} (hd : GoodDelim opts.delim)
    (siblings : List Str) (rlk : Option (List Str)) (pp : Option Str) (fd : Nat)
    (entries : List (Str × Json F)) (depth : Nat) (hk : DistinctKeysEntries entries) (hs : SizedEntries entries)
    (hn : NormalEntries entries) :
    ∃ r : Reading F, KVRuns ctx depth (encodeEntries opts siblings rlk pp fd entries depth) r ∧ ReadsEntries r entries := by
  match entries, hk, hs, hn with
  | [], _, _, _ =>
    rw [encodeEntries]
    refine ⟨_, KVRuns.nil, fun evs he => ⟨[], ?_, .nil⟩⟩
    simp only [Except.ok.injEq] at he
    rw [← he]; rfl
  | (k, v) :: rest, hk, hs, hn =>
    simp only [DistinctKeysEntries] at hk
    simp only [SizedEntries] at hs
    simp only [NormalEntries] at hn
    obtain ⟨rs, h3, h4⟩ := entries_reads_back hb hd siblings rlk pp fd rest depth hk.2 hs.2 hn.2
    rw [encodeEntries, encodeKeyValue_eq]
    cases hf : tryFold k v siblings opts rlk pp fd with
    | none =>
      obtain ⟨c, tl, r, hl, h1, h2⟩ := entry_reads_back hb hd rlk (extendPath pp k) fd k v depth hk.1 hs.1 hn.1
      simp only [hl]
      exact ⟨_, KVRuns.cons h1 h3, .cons (fun evs he => h2.same he) h4⟩
    | some fr =>
      have hsz := tryFold_size hf
      obtain ⟨_, _, _, hseg, hne, hkey, hleaf, _⟩ := tryFold_some hf
      have hv := (collectChain_longest (fd - 1) v).1
      rw [← hleaf] at hv
      generalize (collectChain (fd - 1) v).1 = ks at *
      rw [hv] at hk hs hn
      rw [← dotted_eq] at hkey
      obtain ⟨c, tl, r, hl, h1, h2⟩ := entry_reads_back hb hd rlk (extendPath pp fr.foldedKey) (fd - fr.segmentCount) fr.foldedKey
        fr.leaf depth (chain_distinct ks hk.1) (nested_sized ks hs.1) (nested_normal ks hn.1)
      simp only [hl]
      rw [hkey] at h2
      rw [hv]
      exact ⟨_, KVRuns.cons h1 h3, .cons (fun evs he => h2.folded hne (fun s hs => by rw [identifier_eq]; exact hseg s hs) he) h4⟩
termination_by (sizeOf entries, 2)
decreasing_by all_goals (simp_wf; first | omega | (apply Prod.Lex.left; simp only [List.cons.sizeOf_spec, Prod.mk.sizeOf_spec]; omega))

theorem entry_reads_back [LawfulF64 F] {ctx : Ctx} (hb : ctx.blanks = []) {opts : EncOpts} (hd : GoodDelim opts.delim)
    (rlk : Option (List Str)) (path : Str) (fd : Nat)
    (key : Str) (value : Json F) (depth : Nat) (hk : DistinctKeys value) (hs : Sized value) (hn : Normal value) :
    ∃ (c : Str) (tl : List OutLine) (r : Reading F), writeEntry opts rlk path fd key value depth = ⟨depth, c⟩ :: tl ∧
      KVRun ctx depth c tl r ∧ ReadsEntry r key value := by
  match value, hk, hs, hn with
  | .prim p, _, _, hn =>
    obtain ⟨r, h1, h2⟩ := keyPrim_reads (ctx := ctx) (depth := depth) hd key (by simpa only [Normal] using hn)
    exact ⟨_, _, r, rfl, h1, h2⟩
  | .arr items, hk, hs, hn =>
    rw [writeEntry]
    rw [encodeArray_head_tail]
    obtain ⟨r, h1, h2⟩ := array_reads_back hb hd (some key) items depth hk hs hn
    exact ⟨_, _, _, rfl, kvRun_arr h1, (h2.to fun h => ⟨by simp, h⟩).entry⟩
  | .obj es, hk, hs, hn =>
    simp only [DistinctKeys] at hk
    simp only [Sized] at hs
    simp only [Normal] at hn
    obtain ⟨r, h1, h2⟩ := object_reads_back hb hd es (depth + 1) rlk (some path) (some fd) hk.2 hs hn
    refine ⟨_, _, _, rfl, kvRun_obj h1, ?_⟩
    have := ((ReadsAs.obj true hk.1 h2).to fun h => (⟨by simp, h⟩ : KeptEntry key (.obj es))).entry
    intro evs he
    refine this evs ?_
    rw [← he]
    cases r <;> rfl
termination_by (sizeOf value, 0)

theorem array_reads_back [LawfulF64 F] {ctx : Ctx} (hb : ctx.blanks = []) {opts : EncOpts} (hd : GoodDelim opts.delim)
    (key : Option Str) (items : List (Json F)) (depth : Nat) (hk : DistinctKeys (.arr items))
    (hs : Sized (.arr items)) (hn : Normal (.arr items)) :
    ∃ r : Reading F, ArrRun ctx depth (arrayHead opts key items) (arrayTail opts items depth) key r ∧
      ReadsAs r (.arr items) (Writable true (.arr items) ∧ NoDottedKeys (.arr items)) := by
  have hka := hk
  simp only [DistinctKeys] at hk
  simp only [Sized] at hs
  simp only [Normal] at hn
  rw [arrayHead, arrayTail]
  split
  · rename_i hp
    exact prims_reads hb hd true key hp hn hs.1
  · by_cases hl : items.length ≤ maxDeclaredLength
    · cases ht : tableHeader items with
      | some cols =>
        simp only
        have hcols : ∀ cols', IsTable items cols' → cols' = cols := by
          intro cols' hc
          have := header_of_isTable hc
          rw [ht] at this
          simpa using this.symm
        by_cases hbr : ∀ c ∈ cols, '}' ∉ c
        · refine ⟨_, (arrSpec_table hb hd hl ht hbr hn).arrRun, ?_⟩
          rw [← events_treeOf]
          refine ReadsAs.tree fun he => ⟨?_, ?_⟩
          · simp only [Writable]
            exact ⟨hl, fun _ cols' hc => by rw [hcols cols' hc]; exact hbr, Or.inl ⟨trivial, cols, isTable_of_header ht⟩⟩
          · have hr : Json.Equiv (.arr (tableRows items cols)) (.arr items) :=
              isCong_equiv.arr (table_rel (al := false) (fun _ es es' h => .perm h) Json.Equiv.refl ht hk (by simp))
            exact (allKeys_equiv hr).mp (treeOf_reads _ ((distinct_equiv hr).mpr hka) (he.trans hr.symm))
        · have hbr' : ∃ c ∈ cols, '}' ∈ c := by simpa [Classical.not_forall] using hbr
          have := arrRun_error (F := F) (ctx := ctx) (base := depth) hd
            (parseHeader_brace hl key hd hbr' []) (tabularRows items cols (depth + 1) opts.delim)
          rw [List.append_nil] at this
          exact ⟨_, this, ReadsAs.error _ _ _⟩
      | none =>
        simp only
        obtain ⟨r, h1, h2⟩ := items_reads_back hb hd items (depth + 1) hk hs.2 hn
        refine ⟨_, arrRun_list hb hd hl h1, (ReadsAs.arr h2).to ?_⟩
        rintro ⟨h, h'⟩
        refine ⟨?_, h'⟩
        simp only [Writable]
        refine ⟨hl, ?_, Or.inr h⟩
        intro _ cols hc
        rw [header_of_isTable hc] at ht
        simp at ht
    · have := arrRun_error (F := F) (ctx := ctx) (base := depth) hd
        (parseHeader_over (not_over hl) hs.1 key (tableHeader items) hd [])
        (match tableHeader items with
          | some header => tabularRows items header (depth + 1) opts.delim
          | none => encodeItems opts items (depth + 1))
      rw [List.append_nil] at this
      exact ⟨_, this, ReadsAs.error _ _ _⟩
termination_by (sizeOf items, 4)

theorem items_reads_back [LawfulF64 F] {ctx : Ctx} (hb : ctx.blanks = []) {opts : EncOpts} (hd : GoodDelim opts.delim)
    (items : List (Json F)) (depth : Nat) (hk : DistinctKeysItems items) (hs : SizedItems items)
    (hn : NormalItems items) :
    ∃ r : Reading F, ItemRuns ctx depth (encodeItems opts items depth) items.length r ∧ ReadsItems r items := by
  match items, hk, hs, hn with
  | [], _, _, _ =>
    rw [encodeItems]
    refine ⟨_, ItemRuns.nil, fun evs he => ⟨[], ?_, .nil⟩⟩
    simp only [Except.ok.injEq] at he
    rw [← he]; rfl
  | v :: vs, hk, hs, hn =>
    simp only [DistinctKeysItems] at hk
    simp only [SizedItems] at hs
    simp only [NormalItems] at hn
    rw [encodeItems, List.length_cons]
    obtain ⟨c, tl, r, hl, h1, h2⟩ := item_reads_back hb hd v depth hk.1 hs.1 hn.1
    obtain ⟨rs, h3, h4⟩ := items_reads_back hb hd vs depth hk.2 hs.2 hn.2
    rw [hl]
    exact ⟨_, ItemRuns.cons h1 h3, .cons h2 h4⟩
termination_by (sizeOf items, 3)

theorem item_reads_back [LawfulF64 F] {ctx : Ctx} (hb : ctx.blanks = []) {opts : EncOpts} (hd : GoodDelim opts.delim)
    (value : Json F) (depth : Nat) (hk : DistinctKeys value) (hs : Sized value) (hn : Normal value) :
    ∃ (c : Str) (tl : List OutLine) (r : Reading F), encodeItem opts value depth = ⟨depth, c⟩ :: tl ∧ ItemRun ctx depth c tl r ∧
      ReadsAs r value (Writable false value ∧ NoDottedKeys value) := by
  match value, hk, hs, hn with
  | .prim p, _, _, hn =>
    rw [encodeItem]
    refine ⟨_, _, _, rfl, (itemSpec_prim hd (by simpa only [Normal] using hn)).run, ?_⟩
    rw [← events_treeOf]
    exact ReadsAs.tree fun _ => by simp [Writable, NoDottedKeys, AllKeys]
  | .arr items, hk, hs, hn =>
    rw [encodeItem]
    simp only [DistinctKeys] at hk
    simp only [Sized] at hs
    simp only [Normal] at hn
    split
    · rename_i hp
      obtain ⟨r, h1, h2⟩ := prims_reads (ctx := ctx) (base := depth) hb hd false none hp hn hs.1
      exact ⟨_, _, _, rfl, itemRun_arr h1, h2⟩
    · by_cases hl : items.length ≤ maxDeclaredLength
      · obtain ⟨r, h1, h2⟩ := items_reads_back hb hd items (depth + 1) hk hs.2 hn
        refine ⟨_, _, _, rfl, itemRun_arr (arrRun_list hb hd hl h1), (ReadsAs.arr h2).to ?_⟩
        rintro ⟨h, h'⟩
        refine ⟨?_, h'⟩
        simp only [Writable]
        exact ⟨hl, by simp, Or.inr h⟩
      · have := arrRun_error (F := F) (ctx := ctx) (base := depth) hd
          (parseHeader_over (not_over hl) hs.1 none none hd []) (encodeItems opts items (depth + 1))
        rw [List.append_nil] at this
        exact ⟨_, _, _, rfl, itemRun_arr this, ReadsAs.error _ _ _⟩
  | .obj es, hk, hs, hn =>
    rw [encodeItem]
    simp only [DistinctKeys] at hk
    simp only [Sized] at hs
    simp only [Normal] at hn
    exact objectItem_reads_back hb hd es depth hk.1 hk.2 hs hn
termination_by (sizeOf value, 1)

theorem objectItem_reads_back [LawfulF64 F] {ctx : Ctx} (hb : ctx.blanks = []) {opts : EncOpts} (hd : GoodDelim opts.delim)
    (entries : List (Str × Json F)) (depth : Nat) (hu : (entries.map Prod.fst).Nodup) (hk : DistinctKeysEntries entries)
    (hs : SizedEntries entries) (hn : NormalEntries entries) :
    ∃ (c : Str) (tl : List OutLine) (r : Reading F), encodeObjectItem opts entries depth = ⟨depth, c⟩ :: tl ∧ ItemRun ctx depth c tl r ∧
      ReadsAs r (.obj entries) (Writable false (.obj entries) ∧ NoDottedKeys (.obj entries)) := by
  match entries, hu, hk, hs, hn with
  | [], _, _, _, _ =>
    rw [encodeObjectItem]
    refine ⟨_, _, _, rfl, itemSpec_empty.run, ?_⟩
    rw [← events_treeOf]
    exact ReadsAs.tree fun _ => by simp [Writable, WritableEntries, NoDottedKeys, AllKeys, AllKeysEntries]
  | (k, v) :: rest, hu, hk, hs, hn =>
    simp only [DistinctKeysEntries] at hk
    simp only [SizedEntries] at hs
    simp only [NormalEntries] at hn
    obtain ⟨rs, h3, h4⟩ := object_reads_back hb hd rest (depth + 1) none none none hk.2 hs.2 hn.2
    rw [encodeObjectItem_cons]
    have key : ∀ (c : Str) (tl : List OutLine) (r : Reading F), KVRun ctx (depth + 1) c tl r → ReadsEntry r k v →
        ∃ (c' : Str) (tl' : List OutLine) (r' : Reading F), ⟨depth, dash c⟩ :: (tl ++ encodeObject opts rest (depth + 1) none none none) = ⟨depth, c'⟩ :: tl' ∧
          ItemRun ctx depth c' tl' r' ∧ ReadsAs r' (.obj ((k, v) :: rest))
            (Writable false (.obj ((k, v) :: rest)) ∧ NoDottedKeys (.obj ((k, v) :: rest))) := by
      intro c tl r h1 h2
      refine ⟨_, _, _, rfl, itemRun_obj h1 h3, ?_⟩
      have := ReadsAs.obj false hu (ReadsEntries.cons (fun evs he => h2.same he) h4)
      intro evs he
      refine this evs ?_
      rw [← he]
      cases r <;> cases rs <;> simp [Reading.seq]
    match v, hk, hs, hn, key with
    | .prim p, hk, hs, hn, key =>
      obtain ⟨r, h1, h2⟩ := keyPrim_reads (ctx := ctx) (depth := depth + 1) hd k (by simpa only [Normal] using hn.1)
      exact key _ _ _ h1 h2
    | .arr items, hk, hs, hn, key =>
      obtain ⟨r, h1, h2⟩ := array_reads_back hb hd (some k) items (depth + 1) hk.1 hs.1 hn.1
      exact key _ _ _ (kvRun_arr h1) (h2.to fun h => ⟨by simp, h⟩).entry
    | .obj es, hk, hs, hn, key =>
      have hk1 := hk.1
      have hs1 := hs.1
      have hn1 := hn.1
      simp only [DistinctKeys] at hk1
      simp only [Sized] at hs1
      simp only [Normal] at hn1
      obtain ⟨r, h1, h2⟩ := object_reads_back hb hd es (depth + 2) none none none hk1.2 hs1 hn1
      refine key _ _ _ (kvRun_obj h1) ?_
      have := ((ReadsAs.obj true hk1.1 h2).to fun h => (⟨by simp, h⟩ : KeptEntry k (.obj es))).entry
      intro evs he
      refine this evs ?_
      rw [← he]
      cases r <;> rfl
termination_by (sizeOf entries, 0)

end

/-! ## The whole text -/

theorem decodeLines_reads_back [LawfulF64 F] {ctx : Ctx} (hb : ctx.blanks = []) {opts : EncOpts} (hd : GoodDelim opts.delim)
    {v : Json F} (hk : DistinctKeys v) (hs : Sized v) (hn : Normal v)
    {lines : List Line} (hp : Proj lines (encodeValue opts v)) :
    ReadsAs (decodeLines (F := F) ctx lines) v (Writable true v ∧ NoDottedKeys v) := by
  cases v with
  | prim p =>
    have hw : Writable true (.prim p) := by simp [Writable]
    rw [decodeLines_written hb hd hw hn hp]
    rw [← events_treeOf]
    exact ReadsAs.tree fun _ => ⟨hw, by simp [NoDottedKeys, AllKeys]⟩
  | arr items =>
    unfold decodeLines
    simp only [encodeValue] at hp
    rw [encodeArray_head_tail] at hp
    obtain ⟨l, ls, rfl, hdp, hc, hp⟩ := Proj.cons hp
    obtain ⟨r, h1, h2⟩ := array_reads_back hb hd none items 0 hk hs hn
    obtain ⟨n, fields, d, suffix, hd', hform⟩ := h1.form
    have harr : isArrayHeaderContent (arrayHead opts none items) = true := by
      rw [hform]; exact arrayHeader_none n fields hd' suffix
    simp only [rootHeader, hc, harr, if_true]
    rcases h1.run with ⟨e, he, rfl⟩ | ⟨hh, hparse, hkey, hq, hdec⟩
    · simp only [he, bind, Except.bind]
      exact ReadsAs.error _ _ _
    · obtain ⟨last', e⟩ := hdec ls [] (some l) (5 * (l :: ls).length + 5) hp (by intro l hl; simp at hl)
        (by simp only [List.length_cons]; omega)
      rw [List.append_nil] at e
      simp only [hparse, bind, Except.bind, e]
      cases r with
      | error x => simp only [Reading.at]; exact ReadsAs.error _ _ _
      | ok evs => simp only [Reading.at, pure, Except.pure]; exact h2
  | obj es =>
    unfold decodeLines
    simp only [DistinctKeys] at hk
    simp only [Sized] at hs
    simp only [Normal] at hn
    simp only [encodeValue] at hp
    obtain ⟨r, h1, h2⟩ := object_reads_back hb hd es 0 none none none hk.2 hs hn
    have h2 := ReadsAs.obj true hk.1 h2
    generalize encodeObject opts es 0 none none none = os at h1 hp
    cases h1 with
    | nil =>
      rw [Proj.nil_iff.mp hp]
      exact h2
    | @cons c tl ls0 r rs h1 h3 =>
      rw [List.cons_append] at hp
      obtain ⟨l, ls, rfl, hdp, hc, hp⟩ := Proj.cons hp
      obtain ⟨l1, l2, rfl, hp1, hp2⟩ := hp.split
      have hr : RestLe 0 (l2 ++ []) := h3.restLe hp2 (by intro l hl; simp at hl)
      rw [List.append_nil] at hr
      obtain ⟨last1, e1⟩ := h1.2 l1 l2 (some l) (5 * (l :: (l1 ++ l2)).length + 5) hp1 hr
        (by simp only [List.length_cons, List.length_append]; omega)
      obtain ⟨last2, e2⟩ := h3.root l2 last1 (5 * (l :: (l1 ++ l2)).length + 5) hp2
        (by simp only [List.length_cons, List.length_append]; omega)
      simp only [rootHeader, hc, h1.1.arr, Bool.false_eq_true, if_false, bind, Except.bind, h1.1.kvl, Bool.not_true,
        Bool.and_false, e1]
      cases r with
      | error x => simp only [Reading.at]; exact ReadsAs.error _ _ _
      | ok evs =>
        simp only [Reading.at, e2]
        cases rs with
        | error x => simp only [Reading.at]; exact ReadsAs.error _ _ _
        | ok evs' =>
          simp only [Reading.at, pure, Except.pure]
          simpa [Reading.seq] using h2

/-- A value that comes back from its own text through path expansion. -/
theorem decodeStream_reads_back [LawfulF64 F] {opts : EncOpts} (hi : 0 < opts.indent) (hd : GoodDelim opts.delim)
    (strict : Bool) {v : Json F} (hk : DistinctKeys v) (hs : Sized v) {t : ETree F}
    (h : decodeStream opts.indent strict (encodeLines opts v) = .ok t.events)
    (he : Json.Equiv (expanded t) (normalize v)) : Writable true v ∧ NoDottedKeys (normalize v) := by
  obtain ⟨lines, h1, h2⟩ := parseLines_render hi strict (encodeValue opts (normalize v))
    (fun l hl => (linesIn_value hd _ l hl).1) 0
  unfold decodeStream encodeLines encodeJsonValue at h
  simp only [h1, bind, Except.bind] at h
  have := decodeLines_reads_back (ctx := ⟨strict, []⟩) rfl hd ((distinct_normalize v).mpr hk) ((sized_normalize v).mpr hs)
    (normal_normalize v) h2
  obtain ⟨t', ht, hP⟩ := this t.events h
  rw [← events_inj ht] at hP
  obtain ⟨h3, h4⟩ := hP he
  exact ⟨(writable_normalize true v).mp h3, h4⟩

end

end Toon
