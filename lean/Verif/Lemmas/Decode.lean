import Verif.Model.Api
import Verif.Lemmas.Shape

/-! Reading back the lines written by the encoder. -/

namespace Toon

/-! ## Content classification -/

/-- A piece of text without an unquoted `c`. -/
def Transparent (c : Char) (t : Str) : Prop :=
  ∀ rest i, unquotedCharAux c (t ++ rest) i false = unquotedCharAux c rest (i + t.length) false

theorem Transparent.nil (c : Char) : Transparent c [] := by intro rest i; simp

theorem Transparent.append {c : Char} {a b : Str} (ha : Transparent c a) (hb : Transparent c b) :
    Transparent c (a ++ b) := by
  intro rest i
  rw [List.append_assoc, ha, hb]
  simp [Nat.add_assoc]

theorem Transparent.plain {c : Char} {t : Str} (hq : '"' ∉ t) (hc : c ∉ t) : Transparent c t :=
  fun rest i => unquotedCharAux_plain hq hc rest i

theorem Transparent.quoted (c : Char) (s : Str) : Transparent c (quoted s) :=
  fun rest i => unquotedCharAux_quoted c s rest i

theorem Transparent.tok {d : Char} {t : Str} (h : TokForm d t) : Transparent ':' t := by
  rcases h with ⟨s, rfl⟩ | ⟨_, _, hq, _, hall⟩
  · exact Transparent.quoted ':' s
  · exact Transparent.plain hq (hall ':' (by simp))

theorem Transparent.join {d : Char} (hd : GoodDelim d) {ts : List Str} (h : ∀ t ∈ ts, TokForm d t) :
    Transparent ':' (joinWith d ts) := by
  induction ts with
  | nil => exact Transparent.nil ':'
  | cons t ts ih =>
    rw [joinWith_cons_append]
    apply Transparent.append (Transparent.tok (h t (by simp)))
    split
    · exact Transparent.nil ':'
    · rw [show d :: joinWith d ts = [d] ++ joinWith d ts by rfl]
      have := goodDelim_ne hd
      exact Transparent.append (Transparent.plain (by simp; exact fun e => this.1 e.symm)
        (by simp; exact fun e => this.2.2.1 e.symm)) (ih fun t' ht' => h t' (by simp [ht']))

theorem Transparent.header {n : Nat} {key : Option Str} {fields : Option (List Str)} {d : Char} (hd : GoodDelim d) :
    Transparent ':' (keyText key ++ '[' :: (lengthText n d ++ ']' :: fieldsText fields d)) := by
  have h1 : Transparent ':' (keyText key) := by
    cases key with
    | none => exact Transparent.nil ':'
    | some k => exact Transparent.tok (encodeKey_tok hd k)
  have h2 : Transparent ':' ('[' :: lengthText n d ++ [']']) := by
    have a := lengthText_not_mem (n := n) hd (c := ':') (by decide) (by decide)
    have b := lengthText_not_mem (n := n) hd (c := '"') (by decide) (by decide)
    exact Transparent.plain (by simp [b]) (by simp [a])
  have h3 : Transparent ':' (fieldsText fields d) := by
    cases fields with
    | none => exact Transparent.nil ':'
    | some fs =>
      rw [show fieldsText (some fs) d = ['{'] ++ joinWith d (fs.map encodeKey) ++ ['}'] by rfl]
      refine Transparent.append (Transparent.append (Transparent.plain (by simp) (by simp))
        (Transparent.join hd ?_)) (Transparent.plain (by simp) (by simp))
      intro t ht
      obtain ⟨f, _, rfl⟩ := List.mem_map.mp ht
      exact encodeKey_tok hd f
  have := Transparent.append (Transparent.append h1 h2) h3
  simpa using this

theorem unquotedColon_header (n : Nat) (key : Option Str) (fields : Option (List Str)) {d : Char}
    (hd : GoodDelim d) (suffix : Str) :
    (findUnquotedChar (formatHeader n key fields d ++ suffix) ':').isSome = true := by
  unfold findUnquotedChar
  rw [if_pos (by decide), formatHeader_eq]
  have := Transparent.header (n := n) (key := key) (fields := fields) hd (':' :: suffix) 0
  rw [unquotedCharAux_hit (by decide)] at this
  rw [show keyText key ++ '[' :: (lengthText n d ++ ']' :: (fieldsText fields d ++ [':'])) ++ suffix =
    (keyText key ++ '[' :: (lengthText n d ++ ']' :: fieldsText fields d)) ++ ':' :: suffix by simp, this]
  rfl

/-- What the decoder needs to know about a line that starts with a key. -/
structure KeyLine (c : Str) : Prop where
  dash : startsWithDash c = false
  ne : (trim c).isEmpty = false
  arr : isArrayHeaderContent c = false
  kv : isKeyValueContent c = true
  kvl : isKeyValueLine c = true

theorem keyLine_of {k rest : Str} (hkv : isKeyValueContent (encodeKey k ++ rest) = true)
    (hcolon : ':' ∈ rest) : KeyLine (encodeKey k ++ rest) := by
  obtain ⟨c, r, hk, hw, hb, hd, hs⟩ := encodeKey_head_cases k
  refine ⟨?_, ?_, notArrayHeader_key k rest, hkv, ?_⟩
  · rw [hk]
    unfold startsWithDash
    split
    · rename_i heq; simp at heq; exact absurd heq.1 hd
    · rfl
  · apply Bool.eq_false_iff.mpr
    intro h
    have h := trim_eq_nil_iff.mp (List.isEmpty_iff.mp h)
    rw [hk] at h
    simp [hw] at h
  · unfold isKeyValueLine
    cases hv : isValidUnquotedKey k with
    | true =>
      rw [encodeKey_valid hv]
      obtain ⟨c', r', hk', hc'⟩ := validKey_head hv
      rw [if_neg (by rw [hk']; simp [(isAlpha_cases hc').2.1])]
      simp [hcolon]
    | false =>
      rw [encodeKey_invalid hv, if_pos (by simp [quoted]), findClosingQuote_quoted]
      simp only
      rw [List.drop_left' (quoted_length k)]
      simpa using hcolon

theorem keyLine_colon (k rest : Str) : KeyLine (encodeKey k ++ ':' :: rest) :=
  keyLine_of (isKeyValueContent_keyColon k rest) (by simp)

theorem keyLine_header (n : Nat) (k : Str) (fields : Option (List Str)) {d : Char} (hd : GoodDelim d) (suffix : Str) :
    KeyLine (formatHeader n (some k) fields d ++ suffix) := by
  have hkv : isKeyValueContent (formatHeader n (some k) fields d ++ suffix) = true := unquotedColon_header n (some k) fields hd suffix
  rw [formatHeader_eq] at hkv ⊢
  simp only [keyText, List.append_assoc] at hkv ⊢
  exact keyLine_of hkv (by simp)

theorem arrayHeader_none (n : Nat) (fields : Option (List Str)) {d : Char} (hd : GoodDelim d) (suffix : Str) :
    isArrayHeaderContent (formatHeader n none fields d ++ suffix) = true := by
  unfold isArrayHeaderContent
  rw [unquotedColon_header n none fields hd suffix, formatHeader_eq]
  simp [keyText, trimStart, isWs]

/-! ## Specifications of the decoder on written lines -/

/-- The parsed lines have the depths and contents of the written lines. -/
def Proj (ls : List Line) (os : List OutLine) : Prop :=
  ls.map (fun l => (l.depth, l.content)) = os.map (fun o => (o.depth, o.content))

theorem Proj.cons_iff {l : Line} {ls : List Line} {o : OutLine} {os : List OutLine} :
    Proj (l :: ls) (o :: os) ↔ (l.depth = o.depth ∧ l.content = o.content) ∧ Proj ls os := by
  simp [Proj]

theorem Proj.nil_iff {ls : List Line} : Proj ls [] ↔ ls = [] := by simp [Proj]

theorem Proj.split {ls : List Line} {os1 os2 : List OutLine} (h : Proj ls (os1 ++ os2)) :
    ∃ l1 l2, ls = l1 ++ l2 ∧ Proj l1 os1 ∧ Proj l2 os2 := by
  unfold Proj at h ⊢
  rw [List.map_append] at h
  obtain ⟨l1, l2, h1, h2, h3⟩ := List.map_eq_append_iff.mp h
  exact ⟨l1, l2, h1, h2, h3⟩

theorem Proj.cons {ls : List Line} {o : OutLine} {os : List OutLine} (h : Proj ls (o :: os)) :
    ∃ l ls', ls = l :: ls' ∧ l.depth = o.depth ∧ l.content = o.content ∧ Proj ls' os := by
  cases ls with
  | nil => simp [Proj] at h
  | cons l ls' =>
    obtain ⟨⟨h1, h2⟩, h3⟩ := Proj.cons_iff.mp h
    exact ⟨l, ls', rfl, h1, h2, h3⟩

/-- The lines that follow are not deeper than `d`. -/
def RestLe (d : Nat) (rest : List Line) : Prop := ∀ l, rest.head? = some l → l.depth ≤ d

theorem RestLe.mono {d d' : Nat} (h : d ≤ d') {rest : List Line} (hr : RestLe d rest) : RestLe d' rest :=
  fun l hl => Nat.le_trans (hr l hl) h

section
variable {F : Type} [F64 F]

/-- Reading an array: the header line `c`, then the lines `tl` below it. -/
structure ArrSpec (ctx : Ctx) (base : Nat) (c : Str) (tl : List OutLine) (key : Option Str)
    (items : List (Json F)) : Prop where
  form : ∃ n fields d suffix, GoodDelim d ∧ c = formatHeader n key fields d ++ suffix
  parse : ∃ h, parseArrayHeaderLine c ',' = .ok (some h) ∧ h.key = key ∧ h.keyQuoted = readQuoted key ∧
    ∀ ls rest last fuel, Proj ls tl → RestLe base rest → 5 * ls.length + 2 ≤ fuel →
      ∃ last', decodeArray (F := F) ctx fuel h ⟨ls ++ rest, last⟩ base =
        .ok (emitEvents (.arr items), ⟨rest, last'⟩)

/-- Reading one entry of an object. -/
def KVSpec (ctx : Ctx) (base : Nat) (c : Str) (tl : List OutLine) (k : Str) (v : Json F) : Prop :=
  KeyLine c ∧ ∀ ls rest last fuel, Proj ls tl → RestLe base rest → 5 * ls.length + 3 ≤ fuel →
    ∃ last', decodeKV (F := F) ctx fuel c ⟨ls ++ rest, last⟩ base =
      .ok (.key k (!isValidUnquotedKey k) :: emitEvents v, ⟨rest, last'⟩)

/-- The lines of several entries at the same depth. -/
inductive KVList (ctx : Ctx) (base : Nat) : List OutLine → List (Str × Json F) → Prop
  | nil : KVList ctx base [] []
  | cons {c : Str} {tl ls : List OutLine} {k : Str} {v : Json F} {es : List (Str × Json F)} :
      KVSpec ctx base c tl k v → KVList ctx base ls es →
      KVList ctx base (⟨base, c⟩ :: tl ++ ls) ((k, v) :: es)

/-- Reading one list item. -/
def ItemSpec (ctx : Ctx) (depth : Nat) (c : Str) (tl : List OutLine) (v : Json F) : Prop :=
  isListItem c = true ∧ ∀ (l : Line) ls rest last fuel, l.content = c →
    Proj ls tl → (∀ l', rest.head? = some l' → l'.depth ≤ depth) → 5 * ls.length + 5 ≤ fuel →
    ∃ last', decodeItem (F := F) ctx fuel ⟨l :: ls ++ rest, last⟩ depth = .ok (emitEvents v, ⟨rest, last'⟩)

/-- The lines of several list items. -/
inductive ItemList (ctx : Ctx) (depth : Nat) : List OutLine → List (Json F) → Prop
  | nil : ItemList ctx depth [] []
  | cons {c : Str} {tl ls : List OutLine} {v : Json F} {vs : List (Json F)} :
      ItemSpec ctx depth c tl v → ItemList ctx depth ls vs →
      ItemList ctx depth (⟨depth, c⟩ :: tl ++ ls) (v :: vs)

theorem KVList.restLe {ctx : Ctx} {base : Nat} {os : List OutLine} {es : List (Str × Json F)}
    (h : KVList ctx base os es) {ls rest : List Line} (hp : Proj ls os) (hr : RestLe base rest) :
    RestLe base (ls ++ rest) := by
  cases h with
  | nil => rw [Proj.nil_iff.mp hp]; exact hr
  | cons h1 h2 =>
    obtain ⟨l, ls', rfl, hd, _⟩ := Proj.cons hp
    intro l' hl'
    simp at hl'; subst hl'
    simp [hd]

theorem ItemList.restLe {ctx : Ctx} {base : Nat} {os : List OutLine} {es : List (Json F)}
    (h : ItemList ctx base os es) {ls rest : List Line} (hp : Proj ls os) (hr : RestLe base rest) :
    RestLe base (ls ++ rest) := by
  cases h with
  | nil => rw [Proj.nil_iff.mp hp]; exact hr
  | cons h1 h2 =>
    obtain ⟨l, ls', rfl, hd, _⟩ := Proj.cons hp
    intro l' hl'
    simp at hl'; subst hl'
    simp [hd]

/-! ## The loops over entries -/

theorem KVList.fields {ctx : Ctx} {base : Nat} {os : List OutLine} {es : List (Str × Json F)}
    (h : KVList ctx base os es) : ∀ (ls rest : List Line) last fuel comp, Proj ls os →
      (∀ l, rest.head? = some l → l.depth < base) → 5 * ls.length + 1 ≤ fuel →
      (comp = none ∨ comp = some base) →
      ∃ last', decodeFields ctx fuel ⟨ls ++ rest, last⟩ base comp = .ok (emitEntries es, ⟨rest, last'⟩) := by
  induction h with
  | nil =>
    intro ls rest last fuel comp hp hr hf hc
    rw [Proj.nil_iff.mp hp]
    refine ⟨last, ?_⟩
    obtain ⟨f, rfl⟩ : ∃ f, fuel = f + 1 := ⟨fuel - 1, by omega⟩
    rw [decodeFields]
    cases rest with
    | nil => simp [emitEntries]
    | cons l rest => simp [hr l rfl, emitEntries]
  | @cons c tl os k v es h1 h2 ih =>
    intro ls rest last fuel comp hp hr hf hc
    rw [List.cons_append] at hp
    obtain ⟨l, ls', rfl, hd, hcont, hp⟩ := Proj.cons hp
    obtain ⟨l1, l2, rfl, hp1, hp2⟩ := hp.split
    obtain ⟨f, rfl⟩ : ∃ f, fuel = f + 1 := ⟨fuel - 1, by omega⟩
    simp only [List.length_cons, List.length_append] at hf
    obtain ⟨last1, e1⟩ := h1.2 l1 (l2 ++ rest) (some l) f hp1
      (h2.restLe hp2 fun l hl => Nat.le_of_lt (hr l hl)) (by omega)
    obtain ⟨last2, e2⟩ := ih l2 rest last1 f (some base) hp2 hr (by omega) (Or.inr rfl)
    refine ⟨last2, ?_⟩
    rw [decodeFields]
    simp only [List.cons_append, List.append_assoc, hd, hcont, Nat.lt_irrefl, if_false]
    rw [if_pos (by rcases hc with rfl | rfl <;> rfl)]
    simp only [e1, e2, bind, Except.bind, pure, Except.pure, emitEntries, List.cons_append]

theorem startsWithDash_ne {c : Str} (h : startsWithDash c = false) : (!startsWithDash c) = true := by simp [h]

theorem KVList.follow {ctx : Ctx} {base : Nat} {os : List OutLine} {es : List (Str × Json F)}
    (h : KVList ctx base os es) : ∀ (ls rest : List Line) last fuel, Proj ls os →
      (∀ l, rest.head? = some l → l.depth < base) → 5 * ls.length + 1 ≤ fuel →
      ∃ last', followLoop ctx fuel ⟨ls ++ rest, last⟩ base = .ok (emitEntries es, ⟨rest, last'⟩) := by
  induction h with
  | nil =>
    intro ls rest last fuel hp hr hf
    rw [Proj.nil_iff.mp hp]
    refine ⟨last, ?_⟩
    obtain ⟨f, rfl⟩ : ∃ f, fuel = f + 1 := ⟨fuel - 1, by omega⟩
    rw [followLoop]
    cases rest with
    | nil => simp [emitEntries]
    | cons l rest => simp [hr l rfl, emitEntries]
  | @cons c tl os k v es h1 h2 ih =>
    intro ls rest last fuel hp hr hf
    rw [List.cons_append] at hp
    obtain ⟨l, ls', rfl, hd, hcont, hp⟩ := Proj.cons hp
    obtain ⟨l1, l2, rfl, hp1, hp2⟩ := hp.split
    obtain ⟨f, rfl⟩ : ∃ f, fuel = f + 1 := ⟨fuel - 1, by omega⟩
    simp only [List.length_cons, List.length_append] at hf
    obtain ⟨last1, e1⟩ := h1.2 l1 (l2 ++ rest) (some l) f hp1
      (h2.restLe hp2 fun l hl => Nat.le_of_lt (hr l hl)) (by omega)
    obtain ⟨last2, e2⟩ := ih l2 rest last1 f hp2 hr (by omega)
    refine ⟨last2, ?_⟩
    rw [followLoop]
    simp only [List.cons_append, List.append_assoc, hd, hcont, Nat.lt_irrefl, if_false, h1.1.dash,
      BEq.rfl, Bool.not_false, Bool.and_self, if_true]
    simp only [e1, e2, bind, Except.bind, pure, Except.pure, emitEntries, List.cons_append]

theorem KVList.root {ctx : Ctx} {os : List OutLine} {es : List (Str × Json F)}
    (h : KVList ctx 0 os es) : ∀ (ls : List Line) last fuel, Proj ls os → 5 * ls.length + 1 ≤ fuel →
      ∃ last', rootLoop ctx fuel ⟨ls, last⟩ = .ok (emitEntries es, ⟨[], last'⟩) := by
  generalize hb : 0 = base at h
  induction h with
  | nil =>
    intro ls last fuel hp hf
    rw [Proj.nil_iff.mp hp]
    refine ⟨last, ?_⟩
    obtain ⟨f, rfl⟩ : ∃ f, fuel = f + 1 := ⟨fuel - 1, by omega⟩
    rw [rootLoop]
    simp [emitEntries]
  | @cons c tl os k v es h1 h2 ih =>
    intro ls last fuel hp hf
    subst hb
    rw [List.cons_append] at hp
    obtain ⟨l, ls', rfl, hd, hcont, hp⟩ := Proj.cons hp
    obtain ⟨l1, l2, rfl, hp1, hp2⟩ := hp.split
    obtain ⟨f, rfl⟩ : ∃ f, fuel = f + 1 := ⟨fuel - 1, by omega⟩
    simp only [List.length_cons, List.length_append] at hf
    have hr : RestLe 0 (l2 ++ []) := h2.restLe hp2 (by intro l hl; simp at hl)
    rw [List.append_nil] at hr
    obtain ⟨last1, e1⟩ := h1.2 l1 l2 (some l) f hp1 hr (by omega)
    obtain ⟨last2, e2⟩ := ih l2 last1 f hp2 (by omega)
    refine ⟨last2, ?_⟩
    rw [rootLoop]
    simp only [hd, hcont, ne_eq, not_true_eq_false, if_false]
    simp only [e1, e2, bind, Except.bind, pure, Except.pure, emitEntries, List.cons_append]

/-! ## The loop over list items -/

theorem ItemList.loop {ctx : Ctx} {depth : Nat} {os : List OutLine} {vs : List (Json F)}
    (h : ItemList ctx depth os vs) : ∀ (ls rest : List Line) last fuel length count start e, Proj ls os →
      RestLe depth rest → 5 * ls.length + 1 ≤ fuel → length = count + vs.length →
      ∃ last' start' e', listLoop ctx fuel length depth ⟨ls ++ rest, last⟩ count start e =
        .ok ⟨emitItems vs, ⟨rest, last'⟩, length, start', e'⟩ := by
  induction h with
  | nil =>
    intro ls rest last fuel length count start e hp hr hf hl
    rw [Proj.nil_iff.mp hp]
    simp only [List.length_nil, Nat.add_zero] at hl
    subst hl
    refine ⟨last, start, e, ?_⟩
    obtain ⟨f, rfl⟩ : ∃ f, fuel = f + 1 := ⟨fuel - 1, by omega⟩
    rw [listLoop]
    cases rest with
    | nil => simp [emitItems]
    | cons l rest => simp [emitItems]
  | @cons c tl os v vs h1 h2 ih =>
    intro ls rest last fuel length count start e hp hr hf hlen
    rw [List.cons_append] at hp
    obtain ⟨l, ls', rfl, hd, hcont, hp⟩ := Proj.cons hp
    obtain ⟨l1, l2, rfl, hp1, hp2⟩ := hp.split
    obtain ⟨f, rfl⟩ : ∃ f, fuel = f + 1 := ⟨fuel - 1, by omega⟩
    simp only [List.length_cons, List.length_append] at hf hlen
    obtain ⟨last1, e1⟩ := h1.2 l l1 (l2 ++ rest) last f hcont hp1 (h2.restLe hp2 hr) (by omega)
    obtain ⟨last2, s2, n2, e2⟩ := ih l2 rest last1 f length (count + 1)
      (match (generalizing := false) start with
        | none => some l.num
        | some s => some s)
      (match (generalizing := false) last1 with
        | some l => some l.num
        | none => some l.num) hp2 hr (by omega) (by omega)
    refine ⟨last2, s2, n2, ?_⟩
    rw [listLoop]
    simp only [List.cons_append, List.append_assoc, hd, hcont, Nat.lt_irrefl, if_false, h1.1,
      BEq.rfl, Bool.and_self, if_true, show count < length by omega]
    rw [List.cons_append] at e1
    simp only [e1, bind, Except.bind]
    cases start <;> cases last1 <;>
      (simp only at e2 ⊢; rw [e2]; simp only [pure, Except.pure, emitItems])

end

end Toon
