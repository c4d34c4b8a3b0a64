import Verif.Lemmas.BraceHeader
import Verif.Lemmas.RoundTrip
import Verif.Spec.Braces

/-! A table with a closing brace in a column name makes the whole text unreadable. -/

namespace Toon

section
variable {F : Type} [F64 F]

/-! ## Runs that fail at a defective header -/

/-- Reading the entry fails. -/
def KVErr (F : Type) [F64 F] (ctx : Ctx) (base : Nat) (c : Str) (tl : List OutLine) : Prop :=
  KeyLine c ∧ ∀ ls rest last fuel, Proj ls tl → 5 * ls.length + 3 ≤ fuel →
    decodeKV (F := F) ctx fuel c ⟨ls ++ rest, last⟩ base = .error .unterminatedString

/-- The lines of several entries, one of which is not readable. -/
inductive KVBad (F : Type) [F64 F] (ctx : Ctx) (base : Nat) : List OutLine → Prop
  | here {c : Str} {tl os : List OutLine} : KVErr F ctx base c tl → KVBad F ctx base (⟨base, c⟩ :: tl ++ os)
  | later {c : Str} {tl ls : List OutLine} {k : Str} {v : Json F} :
      KVSpec ctx base c tl k v → KVBad F ctx base ls → KVBad F ctx base (⟨base, c⟩ :: tl ++ ls)

/-- Reading the list item fails. -/
def ItemErr (F : Type) [F64 F] (ctx : Ctx) (depth : Nat) (c : Str) (tl : List OutLine) : Prop :=
  isListItem c = true ∧ ∀ (l : Line) ls rest last fuel, l.content = c → Proj ls tl → 5 * ls.length + 5 ≤ fuel →
    decodeItem (F := F) ctx fuel ⟨l :: ls ++ rest, last⟩ depth = .error .unterminatedString

/-- The lines of `n` list items, one of which is not readable. -/
inductive ItemBad (F : Type) [F64 F] (ctx : Ctx) (depth : Nat) : List OutLine → Nat → Prop
  | here {c : Str} {tl os : List OutLine} {n : Nat} : ItemErr F ctx depth c tl →
      ItemBad F ctx depth (⟨depth, c⟩ :: tl ++ os) (n + 1)
  | later {c : Str} {tl ls : List OutLine} {v : Json F} {n : Nat} :
      ItemSpec ctx depth c tl v → ItemBad F ctx depth ls n → ItemBad F ctx depth (⟨depth, c⟩ :: tl ++ ls) (n + 1)

/-- Reading the array fails. -/
structure ArrErr (F : Type) [F64 F] (ctx : Ctx) (base : Nat) (c : Str) (tl : List OutLine) (key : Option Str) : Prop where
  form : ∃ n fields d suffix, GoodDelim d ∧ c = formatHeader n key fields d ++ suffix
  run : parseArrayHeaderLine c ',' = .error .unterminatedString ∨
    ∃ h, parseArrayHeaderLine c ',' = .ok (some h) ∧ h.key = key ∧ h.fields = none ∧
      ∀ ls rest last fuel, Proj ls tl → 5 * ls.length + 2 ≤ fuel →
        decodeArray (F := F) ctx fuel h ⟨ls ++ rest, last⟩ base = .error .unterminatedString

theorem KVBad.head {ctx : Ctx} {base : Nat} {os : List OutLine} (h : KVBad F ctx base os) {ls : List Line}
    (hp : Proj ls os) : ∃ l ls', ls = l :: ls' ∧ l.depth = base := by
  cases h with
  | here _ => obtain ⟨l, ls', rfl, hd, _⟩ := Proj.cons hp; exact ⟨l, ls', rfl, hd⟩
  | later _ _ => obtain ⟨l, ls', rfl, hd, _⟩ := Proj.cons hp; exact ⟨l, ls', rfl, hd⟩

theorem KVBad.restLe {ctx : Ctx} {base : Nat} {os : List OutLine} (h : KVBad F ctx base os) {ls : List Line}
    (hp : Proj ls os) (rest : List Line) : RestLe base (ls ++ rest) := by
  obtain ⟨l, ls', rfl, hd⟩ := h.head hp
  intro l' hl'
  simp at hl'; subst hl'
  omega

theorem ItemBad.restLe {ctx : Ctx} {base n : Nat} {os : List OutLine} (h : ItemBad F ctx base os n) {ls : List Line}
    (hp : Proj ls os) (rest : List Line) : RestLe base (ls ++ rest) := by
  cases h with
  | here _ =>
    obtain ⟨l, ls', rfl, hd, _⟩ := Proj.cons hp
    intro l' hl'
    simp at hl'; subst hl'
    simp [hd]
  | later _ _ =>
    obtain ⟨l, ls', rfl, hd, _⟩ := Proj.cons hp
    intro l' hl'
    simp at hl'; subst hl'
    simp [hd]

theorem KVBad.fields {ctx : Ctx} {base : Nat} {os : List OutLine} (h : KVBad F ctx base os) :
    ∀ (ls rest : List Line) last fuel comp, Proj ls os → 5 * ls.length + 1 ≤ fuel →
      (comp = none ∨ comp = some base) →
      decodeFields (F := F) ctx fuel ⟨ls ++ rest, last⟩ base comp = .error .unterminatedString := by
  induction h with
  | here h1 =>
    intro ls rest last fuel comp hp hf hc
    rw [List.cons_append] at hp
    obtain ⟨l, ls', rfl, hd, hcont, hp⟩ := Proj.cons hp
    obtain ⟨l1, l2, rfl, hp1, hp2⟩ := hp.split
    obtain ⟨f, rfl⟩ : ∃ f, fuel = f + 1 := ⟨fuel - 1, by omega⟩
    simp only [List.length_cons, List.length_append] at hf
    have e1 := h1.2 l1 (l2 ++ rest) (some l) f hp1 (by omega)
    rw [decodeFields]
    simp only [List.cons_append, List.append_assoc, hd, hcont, Nat.lt_irrefl, if_false]
    rw [if_pos (by rcases hc with rfl | rfl <;> rfl)]
    simp only [e1, bind, Except.bind]
  | later h1 h2 ih =>
    intro ls rest last fuel comp hp hf hc
    rw [List.cons_append] at hp
    obtain ⟨l, ls', rfl, hd, hcont, hp⟩ := Proj.cons hp
    obtain ⟨l1, l2, rfl, hp1, hp2⟩ := hp.split
    obtain ⟨f, rfl⟩ : ∃ f, fuel = f + 1 := ⟨fuel - 1, by omega⟩
    simp only [List.length_cons, List.length_append] at hf
    obtain ⟨last1, e1⟩ := h1.2 l1 (l2 ++ rest) (some l) f hp1 (h2.restLe hp2 rest) (by omega)
    have e2 := ih l2 rest last1 f (some base) hp2 (by omega) (Or.inr rfl)
    rw [decodeFields]
    simp only [List.cons_append, List.append_assoc, hd, hcont, Nat.lt_irrefl, if_false]
    rw [if_pos (by rcases hc with rfl | rfl <;> rfl)]
    simp only [e1, e2, bind, Except.bind]

theorem KVBad.follow {ctx : Ctx} {base : Nat} {os : List OutLine} (h : KVBad F ctx base os) :
    ∀ (ls rest : List Line) last fuel, Proj ls os → 5 * ls.length + 1 ≤ fuel →
      followLoop (F := F) ctx fuel ⟨ls ++ rest, last⟩ base = .error .unterminatedString := by
  induction h with
  | here h1 =>
    intro ls rest last fuel hp hf
    rw [List.cons_append] at hp
    obtain ⟨l, ls', rfl, hd, hcont, hp⟩ := Proj.cons hp
    obtain ⟨l1, l2, rfl, hp1, hp2⟩ := hp.split
    obtain ⟨f, rfl⟩ : ∃ f, fuel = f + 1 := ⟨fuel - 1, by omega⟩
    simp only [List.length_cons, List.length_append] at hf
    have e1 := h1.2 l1 (l2 ++ rest) (some l) f hp1 (by omega)
    rw [followLoop]
    simp only [List.cons_append, List.append_assoc, hd, hcont, Nat.lt_irrefl, if_false, h1.1.dash,
      BEq.rfl, Bool.not_false, Bool.and_self, if_true]
    simp only [e1, bind, Except.bind]
  | later h1 h2 ih =>
    intro ls rest last fuel hp hf
    rw [List.cons_append] at hp
    obtain ⟨l, ls', rfl, hd, hcont, hp⟩ := Proj.cons hp
    obtain ⟨l1, l2, rfl, hp1, hp2⟩ := hp.split
    obtain ⟨f, rfl⟩ : ∃ f, fuel = f + 1 := ⟨fuel - 1, by omega⟩
    simp only [List.length_cons, List.length_append] at hf
    obtain ⟨last1, e1⟩ := h1.2 l1 (l2 ++ rest) (some l) f hp1 (h2.restLe hp2 rest) (by omega)
    have e2 := ih l2 rest last1 f hp2 (by omega)
    rw [followLoop]
    simp only [List.cons_append, List.append_assoc, hd, hcont, Nat.lt_irrefl, if_false, h1.1.dash,
      BEq.rfl, Bool.not_false, Bool.and_self, if_true]
    simp only [e1, e2, bind, Except.bind]

theorem KVBad.root {ctx : Ctx} {os : List OutLine} (h : KVBad F ctx 0 os) :
    ∀ (ls rest : List Line) last fuel, Proj ls os → 5 * ls.length + 1 ≤ fuel →
      rootLoop (F := F) ctx fuel ⟨ls ++ rest, last⟩ = .error .unterminatedString := by
  generalize hb : 0 = base at h
  induction h with
  | here h1 =>
    intro ls rest last fuel hp hf
    subst hb
    rw [List.cons_append] at hp
    obtain ⟨l, ls', rfl, hd, hcont, hp⟩ := Proj.cons hp
    obtain ⟨l1, l2, rfl, hp1, hp2⟩ := hp.split
    obtain ⟨f, rfl⟩ : ∃ f, fuel = f + 1 := ⟨fuel - 1, by omega⟩
    simp only [List.length_cons, List.length_append] at hf
    have e1 := h1.2 l1 (l2 ++ rest) (some l) f hp1 (by omega)
    rw [rootLoop]
    simp only [List.cons_append, List.append_assoc, hd, hcont, ne_eq, not_true_eq_false, if_false]
    simp only [e1, bind, Except.bind]
  | later h1 h2 ih =>
    intro ls rest last fuel hp hf
    subst hb
    rw [List.cons_append] at hp
    obtain ⟨l, ls', rfl, hd, hcont, hp⟩ := Proj.cons hp
    obtain ⟨l1, l2, rfl, hp1, hp2⟩ := hp.split
    obtain ⟨f, rfl⟩ : ∃ f, fuel = f + 1 := ⟨fuel - 1, by omega⟩
    simp only [List.length_cons, List.length_append] at hf
    obtain ⟨last1, e1⟩ := h1.2 l1 (l2 ++ rest) (some l) f hp1 (h2.restLe hp2 rest) (by omega)
    have e2 := ih l2 rest last1 f hp2 (by omega)
    rw [rootLoop]
    simp only [List.cons_append, List.append_assoc, hd, hcont, ne_eq, not_true_eq_false, if_false]
    simp only [e1, e2, bind, Except.bind]

theorem ItemBad.loop {ctx : Ctx} {depth n : Nat} {os : List OutLine} (h : ItemBad F ctx depth os n) :
    ∀ (ls rest : List Line) last fuel length count start e, Proj ls os →
      5 * ls.length + 1 ≤ fuel → length = count + n →
      listLoop (F := F) ctx fuel length depth ⟨ls ++ rest, last⟩ count start e = .error .unterminatedString := by
  induction h with
  | here h1 =>
    intro ls rest last fuel length count start e hp hf hlen
    rw [List.cons_append] at hp
    obtain ⟨l, ls', rfl, hd, hcont, hp⟩ := Proj.cons hp
    obtain ⟨l1, l2, rfl, hp1, hp2⟩ := hp.split
    obtain ⟨f, rfl⟩ : ∃ f, fuel = f + 1 := ⟨fuel - 1, by omega⟩
    simp only [List.length_cons, List.length_append] at hf
    have e1 := h1.2 l l1 (l2 ++ rest) last f hcont hp1 (by omega)
    rw [listLoop]
    simp only [List.cons_append, List.append_assoc, hd, hcont, Nat.lt_irrefl, if_false, h1.1,
      BEq.rfl, Bool.and_self, if_true, show count < length by omega]
    rw [List.cons_append] at e1
    simp only [e1, bind, Except.bind]
  | later h1 h2 ih =>
    intro ls rest last fuel length count start e hp hf hlen
    rw [List.cons_append] at hp
    obtain ⟨l, ls', rfl, hd, hcont, hp⟩ := Proj.cons hp
    obtain ⟨l1, l2, rfl, hp1, hp2⟩ := hp.split
    obtain ⟨f, rfl⟩ : ∃ f, fuel = f + 1 := ⟨fuel - 1, by omega⟩
    simp only [List.length_cons, List.length_append] at hf hlen
    obtain ⟨last1, e1⟩ := h1.2 l l1 (l2 ++ rest) last f hcont hp1 (h2.restLe hp2 rest) (by omega)
    rw [listLoop]
    simp only [List.cons_append, List.append_assoc, hd, hcont, Nat.lt_irrefl, if_false, h1.1,
      BEq.rfl, Bool.and_self, if_true, show count < length by omega]
    rw [List.cons_append] at e1
    simp only [e1, bind, Except.bind]
    rw [ih l2 rest last1 f length (count + 1) _ _ hp2 (by omega) (by omega)]

/-! ## Pieces -/

theorem arrErr_list {ctx : Ctx} {base : Nat} {d : Char} (hd : GoodDelim d) {key : Option Str}
    {n : Nat} {tl : List OutLine} (hn : n ≤ maxDeclaredLength)
    (h : ItemBad F ctx (base + 1) tl n) : ArrErr F ctx base (formatHeader n key none d) tl key := by
  refine ⟨⟨_, _, _, [], hd, (List.append_nil _).symm⟩, Or.inr ?_⟩
  have hp := parseHeader_format hn key (fields := none) hd (by simp) []
  rw [List.append_nil] at hp
  refine ⟨_, hp, rfl, rfl, ?_⟩
  intro ls rest last fuel hpj hf
  obtain ⟨f, rfl⟩ : ∃ f, fuel = f + 1 := ⟨fuel - 1, by omega⟩
  have hl := h.loop ls rest last f n 0 none none hpj (by omega) (by omega)
  rw [decodeArray]
  rw [show (trim []).isEmpty = true by decide]
  simp only [if_true, readFields, Option.map_none, Option.getD_none, List.isEmpty_nil]
  simp only [hl, bind, Except.bind]

theorem arrErr_table {ctx : Ctx} {base n : Nat} {d : Char} (hd : GoodDelim d)
    {key : Option Str} {cols : List Str} (hn : n ≤ maxDeclaredLength)
    (hbr : ∃ c ∈ cols, '}' ∈ c) (tl : List OutLine) :
    ArrErr F ctx base (formatHeader n key (some cols) d) tl key := by
  have := parseHeader_brace hn key hd hbr []
  rw [List.append_nil] at this
  exact ⟨⟨_, _, _, [], hd, (List.append_nil _).symm⟩, Or.inl this⟩

theorem kvErr_arr {ctx : Ctx} {depth : Nat} {k c : Str} {tl : List OutLine}
    (h : ArrErr F ctx depth c tl (some k)) : KVErr F ctx depth c tl := by
  obtain ⟨n, fields, d, suffix, hd, hform⟩ := h.form
  refine ⟨by rw [hform]; exact keyLine_header n k fields hd suffix, ?_⟩
  intro ls rest last fuel hpj hf
  obtain ⟨f, rfl⟩ : ∃ f, fuel = f + 1 := ⟨fuel - 1, by omega⟩
  rw [decodeKV]
  rcases h.run with hp | ⟨hh, hparse, hkey, hnone, hdec⟩
  · simp only [hp, bind, Except.bind]
  · have e := hdec ls rest last f hpj (by omega)
    simp only [hparse, bind, Except.bind, keyedHeader, hkey, e]

theorem kvErr_obj {ctx : Ctx} {depth : Nat} {k : Str} {os : List OutLine}
    (h : KVBad F ctx (depth + 1) os) : KVErr F ctx depth (encodeKey k ++ [':']) os := by
  refine ⟨keyLine_colon k [], ?_⟩
  intro ls rest last fuel hpj hf
  obtain ⟨f, rfl⟩ : ∃ f, fuel = f + 1 := ⟨fuel - 1, by omega⟩
  have e := h.fields ls rest last f none hpj (by omega) (Or.inl rfl)
  have hdrop := drop_keyColon k []
  have hkey := parseKeyToken_encode k []
  rw [decodeKV]
  simp only [parseHeader_keyOnly, bind, Except.bind, keyedHeader, hkey, hdrop]
  rw [if_pos (by decide)]
  obtain ⟨l, ls', rfl, hd⟩ := h.head hpj
  simp only [List.cons_append] at e ⊢
  rw [if_pos (by omega)]
  simp only [e]

theorem itemErr_arr {ctx : Ctx} {depth : Nat} {c : Str} {tl : List OutLine}
    (h : ArrErr F ctx depth c tl none) : ItemErr F ctx depth (dash c) tl := by
  refine ⟨dash_item _, ?_⟩
  intro l ls rest last fuel hc hpj hf
  obtain ⟨f, rfl⟩ : ∃ f, fuel = f + 1 := ⟨fuel - 1, by omega⟩
  obtain ⟨n, fields, d, suffix, hd, hform⟩ := h.form
  have harr : isArrayHeaderContent c = true := by rw [hform]; exact arrayHeader_none n fields hd suffix
  have hne : (trim c).isEmpty = false := by
    rw [hform]
    apply Bool.eq_false_iff.mpr
    intro he
    have he := trim_eq_nil_iff.mp (List.isEmpty_iff.mp he)
    have := List.all_eq_true.mp he ':' (by rw [formatHeader_eq]; simp)
    simp [isWs] at this
  rw [decodeItem]
  simp only [List.cons_append, hc, dash_ne, if_false, dash_start, if_true, dash_drop, hne, Bool.false_eq_true, harr]
  rcases h.run with hp | ⟨hh, hparse, hkey, hnone, hdec⟩
  · simp only [hp, bind, Except.bind]
  · have e := hdec ls rest (some l) f hpj (by omega)
    simp only [hparse, bind, Except.bind, e]

theorem itemErr_obj_first {ctx : Ctx} {depth : Nat} {c : Str} {tl : List OutLine} (os : List OutLine)
    (h : KVErr F ctx (depth + 1) c tl) : ItemErr F ctx depth (dash c) (tl ++ os) := by
  refine ⟨dash_item _, ?_⟩
  intro l ls rest last fuel hc hpj hf
  obtain ⟨hk, hdec⟩ := h
  obtain ⟨l1, l2, rfl, hp1, hp2⟩ := hpj.split
  simp only [List.length_append] at hf
  obtain ⟨f, rfl⟩ : ∃ f, fuel = f + 1 := ⟨fuel - 1, by omega⟩
  have plain : decodeItemRest (F := F) ctx f c ⟨l1 ++ (l2 ++ rest), some l⟩ depth = .error .unterminatedString := by
    obtain ⟨g, rfl⟩ : ∃ g, f = g + 1 := ⟨f - 1, by omega⟩
    have e1 := hdec l1 (l2 ++ rest) (some l) g hp1 (by omega)
    rw [decodeItemRest]
    simp only [hk.kv, if_true, e1, bind, Except.bind]
  have e1 := hdec l1 (l2 ++ rest) (some l) (f + 1) hp1 (by omega)
  rw [decodeItem]
  simp only [List.cons_append, List.append_assoc, hc, dash_ne, if_false, dash_start, if_true, dash_drop, hk.ne, Bool.false_eq_true,
    hk.arr, bind, Except.bind]
  rw [decodeKV] at e1
  simp only [bind, Except.bind] at e1
  cases hh : parseArrayHeaderLine c ',' with
  | error e => simp only [hh] at e1 ⊢; simpa using e1
  | ok hdr =>
    simp only [hh] at e1 ⊢
    cases hkh : keyedHeader hdr with
    | none => simpa using plain
    | some kh =>
      obtain ⟨key, h⟩ := kh
      simp only [hkh] at e1 ⊢
      split
      · cases ha : decodeArray (F := F) ctx f h ⟨l1 ++ (l2 ++ rest), some l⟩ (depth + 1) with
        | error e => simp only [ha] at e1; simpa using e1
        | ok r => simp [ha, pure, Except.pure] at e1
      · exact plain

theorem itemErr_obj_rest {ctx : Ctx} {depth : Nat} {c : Str} {tl os : List OutLine} {k : Str} {v : Json F}
    (h : KVSpec ctx (depth + 1) c tl k v) (hes : KVBad F ctx (depth + 1) os) :
    ItemErr F ctx depth (dash c) (tl ++ os) := by
  refine ⟨dash_item _, ?_⟩
  intro l ls rest last fuel hc hpj hf
  obtain ⟨hk, hdec⟩ := h
  obtain ⟨l1, l2, rfl, hp1, hp2⟩ := hpj.split
  simp only [List.length_append] at hf
  obtain ⟨f, rfl⟩ : ∃ f, fuel = f + 1 := ⟨fuel - 1, by omega⟩
  have hr1 : RestLe (depth + 1) (l2 ++ rest) := hes.restLe hp2 rest
  have plain : decodeItemRest (F := F) ctx f c ⟨l1 ++ (l2 ++ rest), some l⟩ depth = .error .unterminatedString := by
    obtain ⟨g, rfl⟩ : ∃ g, f = g + 1 := ⟨f - 1, by omega⟩
    obtain ⟨last1, e1⟩ := hdec l1 (l2 ++ rest) (some l) g hp1 hr1 (by omega)
    have e2 := hes.follow l2 rest last1 g hp2 (by omega)
    rw [decodeItemRest]
    simp only [hk.kv, if_true, e1, e2, bind, Except.bind]
  obtain ⟨last1, e1⟩ := hdec l1 (l2 ++ rest) (some l) (f + 1) hp1 hr1 (by omega)
  have e2 := hes.follow l2 rest last1 f hp2 (by omega)
  rw [decodeItem]
  simp only [List.cons_append, List.append_assoc, hc, dash_ne, if_false, dash_start, if_true, dash_drop, hk.ne, Bool.false_eq_true,
    hk.arr, bind, Except.bind]
  rw [decodeKV] at e1
  simp only [bind, Except.bind] at e1
  cases hh : parseArrayHeaderLine c ',' with
  | error e => simp [hh] at e1
  | ok hdr =>
    simp only [hh] at e1 ⊢
    cases hkh : keyedHeader hdr with
    | none => simpa using plain
    | some kh =>
      obtain ⟨key, h⟩ := kh
      simp only [hkh] at e1 ⊢
      split
      · cases ha : decodeArray (F := F) ctx f h ⟨l1 ++ (l2 ++ rest), some l⟩ (depth + 1) with
        | error e => simp [ha] at e1
        | ok r =>
          simp only [ha, pure, Except.pure, Except.ok.injEq, Prod.mk.injEq, List.cons.injEq, Ev.key.injEq] at e1
          obtain ⟨_, hcur⟩ := e1
          simp only [hcur, e2]
      · exact plain

/-! ## The conditions -/

omit [F64 F] in
mutual
theorem writable_iff (tbl : Bool) (v : Json F) : Writable tbl v ↔ WritableButBraces tbl v ∧ ¬HasBraceTable tbl v := by
  match v with
  | .prim p => simp [Writable, WritableButBraces, HasBraceTable]
  | .arr items =>
    simp only [Writable, WritableButBraces, HasBraceTable, writableItems_iff items]
    by_cases ht : tbl = true ∧ ∃ cols, IsTable items cols
    · simp only [ht, true_or, and_true, not_true, false_and, or_false]
      obtain ⟨rfl, _⟩ := ht
      refine and_congr_right fun _ => ⟨?_, ?_⟩
      · rintro h ⟨_, cols, hc, c, hm, hb⟩
        exact h trivial cols hc c hm hb
      · intro h _ cols hc c hm hb
        exact h ⟨trivial, cols, hc, c, hm, hb⟩
    · have h1 : ¬(tbl = true ∧ ∃ cols, IsTable items cols ∧ ∃ c ∈ cols, '}' ∈ c) :=
        fun ⟨h, cols, hc, _⟩ => ht ⟨h, cols, hc⟩
      have h2 : tbl = true → ∀ cols, IsTable items cols → ∀ c ∈ cols, '}' ∉ c :=
        fun h cols hc => absurd ⟨h, cols, hc⟩ ht
      simp only [ht, h1, false_or, not_false_eq_true, true_and]
      exact ⟨fun ⟨a, _, b, c⟩ => ⟨⟨a, b⟩, c⟩, fun ⟨⟨a, b⟩, c⟩ => ⟨a, h2, b, c⟩⟩
  | .obj es => simp only [Writable, WritableButBraces, HasBraceTable, writableEntries_iff es]
theorem writableItems_iff (vs : List (Json F)) :
    WritableItems vs ↔ WritableButBracesItems vs ∧ ¬HasBraceTableItems vs := by
  match vs with
  | [] => simp [WritableItems, WritableButBracesItems, HasBraceTableItems]
  | v :: vs =>
    simp only [WritableItems, WritableButBracesItems, HasBraceTableItems, writable_iff false v, writableItems_iff vs, not_or]
    constructor
    · rintro ⟨⟨a, b⟩, c, d⟩; exact ⟨⟨a, c⟩, b, d⟩
    · rintro ⟨⟨a, c⟩, b, d⟩; exact ⟨⟨a, b⟩, c, d⟩
theorem writableEntries_iff (es : List (Str × Json F)) :
    WritableEntries es ↔ WritableButBracesEntries es ∧ ¬HasBraceTableEntries es := by
  match es with
  | [] => simp [WritableEntries, WritableButBracesEntries, HasBraceTableEntries]
  | (k, v) :: es =>
    simp only [WritableEntries, WritableButBracesEntries, HasBraceTableEntries, writable_iff true v, writableEntries_iff es,
      not_or]
    constructor
    · rintro ⟨x, ⟨a, b⟩, c, d⟩; exact ⟨⟨x, a, c⟩, b, d⟩
    · rintro ⟨⟨x, a, c⟩, b, d⟩; exact ⟨x, ⟨a, b⟩, c, d⟩
end

omit [F64 F] in
theorem zipRow_prims (cols : List Str) (ps : List (Prim F)) : ∀ e ∈ zipRow cols ps, ∃ p, e.2 = .prim p := by
  induction cols generalizing ps with
  | nil => intro e he; simp [zipRow] at he
  | cons c cols ih =>
    cases ps with
    | nil => intro e he; simp [zipRow] at he
    | cons p ps =>
      intro e he
      simp only [zipRow, List.mem_cons] at he
      rcases he with rfl | he
      · exact ⟨p, rfl⟩
      · exact ih ps e he

omit [F64 F] in
theorem no_brace_rows {items : List (Json F)} (h : ∀ v ∈ items, ¬HasBraceTable false v) : ¬HasBraceTableItems items := by
  induction items with
  | nil => simp [HasBraceTableItems]
  | cons v vs ih =>
    simp only [HasBraceTableItems, not_or]
    exact ⟨h v (by simp), ih fun v hv => h v (by simp [hv])⟩

theorem normalize_no_table {items : List (Json F)} (h : isArrayOfPrims items = true) :
    ¬HasBraceTable true (.arr items) := by
  rw [primsOf_all h]
  generalize primsOf items = ps
  simp only [HasBraceTable, not_or]
  constructor
  · rintro ⟨_, cols, ⟨_, ⟨es, rest, h1, _⟩, _⟩, _⟩
    cases ps <;> simp at h1
  · rintro ⟨_, h⟩
    revert h
    apply no_brace_rows
    intro v hv
    obtain ⟨p, _, rfl⟩ := List.mem_map.mp hv
    simp [HasBraceTable]

theorem normalize_no_items {items : List (Json F)} (h : isArrayOfPrims items = true) : ¬HasBraceTableItems items := by
  rw [primsOf_all h]
  apply no_brace_rows
  intro v hv
  obtain ⟨p, _, rfl⟩ := List.mem_map.mp hv
  simp [HasBraceTable]

/-- The entry has a table with a brace and no other defect. -/
def EntryBrace (k : Str) (v : Json F) : Prop :=
  WritableButBraces true v ∧ HasBraceTable true v ∧ Normal v

theorem collectChain_brace (budget : Nat) (v : Json F) (hv : EntryBrace [] v) :
    EntryBrace [] (collectChain budget v).2 := by
  fun_induction collectChain budget v with
  | case1 v => exact hv
  | case2 budget k v segs leaf hc ih =>
    simp only [hc] at ih ⊢
    obtain ⟨h1, h2, h4⟩ := hv
    simp only [WritableButBraces, WritableButBracesEntries] at h1
    simp only [HasBraceTable, HasBraceTableEntries, or_false] at h2
    simp only [Normal, NormalEntries] at h4
    exact ih ⟨h1.2.1, h2, h4.1⟩
  | case3 => exact hv

/-! ## The induction -/

mutual
theorem object_bad [LawfulF64 F] {ctx : Ctx} (hb : ctx.blanks = []) {opts : EncOpts} (hd : GoodDelim opts.delim)
    (entries : List (Str × Json F)) (depth : Nat) (rlk : Option (List Str)) (pp : Option Str) (rem : Option Nat)
    (hw : WritableButBracesEntries entries) (hx : HasBraceTableEntries entries)
    (hn : NormalEntries entries) :
    KVBad F ctx depth (encodeObject opts entries depth rlk pp rem) := by
  rw [encodeObject]
  exact entries_bad hb hd _ _ _ _ entries depth hw hx hn
termination_by (sizeOf entries, 3)

theorem entries_bad [LawfulF64 F] {ctx : Ctx} (hb : ctx.blanks = []) {opts : EncOpts} (hd : GoodDelim opts.delim)
    (siblings : List Str) (rlk : Option (List Str)) (pp : Option Str) (fd : Nat)
    (entries : List (Str × Json F)) (depth : Nat) (hw : WritableButBracesEntries entries)
    (hx : HasBraceTableEntries entries) (hn : NormalEntries entries) :
    KVBad F ctx depth (encodeEntries opts siblings rlk pp fd entries depth) := by
  match entries, hw, hx, hn with
  | [], _, hx, _ => simp [HasBraceTableEntries] at hx
  | (k, v) :: rest, hw, hx, hn =>
    simp only [WritableButBracesEntries] at hw
    simp only [HasBraceTableEntries] at hx
    simp only [NormalEntries] at hn
    rw [encodeEntries]
    by_cases hv : HasBraceTable true v
    · obtain ⟨c, tl, hl, hs⟩ := keyValue_bad hb hd siblings rlk pp fd k v depth ⟨hw.2.1, hv, hn.1⟩
      rw [hl]
      exact KVBad.here hs
    · obtain ⟨c, tl, hl, hs⟩ := keyValue_spec hb hd siblings rlk pp fd k v depth
        ⟨fun s hs hv => hw.1 s hs (by rw [bareKey_eq]; exact hv), (writable_iff true v).mpr ⟨hw.2.1, hv⟩, hn.1⟩
      rw [hl]
      exact KVBad.later hs (entries_bad hb hd siblings rlk pp fd rest depth hw.2.2 (hx.resolve_left hv) hn.2)
termination_by (sizeOf entries, 2)

theorem keyValue_bad [LawfulF64 F] {ctx : Ctx} (hb : ctx.blanks = []) {opts : EncOpts} (hd : GoodDelim opts.delim)
    (siblings : List Str) (rlk : Option (List Str)) (pp : Option Str) (fd : Nat)
    (key : Str) (value : Json F) (depth : Nat) (hv : EntryBrace key value) :
    ∃ c tl, encodeKeyValue opts siblings rlk pp fd key value depth = ⟨depth, c⟩ :: tl ∧ KVErr F ctx depth c tl := by
  rw [encodeKeyValue_eq]
  cases hf : tryFold key value siblings opts rlk pp fd with
  | some folded =>
    simp only
    have hlt := tryFold_size hf
    have hok : EntryBrace folded.foldedKey folded.leaf := by
      rw [(tryFold_some hf).2.2.2.2.2.2.1]
      exact collectChain_brace _ _ hv
    exact entry_bad hb hd rlk _ _ folded.foldedKey folded.leaf depth hok
  | none =>
    simp only
    exact entry_bad hb hd rlk _ _ key value depth hv
termination_by (sizeOf value, 1)
decreasing_by
  all_goals first
    | (apply Prod.Lex.left; assumption)
    | (apply Prod.Lex.right; decide)

theorem entry_bad [LawfulF64 F] {ctx : Ctx} (hb : ctx.blanks = []) {opts : EncOpts} (hd : GoodDelim opts.delim)
    (rlk : Option (List Str)) (path : Str) (fd : Nat)
    (key : Str) (value : Json F) (depth : Nat) (hv : EntryBrace key value) :
    ∃ c tl, writeEntry opts rlk path fd key value depth = ⟨depth, c⟩ :: tl ∧ KVErr F ctx depth c tl := by
  match value, hv with
  | .prim p, hv => exact absurd hv.2.1 (by simp [HasBraceTable])
  | .arr items, hv =>
    rw [writeEntry]
    rw [encodeArray_head_tail]
    exact ⟨_, _, rfl, kvErr_arr (array_bad hb hd (some key) items depth hv)⟩
  | .obj es, hv =>
    obtain ⟨h1, h2, h4⟩ := hv
    simp only [WritableButBraces] at h1
    simp only [HasBraceTable] at h2
    simp only [Normal] at h4
    exact ⟨_, _, rfl, kvErr_obj (object_bad hb hd es (depth + 1) _ _ _ h1 h2 h4)⟩
termination_by (sizeOf value, 0)

theorem array_bad [LawfulF64 F] {ctx : Ctx} (hb : ctx.blanks = []) {opts : EncOpts} (hd : GoodDelim opts.delim)
    (key : Option Str) (items : List (Json F)) (depth : Nat) (hv : EntryBrace [] (.arr items)) :
    ArrErr F ctx depth (arrayHead opts key items) (arrayTail opts items depth) key := by
  obtain ⟨h1, h2, h4⟩ := hv
  simp only [WritableButBraces] at h1
  simp only [Normal] at h4
  rw [arrayHead, arrayTail]
  split
  · rename_i hp
    exact absurd h2 (normalize_no_table hp)
  · simp only [HasBraceTable, true_and] at h2
    cases ht : tableHeader items with
    | some cols =>
      have hbr : ∃ c ∈ cols, '}' ∈ c := by
        rcases h2 with ⟨cols', hc, hbr⟩ | h2
        · have := header_of_isTable hc
          rw [ht] at this
          simp only [Option.some.injEq] at this
          rw [this]; exact hbr
        · exact absurd ⟨cols, isTable_of_header ht⟩ h2.1
      exact arrErr_table hd h1.1 hbr _
    | none =>
      simp only
      have hi : HasBraceTableItems items := by
        rcases h2 with ⟨cols', hc, _⟩ | h2
        · have := header_of_isTable hc
          rw [ht] at this
          simp at this
        · exact h2.2
      have hw : WritableButBracesItems items := by
        rcases h1.2 with ⟨_, cols', hc⟩ | h
        · rw [header_of_isTable hc] at ht; simp at ht
        · exact h
      exact arrErr_list hd h1.1 (items_bad hb hd items (depth + 1) hw hi h4)
termination_by (sizeOf items, 4)

theorem items_bad [LawfulF64 F] {ctx : Ctx} (hb : ctx.blanks = []) {opts : EncOpts} (hd : GoodDelim opts.delim)
    (items : List (Json F)) (depth : Nat) (hw : WritableButBracesItems items) (hx : HasBraceTableItems items)
    (hn : NormalItems items) :
    ItemBad F ctx depth (encodeItems opts items depth) items.length := by
  match items, hw, hx, hn with
  | [], _, hx, _ => simp [HasBraceTableItems] at hx
  | v :: vs, hw, hx, hn =>
    simp only [WritableButBracesItems] at hw
    simp only [HasBraceTableItems] at hx
    simp only [NormalItems] at hn
    rw [encodeItems, List.length_cons]
    by_cases hv : HasBraceTable false v
    · obtain ⟨c, tl, hl, hs⟩ := item_bad hb hd v depth hw.1 hv hn.1
      rw [hl]
      exact ItemBad.here hs
    · obtain ⟨c, tl, hl, hs⟩ := item_spec hb hd v depth ((writable_iff false v).mpr ⟨hw.1, hv⟩) hn.1
      rw [hl]
      exact ItemBad.later hs (items_bad hb hd vs depth hw.2 (hx.resolve_left hv) hn.2)
termination_by (sizeOf items, 3)

theorem item_bad [LawfulF64 F] {ctx : Ctx} (hb : ctx.blanks = []) {opts : EncOpts} (hd : GoodDelim opts.delim)
    (value : Json F) (depth : Nat) (hw : WritableButBraces false value) (hx : HasBraceTable false value)
    (hn : Normal value) :
    ∃ c tl, encodeItem opts value depth = ⟨depth, c⟩ :: tl ∧ ItemErr F ctx depth c tl := by
  match value, hw, hx, hn with
  | .prim p, _, hx, _ => simp [HasBraceTable] at hx
  | .arr items, hw, hx, hn =>
    rw [encodeItem]
    simp only [WritableButBraces] at hw
    simp only [HasBraceTable, Bool.false_eq_true, false_and, false_or, not_false_eq_true, true_and] at hx
    simp only [Normal] at hn
    split
    · rename_i hp
      exact absurd hx (normalize_no_items hp)
    · simp only [Bool.false_eq_true, false_and, false_or] at hw
      exact ⟨_, _, rfl, itemErr_arr (arrErr_list hd hw.1 (items_bad hb hd items (depth + 1) hw.2 hx hn))⟩
  | .obj es, hw, hx, hn =>
    rw [encodeItem]
    simp only [WritableButBraces] at hw
    simp only [HasBraceTable] at hx
    simp only [Normal] at hn
    exact objectItem_bad hb hd es depth hw hx hn
termination_by (sizeOf value, 1)

theorem objectItem_bad [LawfulF64 F] {ctx : Ctx} (hb : ctx.blanks = []) {opts : EncOpts} (hd : GoodDelim opts.delim)
    (entries : List (Str × Json F)) (depth : Nat) (hw : WritableButBracesEntries entries)
    (hx : HasBraceTableEntries entries) (hn : NormalEntries entries) :
    ∃ c tl, encodeObjectItem opts entries depth = ⟨depth, c⟩ :: tl ∧ ItemErr F ctx depth c tl := by
  match entries, hw, hx, hn with
  | [], _, hx, _ => simp [HasBraceTableEntries] at hx
  | (k, v) :: rest, hw, hx, hn =>
    simp only [WritableButBracesEntries] at hw
    simp only [HasBraceTableEntries] at hx
    simp only [NormalEntries] at hn
    rw [encodeObjectItem_cons]
    by_cases hv : HasBraceTable true v
    · match v, hw, hv, hn with
      | .prim p, _, hv, _ => simp [HasBraceTable] at hv
      | .arr items, hw, hv, hn =>
        exact ⟨_, _, rfl, itemErr_obj_first _ (kvErr_arr (array_bad hb hd (some k) items (depth + 1)
          ⟨hw.2.1, hv, hn.1⟩))⟩
      | .obj es, hw, hv, hn =>
        have h1 := hw.2.1
        have h4 := hn.1
        simp only [WritableButBraces] at h1
        simp only [HasBraceTable] at hv
        simp only [Normal] at h4
        exact ⟨_, _, rfl, itemErr_obj_first _ (kvErr_obj (object_bad hb hd es (depth + 2) none none none h1 hv h4))⟩
    · have hrest := object_bad hb hd rest (depth + 1) none none none hw.2.2 (hx.resolve_left hv) hn.2
      have hw' := (writable_iff true v).mpr ⟨hw.2.1, hv⟩
      match v, hw, hw', hn with
      | .prim p, hw, hw', hn =>
        exact ⟨_, _, rfl, itemErr_obj_rest (kvSpec_prim hd (by simpa only [Normal] using hn.1)
          (fun s hs hvk => hw.1 s (by rw [hs]) (by rw [bareKey_eq]; exact hvk))) hrest⟩
      | .arr items, hw, hw', hn =>
        exact ⟨_, _, rfl, itemErr_obj_rest (kvSpec_arr (array_spec hb hd (some k) items (depth + 1) hw'
          (by simpa only [Normal] using hn.1))) hrest⟩
      | .obj es, hw, hw', hn =>
        have h := object_kvList hb hd es (depth + 2) none none none (by simpa only [Writable] using hw')
          (by simpa only [Normal] using hn.1)
        exact ⟨_, _, rfl, itemErr_obj_rest (kvSpec_obj h) hrest⟩
termination_by (sizeOf entries, 0)

end

/-! ## The whole text -/

theorem decodeLines_brace [LawfulF64 F] {ctx : Ctx} (hb : ctx.blanks = []) {opts : EncOpts} (hd : GoodDelim opts.delim)
    {v : Json F} (hw : WritableButBraces true v) (hx : HasBraceTable true v) (hn : Normal v)
    {lines : List Line} (hp : Proj lines (encodeValue opts v)) :
    decodeLines (F := F) ctx lines = .error .unterminatedString := by
  unfold decodeLines
  cases v with
  | prim p => simp [HasBraceTable] at hx
  | arr items =>
    simp only [encodeValue] at hp
    rw [encodeArray_head_tail] at hp
    obtain ⟨l, ls, rfl, hdp, hc, hp⟩ := Proj.cons hp
    have hs := array_bad hb hd none items 0 ⟨hw, hx, hn⟩
    obtain ⟨n, fields, d, suffix, hd', hform⟩ := hs.form
    have harr : isArrayHeaderContent (arrayHead opts none items) = true := by
      rw [hform]; exact arrayHeader_none n fields hd' suffix
    simp only [rootHeader, hc, harr, if_true]
    rcases hs.run with hpar | ⟨hh, hparse, hkey, hnone, hdec⟩
    · simp only [hpar, bind, Except.bind]
    · have e := hdec ls [] (some l) (5 * (l :: ls).length + 5) hp (by simp only [List.length_cons]; omega)
      rw [List.append_nil] at e
      simp only [hparse, bind, Except.bind, e]
  | obj es =>
    simp only [WritableButBraces] at hw
    simp only [HasBraceTable] at hx
    simp only [Normal] at hn
    simp only [encodeValue] at hp
    have hs := object_bad hb hd es 0 none none none hw hx hn
    generalize encodeObject opts es 0 none none none = os at hs hp
    cases hs with
    | @here c tl ls0 h1 =>
      rw [List.cons_append] at hp
      obtain ⟨l, ls, rfl, hdp, hc, hp⟩ := Proj.cons hp
      obtain ⟨l1, l2, rfl, hp1, hp2⟩ := hp.split
      have e1 := h1.2 l1 l2 (some l) (5 * (l :: (l1 ++ l2)).length + 5) hp1
        (by simp only [List.length_cons, List.length_append]; omega)
      simp only [rootHeader, hc, h1.1.arr, Bool.false_eq_true, if_false, bind, Except.bind, h1.1.kvl, Bool.not_true,
        Bool.and_false, e1]
    | @later c tl ls0 k v h1 h2 =>
      rw [List.cons_append] at hp
      obtain ⟨l, ls, rfl, hdp, hc, hp⟩ := Proj.cons hp
      obtain ⟨l1, l2, rfl, hp1, hp2⟩ := hp.split
      have hr : RestLe 0 (l2 ++ []) := h2.restLe hp2 []
      rw [List.append_nil] at hr
      obtain ⟨last1, e1⟩ := h1.2 l1 l2 (some l) (5 * (l :: (l1 ++ l2)).length + 5) hp1 hr
        (by simp only [List.length_cons, List.length_append]; omega)
      have e2 := h2.root l2 [] last1 (5 * (l :: (l1 ++ l2)).length + 5) hp2
        (by simp only [List.length_cons, List.length_append]; omega)
      rw [List.append_nil] at e2
      simp only [rootHeader, hc, h1.1.arr, Bool.false_eq_true, if_false, bind, Except.bind, h1.1.kvl, Bool.not_true,
        Bool.and_false, e1, e2]

mutual
theorem brace_normalize (tbl : Bool) (v : Json F) : HasBraceTable tbl (normalize v) ↔ HasBraceTable tbl v := by
  match v with
  | .prim p => simp [normalize, HasBraceTable]
  | .arr items => simp only [normalize, HasBraceTable, isTable_normalize, braceItems_normalize items]
  | .obj es => simp only [normalize, HasBraceTable, braceEntries_normalize es]
theorem braceItems_normalize (vs : List (Json F)) : HasBraceTableItems (normalizeItems vs) ↔ HasBraceTableItems vs := by
  match vs with
  | [] => simp [normalizeItems, HasBraceTableItems]
  | v :: vs => simp only [normalizeItems, HasBraceTableItems, brace_normalize false v, braceItems_normalize vs]
theorem braceEntries_normalize (es : List (Str × Json F)) :
    HasBraceTableEntries (normalizeEntries es) ↔ HasBraceTableEntries es := by
  match es with
  | [] => simp [normalizeEntries, HasBraceTableEntries]
  | (k, v) :: es =>
    simp only [normalizeEntries, HasBraceTableEntries, brace_normalize true v, braceEntries_normalize es]
end

mutual
theorem butBraces_normalize (tbl : Bool) (v : Json F) :
    WritableButBraces tbl (normalize v) ↔ WritableButBraces tbl v := by
  match v with
  | .prim p => simp [normalize, WritableButBraces]
  | .arr items => simp only [normalize, WritableButBraces, normalizeItems_length, isTable_normalize, butBracesItems_normalize items]
  | .obj es => simp only [normalize, WritableButBraces, butBracesEntries_normalize es]
theorem butBracesItems_normalize (vs : List (Json F)) :
    WritableButBracesItems (normalizeItems vs) ↔ WritableButBracesItems vs := by
  match vs with
  | [] => simp [normalizeItems, WritableButBracesItems]
  | v :: vs => simp only [normalizeItems, WritableButBracesItems, butBraces_normalize false v, butBracesItems_normalize vs]
theorem butBracesEntries_normalize (es : List (Str × Json F)) :
    WritableButBracesEntries (normalizeEntries es) ↔ WritableButBracesEntries es := by
  match es with
  | [] => simp [normalizeEntries, WritableButBracesEntries]
  | (k, v) :: es =>
    simp only [normalizeEntries, WritableButBracesEntries, butBraces_normalize true v, butBracesEntries_normalize es,
      normalize_str]
end

theorem decodeStream_brace [LawfulF64 F] {opts : EncOpts} (hi : 0 < opts.indent) (hd : GoodDelim opts.delim) (strict : Bool)
    {v : Json F} (hw : WritableButBraces true v) (hx : HasBraceTable true v) :
    decodeStream (F := F) opts.indent strict (encodeLines opts v) = .error .unterminatedString := by
  obtain ⟨lines, h1, h2⟩ := parseLines_render hi strict (encodeValue opts (normalize v))
    (fun l hl => (linesIn_value hd _ l hl).1) 0
  unfold decodeStream encodeLines encodeJsonValue
  simp only [h1, bind, Except.bind]
  exact decodeLines_brace rfl hd ((butBraces_normalize true v).mpr hw) ((brace_normalize true v).mpr hx) (normal_normalize v) h2

end

end Toon
