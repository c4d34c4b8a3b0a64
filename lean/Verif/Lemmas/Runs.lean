import Verif.Lemmas.CapHeader
import Verif.Lemmas.Brace

/-! What the decoder does with written lines, errors and misread entries included. -/

namespace Toon

section
variable {F : Type} [F64 F]

/-- What a part of the text is read as: an error, or events. -/
abbrev Reading (F : Type) := Except Err (List (Ev F))

/-- One part after another. -/
def Reading.seq (a b : Reading F) : Reading F :=
  match a with
  | .error e => .error e
  | .ok x =>
    match b with
    | .error e => .error e
    | .ok y => .ok (x ++ y)

/-- The decoder's result: the events, and the lines that are left. -/
def Reading.at (r : Reading F) (rest : List Line) (last : Option Line) : Except Err (List (Ev F) × Cur) :=
  match r with
  | .error e => .error e
  | .ok evs => .ok (evs, ⟨rest, last⟩)

/-- Reading one entry. -/
def KVRun (ctx : Ctx) (base : Nat) (c : Str) (tl : List OutLine) (r : Reading F) : Prop :=
  KeyLine c ∧ ∀ ls rest last fuel, Proj ls tl → RestLe base rest → 5 * ls.length + 3 ≤ fuel →
    ∃ last', decodeKV (F := F) ctx fuel c ⟨ls ++ rest, last⟩ base = r.at rest last'

/-- Reading several entries. -/
inductive KVRuns (ctx : Ctx) (base : Nat) : List OutLine → Reading F → Prop
  | nil : KVRuns ctx base [] (.ok [])
  | cons {c : Str} {tl ls : List OutLine} {r rs : Reading F} :
      KVRun ctx base c tl r → KVRuns ctx base ls rs → KVRuns ctx base (⟨base, c⟩ :: tl ++ ls) (r.seq rs)

/-- Reading one list item. -/
def ItemRun (ctx : Ctx) (depth : Nat) (c : Str) (tl : List OutLine) (r : Reading F) : Prop :=
  isListItem c = true ∧ ∀ (l : Line) ls rest last fuel, l.content = c →
    Proj ls tl → RestLe depth rest → 5 * ls.length + 5 ≤ fuel →
    ∃ last', decodeItem (F := F) ctx fuel ⟨l :: ls ++ rest, last⟩ depth = r.at rest last'

/-- Reading several list items. -/
inductive ItemRuns (ctx : Ctx) (depth : Nat) : List OutLine → Nat → Reading F → Prop
  | nil : ItemRuns ctx depth [] 0 (.ok [])
  | cons {c : Str} {tl ls : List OutLine} {n : Nat} {r rs : Reading F} :
      ItemRun ctx depth c tl r → ItemRuns ctx depth ls n rs →
      ItemRuns ctx depth (⟨depth, c⟩ :: tl ++ ls) (n + 1) (r.seq rs)

/-- Reading an array. -/
structure ArrRun (ctx : Ctx) (base : Nat) (c : Str) (tl : List OutLine) (key : Option Str) (r : Reading F) : Prop where
  form : ∃ n fields d suffix, GoodDelim d ∧ c = formatHeader n key fields d ++ suffix
  run : (∃ e, parseArrayHeaderLine c ',' = .error e ∧ r = .error e) ∨
    ∃ h, parseArrayHeaderLine c ',' = .ok (some h) ∧ h.key = key ∧ h.keyQuoted = readQuoted key ∧
      ∀ ls rest last fuel, Proj ls tl → RestLe base rest → 5 * ls.length + 2 ≤ fuel →
        ∃ last', decodeArray (F := F) ctx fuel h ⟨ls ++ rest, last⟩ base = r.at rest last'

/-! ## From the specifications -/

theorem KVSpec.run {ctx : Ctx} {base : Nat} {c : Str} {tl : List OutLine} {k : Str} {v : Json F}
    (h : KVSpec ctx base c tl k v) : KVRun ctx base c tl (.ok (.key k (!isValidUnquotedKey k) :: emitEvents v)) :=
  ⟨h.1, fun ls rest last fuel hp hr hf => h.2 ls rest last fuel hp hr hf⟩

theorem ItemSpec.run {ctx : Ctx} {base : Nat} {c : Str} {tl : List OutLine} {v : Json F}
    (h : ItemSpec ctx base c tl v) : ItemRun ctx base c tl (.ok (emitEvents v)) :=
  ⟨h.1, fun l ls rest last fuel hc hp hr hf => h.2 l ls rest last fuel hc hp hr hf⟩

theorem ArrSpec.arrRun {ctx : Ctx} {base : Nat} {c : Str} {tl : List OutLine} {key : Option Str} {items : List (Json F)}
    (h : ArrSpec ctx base c tl key items) : ArrRun ctx base c tl key (.ok (emitEvents (.arr items))) := by
  obtain ⟨hh, h1, h2, h3, h4⟩ := h.parse
  exact ⟨h.form, Or.inr ⟨hh, h1, h2, h3, fun ls rest last fuel hp hr hf => h4 ls rest last fuel hp hr hf⟩⟩

/-! ## The loops -/

theorem KVRuns.restLe {ctx : Ctx} {base : Nat} {os : List OutLine} {r : Reading F}
    (h : KVRuns ctx base os r) {ls rest : List Line} (hp : Proj ls os) (hr : RestLe base rest) :
    RestLe base (ls ++ rest) := by
  cases h with
  | nil => rw [Proj.nil_iff.mp hp]; exact hr
  | cons h1 h2 =>
    obtain ⟨l, ls', rfl, hd, _⟩ := Proj.cons hp
    intro l' hl'
    simp at hl'; subst hl'
    simp [hd]

theorem ItemRuns.restLe {ctx : Ctx} {base n : Nat} {os : List OutLine} {r : Reading F}
    (h : ItemRuns ctx base os n r) {ls rest : List Line} (hp : Proj ls os) (hr : RestLe base rest) :
    RestLe base (ls ++ rest) := by
  cases h with
  | nil => rw [Proj.nil_iff.mp hp]; exact hr
  | cons h1 h2 =>
    obtain ⟨l, ls', rfl, hd, _⟩ := Proj.cons hp
    intro l' hl'
    simp at hl'; subst hl'
    simp [hd]

theorem KVRuns.fields {ctx : Ctx} {base : Nat} {os : List OutLine} {r : Reading F}
    (h : KVRuns ctx base os r) : ∀ (ls rest : List Line) last fuel comp, Proj ls os →
      (∀ l, rest.head? = some l → l.depth < base) → 5 * ls.length + 1 ≤ fuel →
      (comp = none ∨ comp = some base) →
      ∃ last', decodeFields ctx fuel ⟨ls ++ rest, last⟩ base comp = r.at rest last' := by
  induction h with
  | nil =>
    intro ls rest last fuel comp hp hr hf hc
    rw [Proj.nil_iff.mp hp]
    refine ⟨last, ?_⟩
    obtain ⟨f, rfl⟩ : ∃ f, fuel = f + 1 := ⟨fuel - 1, by omega⟩
    rw [decodeFields]
    cases rest with
    | nil => simp [Reading.at]
    | cons l rest => simp [hr l rfl, Reading.at]
  | @cons c tl os r rs h1 h2 ih =>
    intro ls rest last fuel comp hp hr hf hc
    rw [List.cons_append] at hp
    obtain ⟨l, ls', rfl, hd, hcont, hp⟩ := Proj.cons hp
    obtain ⟨l1, l2, rfl, hp1, hp2⟩ := hp.split
    obtain ⟨f, rfl⟩ : ∃ f, fuel = f + 1 := ⟨fuel - 1, by omega⟩
    simp only [List.length_cons, List.length_append] at hf
    obtain ⟨last1, e1⟩ := h1.2 l1 (l2 ++ rest) (some l) f hp1
      (h2.restLe hp2 fun l hl => Nat.le_of_lt (hr l hl)) (by omega)
    obtain ⟨last2, e2⟩ := ih l2 rest last1 f (some base) hp2 hr (by omega) (Or.inr rfl)
    refine ⟨last2, ?_⟩
    rw [decodeFields]
    simp only [List.cons_append, List.append_assoc, hd, hcont, Nat.lt_irrefl, if_false]
    rw [if_pos (by rcases hc with rfl | rfl <;> rfl)]
    cases r with
    | error e => simp only [e1, bind, Except.bind, Reading.at, Reading.seq]
    | ok evs =>
      simp only [Reading.at] at e1
      cases rs with
      | error e =>
        simp only [Reading.at] at e2
        simp only [e1, e2, bind, Except.bind, Reading.at, Reading.seq]
      | ok evs' =>
        simp only [Reading.at] at e2
        simp only [e1, e2, bind, Except.bind, pure, Except.pure, Reading.at, Reading.seq]

theorem KVRuns.follow {ctx : Ctx} {base : Nat} {os : List OutLine} {r : Reading F}
    (h : KVRuns ctx base os r) : ∀ (ls rest : List Line) last fuel, Proj ls os →
      (∀ l, rest.head? = some l → l.depth < base) → 5 * ls.length + 1 ≤ fuel →
      ∃ last', followLoop ctx fuel ⟨ls ++ rest, last⟩ base = r.at rest last' := by
  induction h with
  | nil =>
    intro ls rest last fuel hp hr hf
    rw [Proj.nil_iff.mp hp]
    refine ⟨last, ?_⟩
    obtain ⟨f, rfl⟩ : ∃ f, fuel = f + 1 := ⟨fuel - 1, by omega⟩
    rw [followLoop]
    cases rest with
    | nil => simp [Reading.at]
    | cons l rest => simp [hr l rfl, Reading.at]
  | @cons c tl os r rs h1 h2 ih =>
    intro ls rest last fuel hp hr hf
    rw [List.cons_append] at hp
    obtain ⟨l, ls', rfl, hd, hcont, hp⟩ := Proj.cons hp
    obtain ⟨l1, l2, rfl, hp1, hp2⟩ := hp.split
    obtain ⟨f, rfl⟩ : ∃ f, fuel = f + 1 := ⟨fuel - 1, by omega⟩
    simp only [List.length_cons, List.length_append] at hf
    obtain ⟨last1, e1⟩ := h1.2 l1 (l2 ++ rest) (some l) f hp1
      (h2.restLe hp2 fun l hl => Nat.le_of_lt (hr l hl)) (by omega)
    obtain ⟨last2, e2⟩ := ih l2 rest last1 f hp2 hr (by omega)
    refine ⟨last2, ?_⟩
    rw [followLoop]
    simp only [List.cons_append, List.append_assoc, hd, hcont, Nat.lt_irrefl, if_false, h1.1.dash,
      BEq.rfl, Bool.not_false, Bool.and_self, if_true]
    cases r with
    | error e => simp only [e1, bind, Except.bind, Reading.at, Reading.seq]
    | ok evs =>
      simp only [Reading.at] at e1
      cases rs with
      | error e =>
        simp only [Reading.at] at e2
        simp only [e1, e2, bind, Except.bind, Reading.at, Reading.seq]
      | ok evs' =>
        simp only [Reading.at] at e2
        simp only [e1, e2, bind, Except.bind, pure, Except.pure, Reading.at, Reading.seq]

theorem KVRuns.root {ctx : Ctx} {os : List OutLine} {r : Reading F}
    (h : KVRuns ctx 0 os r) : ∀ (ls : List Line) last fuel, Proj ls os → 5 * ls.length + 1 ≤ fuel →
      ∃ last', rootLoop ctx fuel ⟨ls, last⟩ = r.at [] last' := by
  generalize hb : 0 = base at h
  induction h with
  | nil =>
    intro ls last fuel hp hf
    rw [Proj.nil_iff.mp hp]
    refine ⟨last, ?_⟩
    obtain ⟨f, rfl⟩ : ∃ f, fuel = f + 1 := ⟨fuel - 1, by omega⟩
    rw [rootLoop]
    simp [Reading.at]
  | @cons c tl os r rs h1 h2 ih =>
    intro ls last fuel hp hf
    subst hb
    rw [List.cons_append] at hp
    obtain ⟨l, ls', rfl, hd, hcont, hp⟩ := Proj.cons hp
    obtain ⟨l1, l2, rfl, hp1, hp2⟩ := hp.split
    obtain ⟨f, rfl⟩ : ∃ f, fuel = f + 1 := ⟨fuel - 1, by omega⟩
    simp only [List.length_cons, List.length_append] at hf
    have hr : RestLe 0 (l2 ++ []) := h2.restLe hp2 (by intro l hl; simp at hl)
    rw [List.append_nil] at hr
    obtain ⟨last1, e1⟩ := h1.2 l1 l2 (some l) f hp1 hr (by omega)
    obtain ⟨last2, e2⟩ := ih l2 last1 f hp2 (by omega)
    refine ⟨last2, ?_⟩
    rw [rootLoop]
    simp only [hd, hcont, ne_eq, not_true_eq_false, if_false]
    cases r with
    | error e => simp only [e1, bind, Except.bind, Reading.at, Reading.seq]
    | ok evs =>
      simp only [Reading.at] at e1
      cases rs with
      | error e =>
        simp only [Reading.at] at e2
        simp only [e1, e2, bind, Except.bind, Reading.at, Reading.seq]
      | ok evs' =>
        simp only [Reading.at] at e2
        simp only [e1, e2, bind, Except.bind, pure, Except.pure, Reading.at, Reading.seq]

theorem ItemRuns.loop {ctx : Ctx} {depth n : Nat} {os : List OutLine} {r : Reading F}
    (h : ItemRuns ctx depth os n r) : ∀ (ls rest : List Line) last fuel length count start e, Proj ls os →
      RestLe depth rest → 5 * ls.length + 1 ≤ fuel → length = count + n →
      ∃ last' start' e', listLoop ctx fuel length depth ⟨ls ++ rest, last⟩ count start e =
        match r with
        | .error x => .error x
        | .ok evs => .ok ⟨evs, ⟨rest, last'⟩, length, start', e'⟩ := by
  induction h with
  | nil =>
    intro ls rest last fuel length count start e hp hr hf hl
    rw [Proj.nil_iff.mp hp]
    simp only [Nat.add_zero] at hl
    subst hl
    refine ⟨last, start, e, ?_⟩
    obtain ⟨f, rfl⟩ : ∃ f, fuel = f + 1 := ⟨fuel - 1, by omega⟩
    rw [listLoop]
    cases rest with
    | nil => simp
    | cons l rest => simp
  | @cons c tl os n r rs h1 h2 ih =>
    intro ls rest last fuel length count start e hp hr hf hlen
    rw [List.cons_append] at hp
    obtain ⟨l, ls', rfl, hd, hcont, hp⟩ := Proj.cons hp
    obtain ⟨l1, l2, rfl, hp1, hp2⟩ := hp.split
    obtain ⟨f, rfl⟩ : ∃ f, fuel = f + 1 := ⟨fuel - 1, by omega⟩
    simp only [List.length_cons, List.length_append] at hf
    obtain ⟨last1, e1⟩ := h1.2 l l1 (l2 ++ rest) last f hcont hp1 (h2.restLe hp2 hr) (by omega)
    obtain ⟨last2, s2, n2, e2⟩ := ih l2 rest last1 f length (count + 1)
      (match (generalizing := false) start with
        | none => some l.num
        | some s => some s)
      (match (generalizing := false) last1 with
        | some l => some l.num
        | none => some l.num) hp2 hr (by omega) (by omega)
    refine ⟨last2, s2, n2, ?_⟩
    rw [listLoop]
    simp only [List.cons_append, List.append_assoc, hd, hcont, Nat.lt_irrefl, if_false, h1.1,
      BEq.rfl, Bool.and_self, if_true, show count < length by omega]
    rw [List.cons_append] at e1
    cases r with
    | error x => simp only [e1, bind, Except.bind, Reading.at, Reading.seq]
    | ok evs =>
      simp only [Reading.at] at e1
      simp only [e1, bind, Except.bind]
      cases rs with
      | error x =>
        cases start <;> cases last1 <;>
          (simp only at e2 ⊢; rw [e2]; simp only [Reading.seq])
      | ok evs' =>
        cases start <;> cases last1 <;>
          (simp only at e2 ⊢; rw [e2]; simp only [pure, Except.pure, Reading.seq])

/-! ## Pieces -/

theorem arrRun_list {ctx : Ctx} (hb : ctx.blanks = []) {base : Nat} {d : Char} (hd : GoodDelim d) {key : Option Str}
    {n : Nat} {tl : List OutLine} {r : Reading F} (hn : n ≤ maxDeclaredLength)
    (h : ItemRuns ctx (base + 1) tl n r) :
    ArrRun ctx base (formatHeader n key none d) tl key
      (Reading.seq (.ok [.startArr n]) (r.seq (.ok [.endArr]))) := by
  refine ⟨⟨_, _, _, [], hd, (List.append_nil _).symm⟩, Or.inr ?_⟩
  have hp := parseHeader_format hn key (fields := none) hd (by simp) []
  rw [List.append_nil] at hp
  refine ⟨_, hp, rfl, rfl, ?_⟩
  intro ls rest last fuel hpj hr hf
  obtain ⟨f, rfl⟩ : ∃ f, fuel = f + 1 := ⟨fuel - 1, by omega⟩
  obtain ⟨last', s', e', hl⟩ := h.loop ls rest last f n 0 none none hpj (hr.mono (by omega)) (by omega) (by omega)
  refine ⟨last', ?_⟩
  rw [decodeArray]
  rw [show (trim []).isEmpty = true by decide]
  simp only [if_true, readFields, Option.map_none, Option.getD_none, List.isEmpty_nil]
  cases r with
  | error x => simp only at hl; simp only [hl, bind, Except.bind, Reading.seq, Reading.at]
  | ok evs =>
    simp only at hl
    simp only [hl, bind, Except.bind, assertCount_self, checkBlanks_nil hb, noExtraItems_le hr, pure, Except.pure,
      Reading.seq, Reading.at, List.cons_append, List.nil_append]

theorem arrRun_error {ctx : Ctx} {base n : Nat} {d : Char} (hd : GoodDelim d) {key : Option Str}
    {fields : Option (List Str)} {suffix : Str} {e : Err}
    (h : parseArrayHeaderLine (formatHeader n key fields d ++ suffix) ',' = .error e) (tl : List OutLine) :
    ArrRun (F := F) ctx base (formatHeader n key fields d ++ suffix) tl key (.error e) :=
  ⟨⟨_, _, _, _, hd, rfl⟩, Or.inl ⟨e, h, rfl⟩⟩

theorem kvRun_arr {ctx : Ctx} {depth : Nat} {k c : Str} {tl : List OutLine} {r : Reading F}
    (h : ArrRun ctx depth c tl (some k) r) :
    KVRun ctx depth c tl (Reading.seq (.ok [.key k (!isValidUnquotedKey k)]) r) := by
  obtain ⟨n, fields, d, suffix, hd, hform⟩ := h.form
  refine ⟨by rw [hform]; exact keyLine_header n k fields hd suffix, ?_⟩
  intro ls rest last fuel hpj hr hf
  obtain ⟨f, rfl⟩ : ∃ f, fuel = f + 1 := ⟨fuel - 1, by omega⟩
  rw [decodeKV]
  rcases h.run with ⟨e, hp, rfl⟩ | ⟨hh, hparse, hkey, hq, hdec⟩
  · exact ⟨none, by simp only [hp, bind, Except.bind, Reading.seq, Reading.at]⟩
  · obtain ⟨last', e⟩ := hdec ls rest last f hpj hr (by omega)
    refine ⟨last', ?_⟩
    cases r with
    | error x =>
      simp only [Reading.at] at e
      simp only [hparse, bind, Except.bind, keyedHeader, hkey, e, Reading.seq, Reading.at]
    | ok evs =>
      simp only [Reading.at] at e
      simp only [hparse, bind, Except.bind, keyedHeader, hkey, e, pure, Except.pure, hq, readQuoted, Reading.seq,
        Reading.at, List.cons_append, List.nil_append]

theorem kvRun_obj {ctx : Ctx} {depth : Nat} {k : Str} {os : List OutLine} {r : Reading F}
    (h : KVRuns ctx (depth + 1) os r) :
    KVRun ctx depth (encodeKey k ++ [':']) os
      (Reading.seq (.ok [.key k (!isValidUnquotedKey k), .startObj]) (r.seq (.ok [.endObj]))) := by
  refine ⟨keyLine_colon k [], ?_⟩
  intro ls rest last fuel hpj hr hf
  obtain ⟨f, rfl⟩ : ∃ f, fuel = f + 1 := ⟨fuel - 1, by omega⟩
  obtain ⟨last', e⟩ := h.fields ls rest last f none hpj (fun l hl => Nat.lt_succ_of_le (hr l hl)) (by omega) (Or.inl rfl)
  have hdrop := drop_keyColon k []
  have hkey := parseKeyToken_encode k []
  rw [decodeKV]
  simp only [parseHeader_keyOnly, bind, Except.bind, keyedHeader, hkey, hdrop]
  rw [if_pos (by decide)]
  cases h with
  | nil =>
    rw [Proj.nil_iff.mp hpj]
    refine ⟨last, ?_⟩
    cases rest with
    | nil => simp [pure, Except.pure, Reading.seq, Reading.at]
    | cons l rest =>
      simp [pure, Except.pure, Reading.seq, Reading.at, Nat.not_lt.mpr (hr l rfl)]
  | cons h1 h2 =>
    obtain ⟨l, ls', rfl, hd, _, _⟩ := Proj.cons hpj
    refine ⟨last', ?_⟩
    simp only [List.cons_append] at e ⊢
    rw [if_pos (by rw [hd]; simp)]
    generalize Reading.seq _ _ = r' at e ⊢
    cases r' with
    | error x => simp only [Reading.at] at e; simp only [e, Reading.seq, Reading.at]
    | ok evs =>
      simp only [Reading.at] at e
      simp only [e, pure, Except.pure, Reading.seq, Reading.at, List.cons_append, List.nil_append]

theorem itemRun_arr {ctx : Ctx} {depth : Nat} {c : Str} {tl : List OutLine} {r : Reading F}
    (h : ArrRun ctx depth c tl none r) : ItemRun ctx depth (dash c) tl r := by
  refine ⟨dash_item _, ?_⟩
  intro l ls rest last fuel hc hpj hr hf
  obtain ⟨f, rfl⟩ : ∃ f, fuel = f + 1 := ⟨fuel - 1, by omega⟩
  obtain ⟨n, fields, d, suffix, hd, hform⟩ := h.form
  have harr : isArrayHeaderContent c = true := by rw [hform]; exact arrayHeader_none n fields hd suffix
  have hne : (trim c).isEmpty = false := by
    rw [hform]
    apply Bool.eq_false_iff.mpr
    intro he
    have he := trim_eq_nil_iff.mp (List.isEmpty_iff.mp he)
    have := List.all_eq_true.mp he ':' (by rw [formatHeader_eq]; simp)
    simp [isWs] at this
  rw [decodeItem]
  simp only [List.cons_append, hc, dash_ne, if_false, dash_start, if_true, dash_drop, hne, Bool.false_eq_true, harr]
  rcases h.run with ⟨e, hp, rfl⟩ | ⟨hh, hparse, hkey, hq, hdec⟩
  · exact ⟨none, by simp only [hp, bind, Except.bind, Reading.at]⟩
  · obtain ⟨last', e⟩ := hdec ls rest (some l) f hpj hr (by omega)
    exact ⟨last', by simp only [hparse, bind, Except.bind, e]⟩

theorem itemRun_obj {ctx : Ctx} {depth : Nat} {c : Str} {tl os : List OutLine} {r rs : Reading F}
    (h : KVRun ctx (depth + 1) c tl r) (hes : KVRuns ctx (depth + 1) os rs) :
    ItemRun ctx depth (dash c) (tl ++ os)
      (Reading.seq (.ok [.startObj]) (r.seq (rs.seq (.ok [.endObj])))) := by
  refine ⟨dash_item _, ?_⟩
  intro l ls rest last fuel hc hpj hr hf
  obtain ⟨hk, hdec⟩ := h
  obtain ⟨l1, l2, rfl, hp1, hp2⟩ := hpj.split
  simp only [List.length_append] at hf
  obtain ⟨f, rfl⟩ : ∃ f, fuel = f + 1 := ⟨fuel - 1, by omega⟩
  have hr1 : RestLe (depth + 1) (l2 ++ rest) := hes.restLe hp2 fun l hl => Nat.le_succ_of_le (hr l hl)
  have hr2 : ∀ l, rest.head? = some l → l.depth < depth + 1 := fun l hl => Nat.lt_succ_of_le (hr l hl)
  have plain : ∃ last', decodeItemRest (F := F) ctx f c ⟨l1 ++ (l2 ++ rest), some l⟩ depth =
      (Reading.seq (.ok [.startObj]) (r.seq (rs.seq (.ok [.endObj])))).at rest last' := by
    obtain ⟨g, rfl⟩ : ∃ g, f = g + 1 := ⟨f - 1, by omega⟩
    obtain ⟨last1, e1⟩ := hdec l1 (l2 ++ rest) (some l) g hp1 hr1 (by omega)
    obtain ⟨last2, e2⟩ := hes.follow l2 rest last1 g hp2 hr2 (by omega)
    refine ⟨last2, ?_⟩
    rw [decodeItemRest]
    cases r with
    | error x =>
      simp only [Reading.at] at e1
      simp only [hk.kv, if_true, e1, bind, Except.bind, Reading.seq, Reading.at]
    | ok evs =>
      simp only [Reading.at] at e1
      cases rs with
      | error x =>
        simp only [Reading.at] at e2
        simp only [hk.kv, if_true, e1, e2, bind, Except.bind, Reading.seq, Reading.at]
      | ok evs' =>
        simp only [Reading.at] at e2
        simp only [hk.kv, if_true, e1, e2, bind, Except.bind, pure, Except.pure, Reading.seq, Reading.at,
          List.cons_append, List.nil_append, List.append_assoc]
  obtain ⟨last1, e1⟩ := hdec l1 (l2 ++ rest) (some l) (f + 1) hp1 hr1 (by omega)
  obtain ⟨last2, e2⟩ := hes.follow l2 rest last1 f hp2 hr2 (by omega)
  rw [decodeItem]
  simp only [List.cons_append, List.append_assoc, hc, dash_ne, if_false, dash_start, if_true, dash_drop, hk.ne, Bool.false_eq_true,
    hk.arr, bind, Except.bind]
  rw [decodeKV] at e1
  simp only [bind, Except.bind] at e1
  cases hh : parseArrayHeaderLine c ',' with
  | error e =>
    simp only [hh] at e1 ⊢
    cases r with
    | error x => simp only [Reading.at, Except.error.injEq] at e1; subst e1; exact ⟨none, rfl⟩
    | ok evs => simp [Reading.at] at e1
  | ok hdr =>
    simp only [hh] at e1 ⊢
    cases hkh : keyedHeader hdr with
    | none => simpa using plain
    | some kh =>
      obtain ⟨key, h⟩ := kh
      simp only [hkh] at e1 ⊢
      split
      · cases ha : decodeArray (F := F) ctx f h ⟨l1 ++ (l2 ++ rest), some l⟩ (depth + 1) with
        | error e =>
          simp only [ha] at e1
          cases r with
          | error x => simp only [Reading.at, Except.error.injEq] at e1; subst e1; exact ⟨none, rfl⟩
          | ok evs => simp [Reading.at] at e1
        | ok p =>
          cases r with
          | error x => simp [ha, Reading.at, pure, Except.pure] at e1
          | ok evs =>
            simp only [ha, pure, Except.pure, Reading.at, Except.ok.injEq, Prod.mk.injEq] at e1
            obtain ⟨hev, hcur⟩ := e1
            refine ⟨last2, ?_⟩
            subst hev
            cases rs with
            | error x =>
              simp only [Reading.at] at e2
              simp only [hcur, e2, Reading.seq, Reading.at]
            | ok evs' =>
              simp only [Reading.at] at e2
              simp only [hcur, e2, pure, Except.pure, Reading.seq, Reading.at, List.cons_append, List.nil_append,
                List.append_assoc]
      · exact plain

/-- An entry whose string looks like a header. -/
theorem kvRun_misread {ctx : Ctx} {depth : Nat} {k s : Str} (hk : isValidUnquotedKey k = true) (hs : headerLike s = true) :
    ∃ r : Reading F, KVRun ctx depth (encodeKey k ++ ':' :: ' ' :: quoted s) [] r ∧
      ∀ evs, r = .ok evs → ∃ (k' : Str) (h : Header) (t : Str) (items : List (Ev F)),
        evs = .key k' false :: .startArr h.length :: items ++ [.endArr] ∧ k.length < k'.length ∧ ':' ∈ k' ∧
        decodeInline h t ctx.strict = .ok items := by
  have hkl := keyLine_colon k (' ' :: quoted s)
  rw [encodeKey_valid hk] at hkl ⊢
  rcases (parseHeader_quotedValue hk s).2 hs with ⟨e, he⟩ | ⟨h, hp, k', hkey, hcol, hq, hlt⟩
  · refine ⟨.error e, ⟨hkl, ?_⟩, by simp⟩
    intro ls rest last fuel hpj hr hf
    obtain ⟨f, rfl⟩ : ∃ f, fuel = f + 1 := ⟨fuel - 1, by omega⟩
    rw [decodeKV]
    exact ⟨none, by simp only [he, bind, Except.bind, Reading.at]⟩
  · obtain ⟨t, ht⟩ := parseHeader_inline (c := k ++ ':' :: ' ' :: '"' :: escapeString s) (h := h) (by
      rw [← hp]; congr 1; simp [quoted])
    cases hi : decodeInline (F := F) h t ctx.strict with
    | error e =>
      refine ⟨.error e, ⟨hkl, ?_⟩, by simp⟩
      intro ls rest last fuel hpj hr hf
      obtain ⟨f, rfl⟩ : ∃ f, fuel = f + 2 := ⟨fuel - 2, by omega⟩
      rw [decodeKV]
      simp only [hp, bind, Except.bind, keyedHeader, hkey]
      rw [decodeArray]
      simp only [ht, hi, bind, Except.bind, Reading.at]
      exact ⟨none, trivial⟩
    | ok evs =>
      refine ⟨.ok (.key k' h.keyQuoted :: .startArr h.length :: evs ++ [.endArr]), ⟨hkl, ?_⟩, ?_⟩
      · intro ls rest last fuel hpj hr hf
        rw [Proj.nil_iff.mp hpj]
        obtain ⟨f, rfl⟩ : ∃ f, fuel = f + 2 := ⟨fuel - 2, by omega⟩
        refine ⟨last, ?_⟩
        rw [decodeKV]
        simp only [hp, bind, Except.bind, keyedHeader, hkey]
        rw [decodeArray]
        simp only [ht, hi, bind, Except.bind, pure, Except.pure, Reading.at, List.nil_append, List.cons_append]
      · intro evs' he
        simp only [Except.ok.injEq] at he
        exact ⟨k', h, t, evs, by rw [← he, hq], hlt, hcol, hi⟩

end

end Toon
