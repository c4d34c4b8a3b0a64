import Verif.Lemmas.DecodeAll
import Verif.Lemmas.Header
import Verif.Spec.Declares

/-! Every start-of-array event of the decoder carries a length that is written in some line. -/

namespace Toon

theorem findChar_split {c : Char} {t : Str} {k : Nat} (h : findChar c t = some k) :
    t = t.take k ++ c :: t.drop (k + 1) := by
  induction t generalizing k with
  | nil => simp [findChar] at h
  | cons x t ih =>
    simp only [findChar] at h
    split at h
    · rename_i hx; simp at h; subst h; simp [hx]
    · cases hk : findChar c t with
      | none => rw [hk] at h; simp at h
      | some m =>
        rw [hk] at h
        simp at h
        subst h
        simp only [List.take_succ_cons, List.drop_succ_cons, List.cons_append, List.cons.injEq, true_and]
        exact ih hk

theorem findFrom_some {c : Char} {s : Str} {i j : Nat} (h : findFrom c s i = some j) :
    i ≤ j ∧ s = s.take j ++ c :: s.drop (j + 1) := by
  unfold findFrom at h
  cases hf : findChar c (s.drop i) with
  | none => rw [hf] at h; simp at h
  | some k =>
    rw [hf] at h
    simp only [Option.map_some, Option.some.injEq] at h
    subst h
    refine ⟨by omega, ?_⟩
    have h1 := findChar_split hf
    rw [List.take_add, List.append_assoc]
    conv => lhs; rw [← List.take_append_drop i s, h1]
    rw [List.drop_drop]
    simp [Nat.add_assoc]

theorem findChar_from {c : Char} {s : Str} : findChar c s = findFrom c s 0 := by
  simp [findFrom]

theorem findBracketStart_some {content : Str} {b : Nat} (h : findBracketStart content = .ok (some b)) :
    content = content.take b ++ '[' :: content.drop (b + 1) := by
  unfold findBracketStart at h
  simp only at h
  split at h
  · split at h
    · simp at h
    · split at h
      · simp at h
      · simp only [Except.ok.injEq] at h
        exact (findFrom_some h).2
  · simp only [Except.ok.injEq] at h
    rw [findChar_from] at h
    exact (findFrom_some h).2

theorem digitsVal_eq (ds : Str) : digitsVal ds = decimalValue ds 0 := by
  rw [decimalValue_eq]; rfl

theorem parseUsize_some {s : Str} {n : Nat} (h : parseUsize s = some n) :
    ∃ plus digits : Str, s = plus ++ digits ∧ (plus = [] ∨ plus = ['+']) ∧ digits ≠ [] ∧
      (∀ c ∈ digits, '0' ≤ c ∧ c ≤ '9') ∧ decimalValue digits 0 = n := by
  have digit : ∀ {ds : Str}, ds.all Char.isDigit = true → ∀ c ∈ ds, '0' ≤ c ∧ c ≤ '9' := by
    intro ds hd c hc
    have := List.all_eq_true.mp hd c hc
    simp only [Char.isDigit, Bool.and_eq_true, decide_eq_true_eq, ge_iff_le] at this
    exact this
  unfold parseUsize at h
  simp only at h
  split at h
  · rename_i rest
    split at h
    · simp at h
    · rename_i hne
      split at h
      · rename_i hd
        split at h
        · simp only [Option.some.injEq] at h
          exact ⟨['+'], rest, rfl, Or.inr rfl, by simpa using hne, digit hd, by rw [← digitsVal_eq]; exact h⟩
        · simp at h
      · simp at h
  · split at h
    · simp at h
    · rename_i hne
      split at h
      · rename_i hd
        split at h
        · simp only [Option.some.injEq] at h
          exact ⟨[], s, rfl, Or.inl rfl, by simpa using hne, digit hd, by rw [← digitsVal_eq]; exact h⟩
        · simp at h
      · simp at h

theorem parseBracket_some {seg : Str} {d0 d : Char} {n : Nat} (h : parseBracketSegment seg d0 = some (n, d)) :
    ∃ plus digits mark : Str, seg = plus ++ digits ++ mark ∧ (plus = [] ∨ plus = ['+']) ∧
      (mark = [] ∨ mark = ['|'] ∨ mark = ['\t']) ∧ digits ≠ [] ∧
      (∀ c ∈ digits, '0' ≤ c ∧ c ≤ '9') ∧ decimalValue digits 0 = n := by
  have last : ∀ {c : Char}, seg.getLast? = some c → seg = seg.dropLast ++ [c] := by
    intro c hc
    have hne : seg ≠ [] := by rintro rfl; simp at hc
    have := List.dropLast_concat_getLast hne
    rw [List.getLast?_eq_some_getLast hne] at hc
    simp only [Option.some.injEq] at hc
    rw [hc] at this
    exact this.symm
  unfold parseBracketSegment at h
  split at h
  · rename_i hl
    cases hu : parseUsize seg.dropLast with
    | none => rw [hu] at h; simp at h
    | some m =>
      rw [hu] at h; simp at h; obtain ⟨rfl, rfl⟩ := h
      obtain ⟨p, ds, h1, h2, h3, h4, h5⟩ := parseUsize_some hu
      exact ⟨p, ds, ['\t'], by rw [← h1]; exact last hl, h2, by simp, h3, h4, h5⟩
  · rename_i hl
    cases hu : parseUsize seg.dropLast with
    | none => rw [hu] at h; simp at h
    | some m =>
      rw [hu] at h; simp at h; obtain ⟨rfl, rfl⟩ := h
      obtain ⟨p, ds, h1, h2, h3, h4, h5⟩ := parseUsize_some hu
      exact ⟨p, ds, ['|'], by rw [← h1]; exact last hl, h2, by simp, h3, h4, h5⟩
  · cases hu : parseUsize seg with
    | none => rw [hu] at h; simp at h
    | some m =>
      rw [hu] at h; simp at h; obtain ⟨rfl, rfl⟩ := h
      obtain ⟨p, ds, h1, h2, h3, h4, h5⟩ := parseUsize_some hu
      exact ⟨p, ds, [], by simpa using h1, h2, by simp, h3, h4, h5⟩

theorem parseHeader_declares {content : Str} {d : Char} {h : Header}
    (hp : parseArrayHeaderLine content d = .ok (some h)) : Declares content h.length := by
  unfold parseArrayHeaderLine at hp
  split at hp
  · simp at hp
  · simp at hp
  · rename_i b hb
    split at hp
    · simp at hp
    · rename_i e he
      split at hp
      · simp at hp
      · split at hp
        · simp at hp
        · simp only at hp
          split at hp
          · simp at hp
          · rename_i len dl hs
            split at hp
            · simp at hp
            · split at hp
              · simp at hp
              · simp only [Except.ok.injEq, Option.some.injEq] at hp
                subst hp
                simp only
                obtain ⟨p, ds, m, h1, h2, h3, h4, h5, h6⟩ := parseBracket_some hs
                have e1 := findBracketStart_some hb
                obtain ⟨hle, e2⟩ := findFrom_some he
                refine ⟨content.take b, p, ds, m, content.drop (e + 1), ?_, h2, h3, h4, h5, h6⟩
                rw [← h1]
                have hne : b ≠ e := by
                  rintro rfl
                  have := e1.symm.trans e2
                  simp at this
                have hlt : b < e := by omega
                have : content.take e = content.take b ++ '[' :: slice content (b + 1) e := by
                  have : content.take e = content.take b ++ (content.drop b).take (e - b) := by
                    rw [← List.take_add]; congr 1; omega
                  rw [this]
                  congr 1
                  have hd : content.drop b = '[' :: content.drop (b + 1) := by
                    have hb' : b = (content.take b).length := by
                      have : b < content.length := by
                        have := congrArg List.length e2
                        simp at this; omega
                      simp; omega
                    conv => lhs; rw [e1]
                    conv => lhs; lhs; rw [hb']
                    rw [List.drop_left]
                  rw [hd, show e - b = (e - (b + 1)) + 1 by omega, List.take_succ_cons]
                  rfl
                conv => lhs; rw [e2, this]

theorem Declares.append_left {s : Str} {n : Nat} (h : Declares s n) (pre : Str) : Declares (pre ++ s) n := by
  obtain ⟨a, p, ds, m, b, h1, h2⟩ := h
  exact ⟨pre ++ a, p, ds, m, b, by rw [h1]; simp, h2⟩

theorem Declares.of_drop {s : Str} {n i : Nat} (h : Declares (s.drop i) n) : Declares s n := by
  have := h.append_left (s.take i)
  rwa [List.take_append_drop] at this

section
variable {F : Type} [F64 F]

/-- All start-of-array events of a list satisfy `D`. -/
def StartIn (D : Nat → Prop) (evs : List (Ev F)) : Prop := ∀ n, Ev.startArr n ∈ evs → D n

omit [F64 F] in
theorem startIn_items {D : Nat → Prop} {evs : List (Ev F)} (h : ∀ e ∈ evs, ∀ n, e ≠ .startArr n) : StartIn D evs :=
  fun n hn => absurd rfl (h _ hn n)

theorem decodeInline_startIn {D : Nat → Prop} {h : Header} {s : Str} {strict : Bool} {evs : List (Ev F)}
    (hd : decodeInline h s strict = .ok evs) : StartIn D evs := by
  unfold decodeInline at hd
  split at hd
  · obtain ⟨u, h1, h2⟩ := bind_ok.mp hd
    rw [pure_ok] at h2; subst h2
    intro n hn; simp at hn
  · obtain ⟨ps, h1, h2⟩ := bind_ok.mp hd
    obtain ⟨u, h3, h4⟩ := bind_ok.mp h2
    rw [pure_ok] at h4; subst h4
    intro n hn; simp at hn

omit [F64 F] in
theorem fieldEvents_startIn {D : Nat → Prop} (fs : List FieldName) (ps : List (Prim F)) : StartIn D (fieldEvents fs ps) := by
  induction fs generalizing ps with
  | nil => intro n hn; cases ps <;> simp [fieldEvents] at hn
  | cons f fs ih =>
    intro n hn
    cases ps with
    | nil => simp [fieldEvents] at hn; exact ih _ n hn
    | cons p ps => simp [fieldEvents] at hn; exact ih _ n hn

theorem tabularLoop_startIn {D : Nat → Prop} (ctx : Ctx) (fields : List FieldName) (d : Char) (length rowDepth : Nat)
    (rest : List Line) (last : Option Line) (count : Nat) (s e : Option Nat) {out : LoopOut F}
    (h : tabularLoop ctx fields d length rowDepth rest last count s e = .ok out) : StartIn D out.evs := by
  induction rest generalizing last count s e out with
  | nil =>
    rw [tabularLoop] at h
    simp only [Except.ok.injEq] at h
    subst h
    intro n hn; simp at hn
  | cons line rest ih =>
    rw [tabularLoop.eq_def] at h
    simp only at h
    have stop : ∀ {out : LoopOut F}, Except.ok (ε := Err) (LoopOut.mk [] ⟨line :: rest, last⟩ count s e) = .ok out →
        StartIn D out.evs := by
      intro out h
      simp only [Except.ok.injEq] at h
      subst h
      intro n hn; simp at hn
    split at h
    · split at h
      · exact stop h
      · split at h
        · obtain ⟨u, _, h⟩ := bind_ok.mp h
          obtain ⟨ps, hps, h⟩ := bind_ok.mp h
          obtain ⟨out', ho, h⟩ := bind_ok.mp h
          rw [pure_ok] at h
          subst h
          intro n hn
          simp at hn
          rcases hn with hn | hn
          · exact fieldEvents_startIn fields ps n hn
          · exact ih _ _ _ _ ho n hn
        · exact stop h
    · exact stop h

theorem decodeTabular_startIn {D : Nat → Prop} (ctx : Ctx) (h : Header) (fields : List FieldName) (cur : Cur) (base : Nat)
    {evs : List (Ev F)} {cur' : Cur} (hd : decodeTabular ctx h fields cur base = .ok (evs, cur')) : StartIn D evs := by
  unfold decodeTabular at hd
  obtain ⟨out, h1, hd⟩ := bind_ok.mp hd
  obtain ⟨_, h2, hd⟩ := bind_ok.mp hd
  obtain ⟨_, h3, hd⟩ := bind_ok.mp hd
  obtain ⟨_, h4, hd⟩ := bind_ok.mp hd
  rw [pure_ok] at hd
  simp only [Prod.mk.injEq] at hd
  obtain ⟨rfl, rfl⟩ := hd
  exact tabularLoop_startIn ctx fields _ _ _ _ _ _ _ _ h1

/-- The lengths written in a text satisfy `D`. -/
def DContent (D : Nat → Prop) (s : Str) : Prop := ∀ n, Declares s n → D n

/-- The lengths written in the lines ahead satisfy `D`. -/
def DCur (D : Nat → Prop) (cur : Cur) : Prop := ∀ l ∈ cur.rest, DContent D l.content

omit [F64 F] in
theorem DCur.mono {D : Nat → Prop} {a b : Cur} (h : DCur D b) (hc : CurLe a b) : DCur D a :=
  fun l hl => h l (hc.suffix.subset hl)

omit [F64 F] in
theorem DContent.drop {D : Nat → Prop} {s : Str} (h : DContent D s) (i : Nat) : DContent D (s.drop i) :=
  fun n hn => h n hn.of_drop

structure StartClaims (F : Type) [F64 F] (D : Nat → Prop) (ctx : Ctx) (fuel : Nat) : Prop where
  kv : ∀ content cur base (evs : List (Ev F)) cur', DContent D content → DCur D cur →
    decodeKV ctx fuel content cur base = .ok (evs, cur') → StartIn D evs
  fields : ∀ cur base comp (evs : List (Ev F)) cur', DCur D cur →
    decodeFields ctx fuel cur base comp = .ok (evs, cur') → StartIn D evs
  array : ∀ h cur base (evs : List (Ev F)) cur', D h.length → h.length ≤ maxDeclaredLength → DCur D cur →
    decodeArray ctx fuel h cur base = .ok (evs, cur') → StartIn D evs
  list : ∀ length depth cur count s e (out : LoopOut F), DCur D cur →
    listLoop ctx fuel length depth cur count s e = .ok out → StartIn D out.evs
  item : ∀ cur base (evs : List (Ev F)) cur', DCur D cur →
    decodeItem ctx fuel cur base = .ok (evs, cur') → StartIn D evs
  itemRest : ∀ after cur base (evs : List (Ev F)) cur', DContent D after → DCur D cur →
    decodeItemRest ctx fuel after cur base = .ok (evs, cur') → StartIn D evs
  follow : ∀ cur depth (evs : List (Ev F)) cur', DCur D cur →
    followLoop ctx fuel cur depth = .ok (evs, cur') → StartIn D evs

omit [F64 F] in
theorem StartIn.nil {D : Nat → Prop} : StartIn (F := F) D [] := fun n hn => by simp at hn

omit [F64 F] in
theorem StartIn.append {D : Nat → Prop} {a b : List (Ev F)} (ha : StartIn D a) (hb : StartIn D b) : StartIn D (a ++ b) := by
  intro n hn
  rcases List.mem_append.mp hn with h | h
  · exact ha n h
  · exact hb n h

omit [F64 F] in
theorem StartIn.cons {D : Nat → Prop} {e : Ev F} {b : List (Ev F)} (he : ∀ n, e ≠ .startArr n) (hb : StartIn D b) :
    StartIn D (e :: b) := by
  intro n hn
  rcases List.mem_cons.mp hn with h | h
  · exact absurd h.symm (he n)
  · exact hb n h

omit [F64 F] in
theorem StartIn.arr {D : Nat → Prop} {m : Nat} {b : List (Ev F)} (hm : D m) (hb : StartIn D b) :
    StartIn D (.startArr m :: b ++ [.endArr]) := by
  intro n hn
  simp at hn
  rcases hn with rfl | h
  · exact hm
  · exact hb n h

omit [F64 F] in
theorem StartIn.obj {D : Nat → Prop} {b : List (Ev F)} (hb : StartIn D b) : StartIn D (.startObj :: b ++ [.endObj]) := by
  intro n hn
  simp at hn
  exact hb n hn

omit [F64 F] in
theorem StartIn.key {D : Nat → Prop} {k : Str} {q : Bool} {b : List (Ev F)} (hb : StartIn D b) : StartIn D (.key k q :: b) :=
  .cons (by simp) hb

theorem startClaims [LawfulF64 F] (D : Nat → Prop) (ctx : Ctx) (fuel : Nat) : StartClaims F D ctx fuel := by
  induction fuel with
  | zero => constructor <;> intros <;> rename_i h <;> simp [decodeKV, decodeFields, decodeArray, listLoop, decodeItem, decodeItemRest, followLoop] at h
  | succ fuel ih =>
    have tc := treeClaims (F := F) ctx fuel
    constructor
    · -- kv
      intro content cur base evs cur' hdc hcur h
      rw [decodeKV] at h
      obtain ⟨hdr, hh, h⟩ := bind_ok.mp h
      split at h
      · rename_i key hd hk
        obtain ⟨⟨evs1, cur1⟩, h1, h⟩ := bind_ok.mp h
        rw [pure_ok] at h
        simp only [Prod.mk.injEq] at h
        obtain ⟨rfl, rfl⟩ := h
        rw [keyedHeader_some hk] at hh
        exact .key (ih.array _ _ _ _ _ (hdc _ (parseHeader_declares hh)) (parseHeader_cap hh) hcur h1)
      · obtain ⟨⟨key, e, quoted⟩, hk, h⟩ := bind_ok.mp h
        simp only at h
        split at h
        · split at h
          · split at h
            · obtain ⟨⟨evs1, cur1⟩, h1, h⟩ := bind_ok.mp h
              rw [pure_ok] at h
              simp only [Prod.mk.injEq] at h
              obtain ⟨rfl, rfl⟩ := h
              exact .key (.obj (ih.fields _ _ _ _ _ hcur h1))
            · rw [pure_ok] at h
              simp only [Prod.mk.injEq] at h
              obtain ⟨rfl, rfl⟩ := h
              exact .key (.obj .nil)
          · rw [pure_ok] at h
            simp only [Prod.mk.injEq] at h
            obtain ⟨rfl, rfl⟩ := h
            exact .key (.obj .nil)
        · obtain ⟨p, hp, h⟩ := bind_ok.mp h
          rw [pure_ok] at h
          simp only [Prod.mk.injEq] at h
          obtain ⟨rfl, rfl⟩ := h
          exact .key (.cons (by simp) .nil)
    · -- fields
      intro cur base comp evs cur' hcur h
      rw [decodeFields] at h
      split at h
      · simp only [Except.ok.injEq, Prod.mk.injEq] at h
        obtain ⟨rfl, rfl⟩ := h
        exact .nil
      · rename_i line rest hr
        split at h
        · simp only [Except.ok.injEq, Prod.mk.injEq] at h
          obtain ⟨rfl, rfl⟩ := h
          exact .nil
        · split at h
          · obtain ⟨⟨evs1, cur1⟩, h1, h⟩ := bind_ok.mp h
            obtain ⟨⟨evs2, cur2⟩, h2, h⟩ := bind_ok.mp h
            rw [pure_ok] at h
            simp only [Prod.mk.injEq] at h
            obtain ⟨rfl, rfl⟩ := h
            have hc0 : DCur D ⟨rest, some line⟩ := hcur.mono (.step hr)
            have hl : DContent D line.content := hcur line (by rw [hr]; simp)
            exact .append (ih.kv _ _ _ _ _ hl hc0 h1) (ih.fields _ _ _ _ _ (hc0.mono (tc.kv _ _ _ _ _ h1).2) h2)
          · simp only [Except.ok.injEq, Prod.mk.injEq] at h
            obtain ⟨rfl, rfl⟩ := h
            exact .nil
    · -- array
      intro h cur base evs cur' hD hcap hcur hd
      rw [decodeArray] at hd
      split at hd
      · obtain ⟨evs1, h1, hd⟩ := bind_ok.mp hd
        rw [pure_ok] at hd
        simp only [Prod.mk.injEq] at hd
        obtain ⟨rfl, rfl⟩ := hd
        exact .arr hD (decodeInline_startIn h1)
      · split at hd
        · obtain ⟨out, h1, hd⟩ := bind_ok.mp hd
          obtain ⟨_, h2, hd⟩ := bind_ok.mp hd
          obtain ⟨_, h3, hd⟩ := bind_ok.mp hd
          obtain ⟨_, h4, hd⟩ := bind_ok.mp hd
          rw [pure_ok] at hd
          simp only [Prod.mk.injEq] at hd
          obtain ⟨rfl, rfl⟩ := hd
          exact .arr hD (ih.list _ _ _ _ _ _ _ hcur h1)
        · obtain ⟨⟨evs1, cur1⟩, h1, hd⟩ := bind_ok.mp hd
          rw [pure_ok] at hd
          simp only [Prod.mk.injEq] at hd
          obtain ⟨rfl, rfl⟩ := hd
          exact .arr hD (decodeTabular_startIn _ _ _ _ _ h1)
    · -- list
      intro length depth cur count s e out hcur h
      have stop : ∀ {out : LoopOut F}, Except.ok (ε := Err) (LoopOut.mk [] cur count s e) = .ok out →
          StartIn D out.evs := by
        intro out h
        simp only [Except.ok.injEq] at h
        subst h
        exact .nil
      rw [listLoop] at h
      split at h
      · exact stop h
      · rename_i line rest hr
        split at h
        · split at h
          · exact stop h
          · split at h
            · simp only at h
              obtain ⟨⟨evs1, cur1⟩, h1, h⟩ := bind_ok.mp h
              obtain ⟨out', h2, h⟩ := bind_ok.mp h
              rw [pure_ok] at h
              subst h
              obtain ⟨_, line', rest', hr', hc1⟩ := tc.item _ _ _ _ h1
              exact .append (ih.item _ _ _ _ hcur h1) (ih.list _ _ _ _ _ _ _ (hcur.mono (hc1.trans (.step hr'))) h2)
            · exact stop h
        · exact stop h
    · -- item
      intro cur base evs cur' hcur h
      rw [decodeItem] at h
      split at h
      · contradiction
      · rename_i line rest hr
        simp only at h
        have hc0 : DCur D ⟨rest, some line⟩ := hcur.mono (.step hr)
        have hl : DContent D line.content := hcur line (by rw [hr]; simp)
        split at h
        · simp only [Except.ok.injEq, Prod.mk.injEq] at h
          obtain ⟨rfl, rfl⟩ := h
          exact .obj .nil
        · split at h
          · split at h
            · simp only [Except.ok.injEq, Prod.mk.injEq] at h
              obtain ⟨rfl, rfl⟩ := h
              exact .obj .nil
            · obtain ⟨hdr, hh, h⟩ := bind_ok.mp h
              split at h
              · exact ih.array _ _ _ _ _ (hl.drop 2 _ (parseHeader_declares hh)) (parseHeader_cap hh) hc0 h
              · split at h
                · rename_i key hd hk
                  rw [keyedHeader_some hk] at hh
                  split at h
                  · obtain ⟨⟨evs1, cur1⟩, h1, h⟩ := bind_ok.mp h
                    obtain ⟨⟨evs2, cur2⟩, h2, h⟩ := bind_ok.mp h
                    rw [pure_ok] at h
                    simp only [Prod.mk.injEq] at h
                    obtain ⟨rfl, rfl⟩ := h
                    have := tc.array _ _ _ _ _ (parseHeader_cap hh) h1
                    have e1 := ih.array _ _ _ _ _ (hl.drop 2 _ (parseHeader_declares hh)) (parseHeader_cap hh) hc0 h1
                    have e2 := ih.follow _ _ _ _ (hc0.mono this.2) h2
                    exact .append (.cons (by simp) (.key (.append e1 e2))) (.cons (by simp) .nil)
                  · exact ih.itemRest _ _ _ _ _ (hl.drop 2) hc0 h
                · exact ih.itemRest _ _ _ _ _ (hl.drop 2) hc0 h
          · contradiction
    · -- itemRest
      intro after cur base evs cur' hdc hcur h
      rw [decodeItemRest] at h
      split at h
      · obtain ⟨⟨evs1, cur1⟩, h1, h⟩ := bind_ok.mp h
        obtain ⟨⟨evs2, cur2⟩, h2, h⟩ := bind_ok.mp h
        rw [pure_ok] at h
        simp only [Prod.mk.injEq] at h
        obtain ⟨rfl, rfl⟩ := h
        exact .append (.cons (by simp) (.append (ih.kv _ _ _ _ _ hdc hcur h1)
          (ih.follow _ _ _ _ (hcur.mono (tc.kv _ _ _ _ _ h1).2) h2))) (.cons (by simp) .nil)
      · obtain ⟨p, hp, h⟩ := bind_ok.mp h
        rw [pure_ok] at h
        simp only [Prod.mk.injEq] at h
        obtain ⟨rfl, rfl⟩ := h
        exact .cons (by simp) .nil
    · -- follow
      intro cur depth evs cur' hcur h
      rw [followLoop] at h
      split at h
      · simp only [Except.ok.injEq, Prod.mk.injEq] at h
        obtain ⟨rfl, rfl⟩ := h
        exact .nil
      · rename_i line rest hr
        split at h
        · simp only [Except.ok.injEq, Prod.mk.injEq] at h
          obtain ⟨rfl, rfl⟩ := h
          exact .nil
        · split at h
          · obtain ⟨⟨evs1, cur1⟩, h1, h⟩ := bind_ok.mp h
            obtain ⟨⟨evs2, cur2⟩, h2, h⟩ := bind_ok.mp h
            rw [pure_ok] at h
            simp only [Prod.mk.injEq] at h
            obtain ⟨rfl, rfl⟩ := h
            have hc0 : DCur D ⟨rest, some line⟩ := hcur.mono (.step hr)
            have hl : DContent D line.content := hcur line (by rw [hr]; simp)
            exact .append (ih.kv _ _ _ _ _ hl hc0 h1) (ih.follow _ _ _ _ (hc0.mono (tc.kv _ _ _ _ _ h1).2) h2)
          · simp only [Except.ok.injEq, Prod.mk.injEq] at h
            obtain ⟨rfl, rfl⟩ := h
            exact .nil

theorem rootLoop_startIn [LawfulF64 F] (D : Nat → Prop) (ctx : Ctx) (fuel : Nat) : ∀ cur (evs : List (Ev F)) cur',
    DCur D cur → rootLoop ctx fuel cur = .ok (evs, cur') → StartIn D evs := by
  induction fuel with
  | zero => intro cur evs cur' _ h; simp [rootLoop] at h
  | succ fuel ih =>
    intro cur evs cur' hcur h
    rw [rootLoop] at h
    split at h
    · simp only [Except.ok.injEq, Prod.mk.injEq] at h
      obtain ⟨rfl, rfl⟩ := h
      exact .nil
    · rename_i line rest hr
      split at h
      · simp only [Except.ok.injEq, Prod.mk.injEq] at h
        obtain ⟨rfl, rfl⟩ := h
        exact .nil
      · obtain ⟨⟨evs1, cur1⟩, h1, h⟩ := bind_ok.mp h
        obtain ⟨⟨evs2, cur2⟩, h2, h⟩ := bind_ok.mp h
        rw [pure_ok] at h
        simp only [Prod.mk.injEq] at h
        obtain ⟨rfl, rfl⟩ := h
        have hc0 : DCur D ⟨rest, some line⟩ := hcur.mono (.step hr)
        have hl : DContent D line.content := hcur line (by rw [hr]; simp)
        exact .append ((startClaims D ctx fuel).kv _ _ _ _ _ hl hc0 h1)
          (ih _ _ _ (hc0.mono ((treeClaims ctx fuel).kv _ _ _ _ _ h1).2) h2)

theorem decodeLines_startIn [LawfulF64 F] (D : Nat → Prop) (ctx : Ctx) (lines : List Line) {evs : List (Ev F)}
    (hD : ∀ l ∈ lines, DContent D l.content) (h : decodeLines ctx lines = .ok evs) : StartIn D evs := by
  unfold decodeLines at h
  split at h
  · simp only [Except.ok.injEq] at h
    subst h
    exact .obj .nil
  · rename_i first rest
    have hc0 : DCur D ⟨rest, some first⟩ := fun l hl => hD l (by simp at hl; simp [hl])
    have hl : DContent D first.content := hD first (by simp)
    obtain ⟨hdr, hh, h⟩ := bind_ok.mp h
    unfold rootHeader at hh
    split at h
    · split at hh
      · obtain ⟨⟨evs1, cur1⟩, h1, h⟩ := bind_ok.mp h
        rw [pure_ok] at h
        subst h
        exact (startClaims D ctx _).array _ _ _ _ _ (hl _ (parseHeader_declares hh)) (parseHeader_cap hh) hc0 h1
      · simp at hh
    · split at h
      · obtain ⟨p, hp, h⟩ := bind_ok.mp h
        rw [pure_ok] at h
        subst h
        exact .cons (by simp) .nil
      · obtain ⟨⟨evs1, cur1⟩, h1, h⟩ := bind_ok.mp h
        obtain ⟨⟨evs2, cur2⟩, h2, h⟩ := bind_ok.mp h
        rw [pure_ok] at h
        subst h
        exact .append (.cons (by simp) (.append ((startClaims D ctx _).kv _ _ _ _ _ hl hc0 h1)
          (rootLoop_startIn D ctx _ _ _ _ (hc0.mono ((treeClaims ctx _).kv _ _ _ _ _ h1).2) h2))) (.cons (by simp) .nil)

end

/-! ## Scanned lines -/

theorem parseLine_line {raw : Str} {num indent : Nat} {strict : Bool} {l : Line}
    (h : parseLine raw num indent strict = .ok (.line l)) :
    l.content = raw.drop (raw.takeWhile (· == ' ')).length ∧ l.num = num ∧
      l.depth = computeDepth (raw.takeWhile (· == ' ')).length indent := by
  unfold parseLine at h
  simp only at h
  repeat' (split at h)
  all_goals first
    | (simp only [Except.ok.injEq, Scanned.line.injEq] at h; subst h; exact ⟨rfl, rfl, rfl⟩)
    | simp at h

theorem parseLines_mem {indent : Nat} {strict : Bool} {source : List Str} : ∀ {num : Nat} {ls : List Line} {bs : List Nat},
    parseLines indent strict source num = .ok (ls, bs) → ∀ l ∈ ls, ∃ raw ∈ source, ∃ i, l.content = raw.drop i := by
  induction source with
  | nil => intro num ls bs h l hl; simp [parseLines] at h; rw [h.1] at hl; simp at hl
  | cons raw rest ih =>
    intro num ls bs h l hl
    rw [parseLines] at h
    split at h
    · simp at h
    · rename_i sc hsc
      split at h
      · simp at h
      · rename_i ls1 bs1 h1
        split at h
        · simp only [Except.ok.injEq, Prod.mk.injEq] at h
          obtain ⟨rfl, rfl⟩ := h
          obtain ⟨r, hr, i, hi⟩ := ih h1 l hl
          exact ⟨r, by simp [hr], i, hi⟩
        · simp only [Except.ok.injEq, Prod.mk.injEq] at h
          obtain ⟨rfl, rfl⟩ := h
          rcases List.mem_cons.mp hl with rfl | hl
          · exact ⟨raw, by simp, _, (parseLine_line hsc).1⟩
          · obtain ⟨r, hr, i, hi⟩ := ih h1 l hl
            exact ⟨r, by simp [hr], i, hi⟩

section
variable {F : Type} [F64 F]

theorem decodeStream_startIn [LawfulF64 F] {indent : Nat} {strict : Bool} {source : List Str} {evs : List (Ev F)}
    (h : decodeStream indent strict source = .ok evs) :
    StartIn (fun n => ∃ raw ∈ source, Declares raw n) evs := by
  unfold decodeStream at h
  obtain ⟨⟨lines, blanks⟩, hp, h⟩ := bind_ok.mp h
  refine decodeLines_startIn _ _ _ (fun l hl n hn => ?_) h
  obtain ⟨raw, hr, i, hi⟩ := parseLines_mem hp l hl
  exact ⟨raw, hr, Declares.of_drop (hi ▸ hn)⟩

omit [F64 F] in
mutual
theorem allArrays_startIn {D : Nat → Prop} (t : ETree F) (h : StartIn D t.events) : t.AllArrays fun d _ => D d := by
  match t with
  | .prim _ => simp [ETree.AllArrays]
  | .arr n items =>
    simp only [ETree.AllArrays]
    refine ⟨h n (by simp [ETree.events]), allArraysItems_startIn items (fun m hm => h m ?_)⟩
    simp [ETree.events, hm]
  | .obj es =>
    simp only [ETree.AllArrays]
    exact allArraysEntries_startIn es (fun m hm => h m (by simp [ETree.events, hm]))
theorem allArraysItems_startIn {D : Nat → Prop} (ts : List (ETree F)) (h : StartIn D (ETree.eventsItems ts)) :
    ETree.AllArraysItems (fun d _ => D d) ts := by
  match ts with
  | [] => simp [ETree.AllArraysItems]
  | t :: ts =>
    simp only [ETree.AllArraysItems]
    exact ⟨allArrays_startIn t (fun m hm => h m (by simp [ETree.eventsItems, hm])),
      allArraysItems_startIn ts (fun m hm => h m (by simp [ETree.eventsItems, hm]))⟩
theorem allArraysEntries_startIn {D : Nat → Prop} (es : List (Str × Bool × ETree F)) (h : StartIn D (ETree.eventsEntries es)) :
    ETree.AllArraysEntries (fun d _ => D d) es := by
  match es with
  | [] => simp [ETree.AllArraysEntries]
  | (k, q, t) :: es =>
    simp only [ETree.AllArraysEntries]
    exact ⟨allArrays_startIn t (fun m hm => h m (by simp [ETree.eventsEntries, hm])),
      allArraysEntries_startIn es (fun m hm => h m (by simp [ETree.eventsEntries, hm]))⟩
end

omit [F64 F] in
mutual
theorem allArrays_and {R S : Nat → Nat → Prop} (t : ETree F) (h1 : t.AllArrays R) (h2 : t.AllArrays S) :
    t.AllArrays fun d a => R d a ∧ S d a := by
  match t with
  | .prim _ => simp [ETree.AllArrays]
  | .arr n items =>
    simp only [ETree.AllArrays] at *
    exact ⟨⟨h1.1, h2.1⟩, allArraysItems_and items h1.2 h2.2⟩
  | .obj es =>
    simp only [ETree.AllArrays] at *
    exact allArraysEntries_and es h1 h2
theorem allArraysItems_and {R S : Nat → Nat → Prop} (ts : List (ETree F)) (h1 : ETree.AllArraysItems R ts)
    (h2 : ETree.AllArraysItems S ts) : ETree.AllArraysItems (fun d a => R d a ∧ S d a) ts := by
  match ts with
  | [] => simp [ETree.AllArraysItems]
  | t :: ts =>
    simp only [ETree.AllArraysItems] at *
    exact ⟨allArrays_and t h1.1 h2.1, allArraysItems_and ts h1.2 h2.2⟩
theorem allArraysEntries_and {R S : Nat → Nat → Prop} (es : List (Str × Bool × ETree F))
    (h1 : ETree.AllArraysEntries R es) (h2 : ETree.AllArraysEntries S es) :
    ETree.AllArraysEntries (fun d a => R d a ∧ S d a) es := by
  match es with
  | [] => simp [ETree.AllArraysEntries]
  | (k, q, t) :: es =>
    simp only [ETree.AllArraysEntries] at *
    exact ⟨allArrays_and t h1.1 h2.1, allArraysEntries_and es h1.2 h2.2⟩
end

end

end Toon
