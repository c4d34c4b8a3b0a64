import Verif.Spec.Draft
import Verif.Lemmas.SafeText
import Verif.Lemmas.Layout

/-! The decoder on texts whose declared lengths may be wrong. -/

namespace Toon

section
variable {F : Type}

/-! ## Outcomes -/

/-- Reading gives the events if `P` holds and fails if not. -/
def Tells (r : Reading F) (P : Prop) (evs : List (Ev F)) : Prop := (P → r = .ok evs) ∧ (¬ P → ∃ e, r = .error e)

theorem Tells.ok (evs : List (Ev F)) : Tells (.ok evs) True evs := ⟨fun _ => rfl, fun h => absurd trivial h⟩

theorem Tells.error (e : Err) {P : Prop} (h : ¬ P) (evs : List (Ev F)) : Tells (.error e) P evs :=
  ⟨fun hp => absurd hp h, fun _ => ⟨e, rfl⟩⟩

theorem Tells.seq {a b : Reading F} {P Q : Prop} {x y : List (Ev F)} (ha : Tells a P x) (hb : Tells b Q y) :
    Tells (a.seq b) (P ∧ Q) (x ++ y) := by
  constructor
  · rintro ⟨hp, hq⟩
    rw [ha.1 hp, hb.1 hq]
    rfl
  · intro h
    by_cases hp : P
    · obtain ⟨e, he⟩ := hb.2 fun hq => h ⟨hp, hq⟩
      rw [ha.1 hp, he]
      exact ⟨e, rfl⟩
    · obtain ⟨e, he⟩ := ha.2 hp
      rw [he]
      exact ⟨e, rfl⟩

theorem Tells.to {r : Reading F} {P Q : Prop} {x y : List (Ev F)} (h : Tells r P x) (hp : P ↔ Q) (hx : Q → x = y) :
    Tells r Q y :=
  ⟨fun hq => by rw [h.1 (hp.mpr hq), hx hq], fun hq => h.2 fun h' => hq (hp.mp h')⟩

/-! ## Rows -/

theorem rowObject_eq (cols : List Str) (row : List (Prim F)) : rowObject cols row = .obj (zipRow cols row) := by
  unfold rowObject
  congr 1
  induction cols generalizing row with
  | nil => cases row <;> rfl
  | cons c cols ih =>
    cases row with
    | nil => rfl
    | cons p row => simp only [List.zip_cons_cons, List.map_cons, zipRow, ih]

variable [F64 F] [LawfulF64 F]

theorem plain_norm {p : Prim F} (h : PlainPrim p) : normPrim p = p := (normPrim_plain p).mpr h

omit [LawfulF64 F] in
theorem joinWith_head {d : Char} {t : Str} {ts : List Str} (h : t ≠ []) (hd : d ≠ ' ') (ht : startsWithDash t = false) :
    startsWithDash (joinWith d (t :: ts)) = false := by
  rw [joinWith_cons_append]
  cases t with
  | nil => exact absurd rfl h
  | cons c t =>
    cases t with
    | cons c' t =>
      simp only [List.cons_append]
      unfold startsWithDash at ht ⊢
      split at ht
      · simp at ht
      · rename_i hx
        split
        · rename_i heq
          simp only [List.cons.injEq] at heq
          obtain ⟨rfl, rfl, _⟩ := heq
          exact absurd rfl (hx t)
        · rfl
    | nil =>
      unfold startsWithDash
      split
      · rename_i heq
        simp only [List.cons_append, List.nil_append, List.cons.injEq] at heq
        obtain ⟨rfl, heq⟩ := heq
        split at heq
        · simp at heq
        · simp only [List.cons.injEq] at heq
          exact absurd heq.1 hd
      · rfl

/-- A written token does not look like a list item. -/
theorem token_dash {d : Char} (p : Prim F) : startsWithDash (encodePrimitive p d) = false := by
  cases h : startsWithDash (encodePrimitive p d) with
  | false => rfl
  | true =>
    exfalso
    obtain ⟨t, ht⟩ := (hyphenSpace_iff _).mp h
    cases p with
    | null => simp [encodePrimitive] at ht
    | bool b => cases b <;> simp [encodePrimitive] at ht
    | num x =>
      simp only [encodePrimitive, formatNumber] at ht
      split at ht
      · simp at ht
      · rename_i hz
        split at ht
        · simp at ht
        · rename_i hf
          obtain ⟨sg, ip, fr, hs, hsg, hip, hdig, _⟩ := LawfulF64.display_plain x (by simpa using hf) (by simpa using hz)
          rw [hs] at ht
          cases ip with
          | nil => exact absurd rfl hip
          | cons c ip =>
            have hc := hdig c (by simp)
            rcases hsg with rfl | rfl
            · simp only [List.nil_append, List.cons_append, List.cons.injEq] at ht
              rw [ht.1] at hc
              exact absurd hc (by decide)
            · simp only [List.cons_append, List.nil_append, List.cons.injEq] at ht
              rw [ht.2.1] at hc
              exact absurd hc (by decide)
    | str s =>
      simp only [encodePrimitive, encodeStringLiteral] at ht
      split at ht
      · rename_i hs
        subst ht
        simp [isSafeUnquoted] at hs
      · simp at ht

theorem row_dash {d : Char} (hd : GoodDelim d) {row : List (Prim F)} (h : row ≠ []) :
    startsWithDash (encodeAndJoin row d) = false := by
  cases row with
  | nil => exact absurd rfl h
  | cons p row =>
    unfold encodeAndJoin
    rw [List.map_cons]
    exact joinWith_head (encodePrimitive_tok hd p).ne_nil (goodDelim_ne hd).2.2.2.2.2.2.2.2.1 (token_dash p)

theorem rowTokens {d : Char} (hd : GoodDelim d) (row : List (Prim F)) :
    ∀ t ∈ row.map (encodePrimitive · d), TokForm d t := by
  intro t ht
  obtain ⟨p, _, rfl⟩ := List.mem_map.mp ht
  exact encodePrimitive_tok hd p

theorem row_data {d : Char} (hd : GoodDelim d) (row : List (Prim F)) : isDataRow (encodeAndJoin row d) d = true := by
  unfold isDataRow
  have : findUnquotedChar (encodeAndJoin row d) ':' = none := by
    unfold findUnquotedChar
    rw [if_pos (by decide)]
    have := Transparent.join hd (rowTokens hd row) [] 0
    rw [List.append_nil] at this
    unfold encodeAndJoin
    rw [this]
    rfl
  rw [this]

/-! ## Tables -/

omit [F64 F] [LawfulF64 F] F in
theorem projLength {ls : List Line} {os : List OutLine} (h : Proj ls os) : ls.length = os.length := by
  simpa using congrArg List.length h

/-- The first row of the wrong width, among those that are read. -/
def widthFault (n w : Nat) : Nat → List (List (Prim F)) → Option Err
  | _, [] => none
  | count, row :: rows =>
    if count < n then
      if row.length = w then widthFault n w (count + 1) rows
      else some (.countMismatch w .rowValues row.length)
    else none

omit [F64 F] [LawfulF64 F] in
theorem widthFault_some {n w count : Nat} {rows : List (List (Prim F))} {e : Err} (h : widthFault n w count rows = some e) :
    ∃ row ∈ rows, row.length ≠ w := by
  induction rows generalizing count with
  | nil => simp [widthFault] at h
  | cons row rows ih =>
    rw [widthFault] at h
    split at h
    · split at h
      · obtain ⟨r, h1, h2⟩ := ih h
        exact ⟨r, by simp [h1], h2⟩
      · exact ⟨row, by simp, ‹_›⟩
    · simp at h

omit [F64 F] [LawfulF64 F] in
theorem widthFault_none {n w count : Nat} {rows : List (List (Prim F))} (h : widthFault n w count rows = none)
    (hn : count + rows.length ≤ n) : ∀ row ∈ rows, row.length = w := by
  induction rows generalizing count with
  | nil => simp
  | cons row rows ih =>
    simp only [List.length_cons] at hn
    rw [widthFault, if_pos (by omega)] at h
    split at h
    · intro r hr
      rcases List.mem_cons.mp hr with rfl | hr
      · assumption
      · exact ih h (by omega) r hr
    · simp at h

theorem tabularLoop_declared {ctx : Ctx} (hs : ctx.strict = true) {d : Char} (hd : GoodDelim d) {cols : List Str}
    {depth n : Nat} (rows : List (List (Prim F))) (hl : ∀ ps ∈ rows, ps ≠ [])
    (hnm : ∀ ps ∈ rows, ∀ p ∈ ps, normPrim p = p) :
    ∀ (ls rest : List Line) last count start e,
      Proj ls (rows.map fun ps => ⟨depth, encodeAndJoin ps d⟩) → (∀ l, rest.head? = some l → l.depth < depth) →
      ∃ last' start' e', tabularLoop ctx (cols.map fun f => ⟨f, !isValidUnquotedKey f⟩) d n depth (ls ++ rest) last
        count start e =
        match widthFault n cols.length count rows with
        | some x => .error x
        | none => .ok ⟨emitItems ((rows.take (n - count)).map fun ps => .obj (zipRow cols ps)),
            ⟨ls.drop (n - count) ++ rest, last'⟩, count + min (n - count) rows.length, start', e'⟩ := by
  induction rows with
  | nil =>
    intro ls rest last count start e hp hr
    rw [Proj.nil_iff.mp hp]
    refine ⟨last, start, e, ?_⟩
    cases rest with
    | nil => simp [tabularLoop, emitItems, widthFault]
    | cons l rest => simp [tabularLoop, emitItems, widthFault, hr l rfl]
  | cons ps rows ih =>
    intro ls rest last count start e hp hr
    rw [List.map_cons] at hp
    obtain ⟨l, ls', rfl, hdep, hcont, hp⟩ := Proj.cons hp
    by_cases hlt : count < n
    · by_cases hw : ps.length = cols.length
      · obtain ⟨last2, s2, n2, e2⟩ := ih (fun ps h => hl ps (by simp [h])) (fun ps h => hnm ps (by simp [h]))
          ls' rest (some l) (count + 1)
          (match (generalizing := false) start with
            | none => some l.num
            | some s => some s) (some l.num) hp hr
        refine ⟨last2, s2, n2, ?_⟩
        rw [List.cons_append, tabularLoop.eq_def, widthFault]
        simp only [hdep, hcont, Nat.lt_irrefl, if_false, if_true, hlt, hw]
        have hval : parseDelimitedValues (encodeAndJoin ps d) d = ps.map (encodePrimitive · d) :=
          parseDelimited_join hd _ (by simpa using hl ps (by simp)) (rowTokens hd ps)
        rw [hval]
        simp only [List.length_map, hw, assertCount_self, bind, Except.bind, mapRowValues_encode ps (hnm ps (by simp))]
        obtain ⟨m, hm⟩ : ∃ m, n - count = m + 1 := ⟨n - count - 1, by omega⟩
        have hm' : n - (count + 1) = m := by omega
        rw [hm'] at e2
        rw [hm]
        cases hwf : widthFault n cols.length (count + 1) rows with
        | some x =>
          rw [hwf] at e2
          cases start <;> (simp only at e2 ⊢; rw [e2])
        | none =>
          rw [hwf] at e2
          have hc : count + 1 + min m rows.length = count + min (m + 1) (rows.length + 1) := by omega
          cases start <;>
            (simp only at e2 ⊢; rw [e2]
             simp only [pure, Except.pure, emitItems, emitEvents, List.map_cons, List.take_succ_cons, List.drop_succ_cons,
               fieldEvents_zip cols ps hw, List.cons_append, List.append_assoc, List.nil_append, hc, List.length_cons])
      · refine ⟨last, start, e, ?_⟩
        rw [List.cons_append, tabularLoop.eq_def, widthFault]
        simp only [hdep, hcont, Nat.lt_irrefl, if_false, if_true, hlt, hw]
        have hval : parseDelimitedValues (encodeAndJoin ps d) d = ps.map (encodePrimitive · d) :=
          parseDelimited_join hd _ (by simpa using hl ps (by simp)) (rowTokens hd ps)
        rw [hval]
        simp [List.length_map, assertCount, hs, hw, bind, Except.bind]
    · refine ⟨last, start, e, ?_⟩
      rw [List.cons_append, tabularLoop.eq_def, widthFault]
      simp only [hlt, if_false]
      rw [show n - count = 0 by omega]
      simp [emitItems]

theorem table_declared {ctx : Ctx} (hs : ctx.strict = true) (hb : ctx.blanks = []) {base n : Nat} {d : Char} (hd : GoodDelim d)
    {key : Option Str} {cols : List Str} (hn : n ≤ maxDeclaredLength) (hc : cols ≠ []) (hbr : ∀ c ∈ cols, '}' ∉ c)
    {rows : List (List (Prim F))} (hl : ∀ ps ∈ rows, ps ≠ []) (hnm : ∀ ps ∈ rows, ∀ p ∈ ps, normPrim p = p) :
    ∃ r : Reading F, ArrRun ctx base (formatHeader n key (some cols) d) (rows.map fun ps => ⟨base + 1, encodeAndJoin ps d⟩) key r ∧
      Tells r (rows.length = n ∧ ∀ row ∈ rows, row.length = cols.length) (emitEvents (.arr (rows.map (rowObject cols)))) := by
  have hp := parseHeader_format hn key (fields := some cols) hd (by intro fs h; simp at h; subst h; exact ⟨hc, hbr⟩) []
  rw [List.append_nil] at hp
  have hf0 : ((readFields (some cols)).getD []) = cols.map fun f => ⟨f, !isValidUnquotedKey f⟩ := rfl
  have run : ∀ r : Reading F, (∀ ls rest last, Proj ls (rows.map fun ps => (⟨base + 1, encodeAndJoin ps d⟩ : OutLine)) → RestLe base rest →
      ∃ last', decodeTabular (F := F) ctx ⟨key, readQuoted key, n, d, readFields (some cols), none⟩
          (cols.map fun f => ⟨f, !isValidUnquotedKey f⟩) ⟨ls ++ rest, last⟩ base =
        r.at rest last') →
      ArrRun ctx base (formatHeader n key (some cols) d) (rows.map fun ps => ⟨base + 1, encodeAndJoin ps d⟩) key
        (Reading.seq (.ok [.startArr n]) (r.seq (.ok [.endArr]))) := by
    intro r hr
    refine ⟨⟨_, _, _, [], hd, (List.append_nil _).symm⟩, Or.inr ⟨_, hp, rfl, rfl, ?_⟩⟩
    intro ls rest last fuel hpj hrl hf
    obtain ⟨f, rfl⟩ : ∃ f, fuel = f + 1 := ⟨fuel - 1, by omega⟩
    obtain ⟨last', e⟩ := hr ls rest last hpj hrl
    refine ⟨last', ?_⟩
    rw [decodeArray]
    rw [show (trim []).isEmpty = true by decide]
    simp only [if_true, hf0]
    rw [if_neg (by simpa using hc)]
    simp only [e, bind, Except.bind]
    cases r with
    | error x => simp only [Reading.at, Reading.seq]
    | ok evs => simp only [Reading.at, Reading.seq, pure, Except.pure, List.cons_append, List.nil_append]
  have dec := fun ls rest last (hpj : Proj ls (rows.map fun ps => (⟨base + 1, encodeAndJoin ps d⟩ : OutLine))) (hr : RestLe base rest) =>
    tabularLoop_declared (n := n) (cols := cols) hs hd rows hl hnm ls rest last 0 none none hpj (fun l hl => Nat.lt_succ_of_le (hr l hl))
  cases hwf : widthFault n cols.length 0 rows with
  | some x =>
    refine ⟨_, run (.error x) ?_, ?_⟩
    · intro ls rest last hpj hr
      obtain ⟨last', s', e', h⟩ := dec ls rest last hpj hr
      rw [hwf] at h
      refine ⟨none, ?_⟩
      unfold decodeTabular
      simp only [h, bind, Except.bind, Reading.at]
    · apply Tells.error
      rintro ⟨_, h⟩
      obtain ⟨row, h1, h2⟩ := widthFault_some hwf
      exact h2 (h row h1)
  | none =>
    rcases Nat.lt_trichotomy rows.length n with hlt | heq | hgt
    · refine ⟨_, run (.error (.countMismatch n .rows rows.length)) ?_, ?_⟩
      · intro ls rest last hpj hr
        obtain ⟨last', s', e', h⟩ := dec ls rest last hpj hr
        rw [hwf] at h
        refine ⟨none, ?_⟩
        unfold decodeTabular
        simp only [h, bind, Except.bind, Reading.at, assertCount, hs, Nat.zero_add, Nat.sub_zero]
        rw [Nat.min_eq_right (Nat.le_of_lt hlt), if_pos (by simp; omega)]
      · exact Tells.error _ (by rintro ⟨h, _⟩; omega) _
    · refine ⟨_, run (.ok (emitItems (rows.map fun ps => .obj (zipRow cols ps)))) ?_, ?_⟩
      · intro ls rest last hpj hr
        obtain ⟨last', s', e', h⟩ := dec ls rest last hpj hr
        rw [hwf] at h
        have hll : ls.length = n := by rw [projLength hpj, List.length_map, heq]
        refine ⟨last', ?_⟩
        unfold decodeTabular
        simp only [Nat.sub_zero, List.drop_of_length_le (Nat.le_of_eq hll), List.take_of_length_le (Nat.le_of_eq heq), Nat.zero_add,
          List.nil_append, heq, Nat.min_self] at h
        simp only [h, bind, Except.bind, assertCount_self, checkBlanks_nil hb, noExtraRows_le hr, pure, Except.pure, Reading.at]
      · refine (Tells.ok _).to ?_ ?_
        · have := widthFault_none hwf (by omega)
          exact ⟨fun _ => ⟨heq, this⟩, fun _ => trivial⟩
        · intro _
          simp only [emitEvents, List.length_map, heq, List.cons_append, List.nil_append]
          congr 2
          rw [show rowObject (F := F) cols = fun ps => .obj (zipRow cols ps) from funext (rowObject_eq cols)]
    · refine ⟨_, run (.error (.extraRows n)) ?_, ?_⟩
      · intro ls rest last hpj hr
        obtain ⟨last', s', e', h⟩ := dec ls rest last hpj hr
        rw [hwf] at h
        refine ⟨none, ?_⟩
        unfold decodeTabular
        simp only [Nat.sub_zero, Nat.zero_add, Nat.min_eq_left (Nat.le_of_lt hgt)] at h
        have hll : ls.length = rows.length := by rw [projLength hpj, List.length_map]
        have hd' : ls.drop n = ls[n] :: ls.drop (n + 1) := List.drop_eq_getElem_cons (by omega)
        rw [hd'] at h
        simp only [h, bind, Except.bind, assertCount_self, checkBlanks_nil hb, List.cons_append, List.head?_cons, noExtraRows, Reading.at]
        have hproj : ls[n].depth = base + 1 ∧ ls[n].content = encodeAndJoin rows[n] d := by
          have := congrArg (·[n]?) hpj
          simp only [List.getElem?_map] at this
          rw [List.getElem?_eq_getElem (by omega), List.getElem?_eq_getElem (by omega)] at this
          simpa only [Option.map_some, Option.some.injEq, Prod.mk.injEq] using this
        rw [if_pos (by
          rw [hproj.2, row_dash hd (hl _ (List.getElem_mem _)), row_data hd]
          simp [hs, hproj.1])]
      · exact Tells.error _ (by rintro ⟨h, _⟩; omega) _

/-! ## Lists -/

omit [LawfulF64 F] in
/-- As `ItemRuns.loop`, for a declared length that may exceed the number of items. -/
theorem ItemRuns.short {ctx : Ctx} {depth n : Nat} {os : List OutLine} {r : Reading F}
    (h : ItemRuns ctx depth os n r) : ∀ (ls rest : List Line) last fuel length count start e, Proj ls os →
      (∀ l, rest.head? = some l → l.depth < depth) → 5 * ls.length + 1 ≤ fuel → count + n ≤ length →
      ∃ last' start' e', listLoop ctx fuel length depth ⟨ls ++ rest, last⟩ count start e =
        match r with
        | .error x => .error x
        | .ok evs => .ok ⟨evs, ⟨rest, last'⟩, count + n, start', e'⟩ := by
  induction h with
  | nil =>
    intro ls rest last fuel length count start e hp hr hf hl
    rw [Proj.nil_iff.mp hp]
    refine ⟨last, start, e, ?_⟩
    obtain ⟨f, rfl⟩ : ∃ f, fuel = f + 1 := ⟨fuel - 1, by omega⟩
    rw [listLoop]
    cases rest with
    | nil => simp
    | cons l rest => simp [hr l rfl]
  | @cons c tl os n r rs h1 h2 ih =>
    intro ls rest last fuel length count start e hp hr hf hlen
    rw [List.cons_append] at hp
    obtain ⟨l, ls', rfl, hd, hcont, hp⟩ := Proj.cons hp
    obtain ⟨l1, l2, rfl, hp1, hp2⟩ := hp.split
    obtain ⟨f, rfl⟩ : ∃ f, fuel = f + 1 := ⟨fuel - 1, by omega⟩
    simp only [List.length_cons, List.length_append] at hf
    obtain ⟨last1, e1⟩ := h1.2 l l1 (l2 ++ rest) last f hcont hp1 (h2.restLe hp2 (fun l hl => Nat.le_of_lt (hr l hl))) (by omega)
    obtain ⟨last2, s2, n2, e2⟩ := ih l2 rest last1 f length (count + 1)
      (match (generalizing := false) start with
        | none => some l.num
        | some s => some s)
      (match (generalizing := false) last1 with
        | some l => some l.num
        | none => some l.num) hp2 hr (by omega) (by omega)
    refine ⟨last2, s2, n2, ?_⟩
    rw [listLoop]
    simp only [List.cons_append, List.append_assoc, hd, hcont, Nat.lt_irrefl, if_false, h1.1,
      BEq.rfl, Bool.and_self, if_true, show count < length by omega]
    rw [List.cons_append] at e1
    cases r with
    | error x => simp only [e1, bind, Except.bind, Reading.at, Reading.seq]
    | ok evs =>
      simp only [Reading.at] at e1
      simp only [e1, bind, Except.bind]
      cases rs with
      | error x =>
        cases start <;> cases last1 <;>
          (simp only at e2 ⊢; rw [e2]; simp only [Reading.seq])
      | ok evs' =>
        rw [show count + 1 + n = count + (n + 1) by omega] at e2
        cases start <;> cases last1 <;>
          (simp only at e2 ⊢; rw [e2]; simp only [pure, Except.pure, Reading.seq])

omit [LawfulF64 F] in
/-- A list with too few items. -/
theorem arrRun_short {ctx : Ctx} (hs : ctx.strict = true) {base : Nat} {d : Char} (hd : GoodDelim d)
    {key : Option Str} {n m : Nat} {tl : List OutLine} {r : Reading F} (hn : n ≤ maxDeclaredLength) (hlt : m < n)
    (h : ItemRuns ctx (base + 1) tl m r) :
    ArrRun ctx base (formatHeader n key none d) tl key (r.seq (.error (.countMismatch n .listItems m))) := by
  refine ⟨⟨_, _, _, [], hd, (List.append_nil _).symm⟩, Or.inr ?_⟩
  have hp := parseHeader_format hn key (fields := none) hd (by simp) []
  rw [List.append_nil] at hp
  refine ⟨_, hp, rfl, rfl, ?_⟩
  intro ls rest last fuel hpj hr hf
  obtain ⟨f, rfl⟩ : ∃ f, fuel = f + 1 := ⟨fuel - 1, by omega⟩
  obtain ⟨last', s', e', hl⟩ := h.short ls rest last f n 0 none none hpj (fun l hl => Nat.lt_succ_of_le (hr l hl)) (by omega) (by omega)
  refine ⟨last', ?_⟩
  rw [decodeArray]
  rw [show (trim []).isEmpty = true by decide]
  simp only [if_true, readFields, Option.map_none, Option.getD_none, List.isEmpty_nil]
  cases r with
  | error x => simp only at hl; simp only [hl, bind, Except.bind, Reading.seq, Reading.at]
  | ok evs =>
    simp only at hl
    simp only [hl, bind, Except.bind, Nat.zero_add, assertCount, hs, Reading.seq, Reading.at]
    rw [if_pos (by simp; omega)]

omit [LawfulF64 F] in
/-- A list with too many items. -/
theorem arrRun_surplus {ctx : Ctx} (hs : ctx.strict = true) (hb : ctx.blanks = []) {base : Nat} {d : Char} (hd : GoodDelim d)
    {key : Option Str} {n : Nat} {tl more : List OutLine} {c : Str} {r : Reading F} (hn : n ≤ maxDeclaredLength)
    (h : ItemRuns ctx (base + 1) tl n r) (hc : startsWithDash c = true) :
    ArrRun ctx base (formatHeader n key none d) (tl ++ ⟨base + 1, c⟩ :: more) key (r.seq (.error (.extraItems n))) := by
  refine ⟨⟨_, _, _, [], hd, (List.append_nil _).symm⟩, Or.inr ?_⟩
  have hp := parseHeader_format hn key (fields := none) hd (by simp) []
  rw [List.append_nil] at hp
  refine ⟨_, hp, rfl, rfl, ?_⟩
  intro ls rest last fuel hpj hr hf
  obtain ⟨f, rfl⟩ : ∃ f, fuel = f + 1 := ⟨fuel - 1, by omega⟩
  obtain ⟨l1, l2, rfl, hp1, hp2⟩ := hpj.split
  obtain ⟨l, l3, rfl, hdep, hcont, hp3⟩ := Proj.cons hp2
  simp only [List.length_append, List.length_cons] at hf
  obtain ⟨last', s', e', hl⟩ := h.loop l1 (l :: l3 ++ rest) last f n 0 none none hp1
    (by intro l' hl'; simp at hl'; subst hl'; simp only at hdep; omega) (by omega) (by omega)
  refine ⟨last', ?_⟩
  rw [decodeArray]
  rw [show (trim []).isEmpty = true by decide]
  simp only [if_true, readFields, Option.map_none, Option.getD_none, List.isEmpty_nil, List.append_assoc]
  cases r with
  | error x => simp only [List.cons_append] at hl ⊢; simp only [hl, bind, Except.bind, Reading.seq, Reading.at]
  | ok evs =>
    simp only at hdep hcont
    simp only [List.cons_append] at hl ⊢
    simp only [hl, bind, Except.bind, assertCount_self, checkBlanks_nil hb, List.head?_cons, noExtraItems,
      Reading.seq, Reading.at, hs, hdep, hcont, hc, BEq.rfl, Bool.and_self, if_true]

/-! ## Arrays on one line -/

theorem inline_declared {ctx : Ctx} (hs : ctx.strict = true) (hb : ctx.blanks = []) {base n : Nat} {d : Char} (hd : GoodDelim d)
    {key : Option Str} (hn : n ≤ maxDeclaredLength) {ps : List (Prim F)} (hnm : ∀ p ∈ ps, normPrim p = p) :
    ∃ r : Reading F, ArrRun ctx base (formatHeader n key none d ++ (if ps.isEmpty then [] else ' ' :: encodeAndJoin ps d)) [] key r ∧
      Tells r (ps.length = n) (emitEvents (.arr (ps.map .prim))) := by
  cases hps : ps.isEmpty with
  | true =>
    have : ps = [] := by simpa using hps
    subst this
    simp only [if_true, List.append_nil]
    by_cases h0 : n = 0
    · subst h0
      refine ⟨_, arrRun_list hb hd hn ItemRuns.nil, ?_⟩
      exact (Tells.ok _).to ⟨fun _ => rfl, fun _ => trivial⟩ (fun _ => rfl)
    · refine ⟨_, arrRun_short hs hd hn (by omega) ItemRuns.nil, ?_⟩
      exact Tells.error _ (by simp; omega) _
  | false =>
    have hne : ps ≠ [] := by intro h; subst h; simp at hps
    simp only [Bool.false_eq_true, if_false]
    have htok := rowTokens hd ps
    have hedge : NoEdgeWs (encodeAndJoin ps d) := joinWith_noEdgeWs fun t ht => ⟨(htok t ht).ne_nil, (htok t ht).edge⟩
    have hjne : encodeAndJoin ps d ≠ [] := joinWith_ne_nil (by simpa using hne) fun t ht => (htok t ht).ne_nil
    have h0 : (encodeAndJoin ps d).isEmpty = false := by simpa using hjne
    have hpr := parseHeader_format hn key (fields := none) hd (by simp) (' ' :: encodeAndJoin ps d)
    have hin : decodeInline (F := F) ⟨key, readQuoted key, n, d, readFields none, some (encodeAndJoin ps d)⟩ (encodeAndJoin ps d) ctx.strict =
        (assertCount ps.length n .inlineItems ctx.strict).bind fun _ => .ok (ps.map .prim) := by
      unfold decodeInline
      rw [trim_eq_self hedge, if_neg (by simp [h0])]
      simp only [encodeAndJoin]
      rw [parseDelimited_join hd _ (by simpa using hne) htok]
      simp only [mapRowValues_encode _ hnm, bind, Except.bind]
      rfl
    by_cases hlen : ps.length = n
    · refine ⟨.ok (emitEvents (.arr (ps.map .prim))), ⟨⟨_, _, _, _, hd, rfl⟩, Or.inr ⟨_, hpr, rfl, rfl, ?_⟩⟩,
        (Tells.ok _).to ⟨fun _ => hlen, fun _ => trivial⟩ fun _ => rfl⟩
      intro ls rest last fuel hpj hr hf
      rw [Proj.nil_iff.mp hpj]
      obtain ⟨f, rfl⟩ : ∃ f, fuel = f + 1 := ⟨fuel - 1, by omega⟩
      refine ⟨last, ?_⟩
      rw [decodeArray, trim_space_cons hedge]
      simp only [h0, Bool.false_eq_true, if_false, hin]
      simp only [hlen, assertCount_self, bind, Except.bind, pure, Except.pure, Reading.at, emitEvents, emitItems_prims, List.length_map,
        List.nil_append]
    · refine ⟨.error (.countMismatch n .inlineItems ps.length), ⟨⟨_, _, _, _, hd, rfl⟩, Or.inr ⟨_, hpr, rfl, rfl, ?_⟩⟩,
        Tells.error _ hlen _⟩
      intro ls rest last fuel hpj hr hf
      obtain ⟨f, rfl⟩ : ∃ f, fuel = f + 1 := ⟨fuel - 1, by omega⟩
      refine ⟨last, ?_⟩
      rw [decodeArray, trim_space_cons hedge]
      simp only [h0, Bool.false_eq_true, if_false, hin]
      simp [assertCount, hs, hlen, bind, Except.bind, Reading.at]

end

end Toon
