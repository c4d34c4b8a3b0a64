import Verif.Lemmas.Pad
import Verif.Lemmas.Sim
import Verif.Lemmas.ScanSim

/-! Two runs of the decoder on lines that differ in white space at their ends. -/

namespace Toon

/-- The second line is the first one, possibly with white space appended if it is neither blank nor a hyphen
alone. -/
def PadLine (a b : Line) : Prop :=
  a.depth = b.depth ∧ a.num = b.num ∧ Pad a.content b.content ∧ (b.content = a.content ∨ a.content ≠ ['-'])

inductive PadLines : List Line → List Line → Prop
  | nil : PadLines [] []
  | cons {a b : Line} {as bs : List Line} : PadLine a b → PadLines as bs → PadLines (a :: as) (b :: bs)

theorem PadLines.length {a b : List Line} (h : PadLines a b) : a.length = b.length := by
  induction h with
  | nil => rfl
  | cons _ _ ih => simp [ih]

theorem PadLines.head {a b : List Line} (h : PadLines a b) : OptRel PadLine a.head? b.head? := by
  cases h with
  | nil => trivial
  | cons h _ => exact h

def PadCur (a b : Cur) : Prop := PadLines a.rest b.rest ∧ OptRel PadLine a.last b.last

theorem padLine_hyphen {a b : Line} (h : PadLine a b) : b.content = ['-'] ↔ a.content = ['-'] := by
  obtain ⟨_, _, h1, h2⟩ := h
  rcases h1 with h1 | ⟨ha, w, hw, h1⟩
  · rw [h1]
  · rcases h2 with h2 | h2
    · rw [h2]
    · refine ⟨fun h => ?_, fun h => absurd h h2⟩
      rw [h1] at h
      cases hc : a.content with
      | nil => rw [hc] at ha; exact absurd (by intro c hc; simp at hc) ha
      | cons x xs =>
        rw [hc] at h
        simp only [List.cons_append, List.cons.injEq, List.append_eq_nil_iff] at h
        rw [h.1, h.2.1]

theorem padLine_dash {a b : Line} (h : PadLine a b) : startsWithDash b.content = startsWithDash a.content := by
  obtain ⟨_, _, h1, h2⟩ := h
  rcases h1 with h1 | ⟨ha, w, hw, h1⟩
  · rw [h1]
  · rcases h2 with h2 | h2
    · rw [h2]
    · rw [h1]
      cases hc : a.content with
      | nil => rw [hc] at ha; exact absurd (by intro c hc; simp at hc) ha
      | cons x xs =>
        cases xs with
        | cons y ys =>
          simp only [List.cons_append]
          unfold startsWithDash
          split <;> split <;> simp_all
        | nil =>
          have hx : x ≠ '-' := by rintro rfl; exact h2 hc
          simp only [List.cons_append, List.nil_append]
          unfold startsWithDash
          split <;> split <;> simp_all

theorem padLine_listItem {a b : Line} (h : PadLine a b) : isListItem b.content = isListItem a.content := by
  unfold isListItem
  rw [padLine_dash h]
  congr 1
  rw [Bool.eq_iff_iff, beq_iff_eq, beq_iff_eq]
  exact padLine_hyphen h

theorem padLine_after {a b : Line} (h : PadLine a b) (hd : startsWithDash a.content = true) :
    trim (b.content.drop 2) = trim (a.content.drop 2) ∧
    ((trim (a.content.drop 2)).isEmpty = false → Pad (a.content.drop 2) (b.content.drop 2)) := by
  obtain ⟨_, _, h1, _⟩ := h
  rcases h1 with h1 | ⟨_, w, hw, h1⟩
  · rw [h1]; exact ⟨rfl, fun _ => Or.inl rfl⟩
  · have h2 : 2 ≤ a.content.length := by
      unfold startsWithDash at hd
      split at hd
      · rename_i h; rw [h]; simp
      · simp at hd
    rw [h1, drop_trailing _ _ h2]
    refine ⟨trim_trailing (trailing_all hw) _, fun hne => Or.inr ⟨?_, w, hw, rfl⟩⟩
    intro hb
    rw [(trim_blank_iff _).2 hb] at hne
    simp at hne

theorem pad_noExtraItems {n1 n2 : Option Line} (h : OptRel PadLine n1 n2) (d n : Nat) (strict : Bool) :
    noExtraItems n2 d n strict = noExtraItems n1 d n strict := by
  unfold noExtraItems
  match n1, n2, h with
  | none, none, _ => rfl
  | some a, some b, h => simp only [padLine_dash h, h.1]

theorem pad_noExtraRows {n1 n2 : Option Line} (h : OptRel PadLine n1 n2) (d n : Nat) {c : Char} (hc : GoodDelim c) (strict : Bool) :
    noExtraRows n2 d n c strict = noExtraRows n1 d n c strict := by
  unfold noExtraRows
  match n1, n2, h with
  | none, none, _ => rfl
  | some a, some b, h => simp only [padLine_dash h, h.1, pad_dataRow h.2.2.1 hc]

variable {F : Type} [F64 F]

def PadOut (a b : LoopOut F) : Prop :=
  a.evs = b.evs ∧ PadCur a.cur b.cur ∧ a.count = b.count ∧ a.start = b.start ∧ a.end = b.end

def PadRes (a b : List (Ev F) × Cur) : Prop := a.1 = b.1 ∧ PadCur a.2 b.2

theorem pad_tabularLoop (ctx : Ctx) (fields : List FieldName) {delim : Char} (hd : GoodDelim delim) (length depth : Nat)
    {r1 r2 : List Line} (hr : PadLines r1 r2) : ∀ {l1 l2 : Option Line} (count : Nat) (s e : Option Nat), OptRel PadLine l1 l2 →
      Sim (fun _ => True) PadOut (tabularLoop (F := F) ctx fields delim length depth r1 l1 count s e)
        (tabularLoop ctx fields delim length depth r2 l2 count s e) := by
  induction hr with
  | nil =>
    intro l1 l2 count s e hl
    rw [tabularLoop.eq_def, tabularLoop.eq_def]
    exact ⟨rfl, ⟨.nil, hl⟩, rfl, rfl, rfl⟩
  | @cons a b as bs hab has ih =>
    intro l1 l2 count s e hl
    rw [tabularLoop.eq_def, tabularLoop.eq_def]
    have h1 := hab.1
    have h3 := hab.2.1
    simp only [h1, pad_values hab.2.2.1 hd, h3]
    have hstop : Sim (fun _ => True) (PadOut (F := F)) (.ok ⟨[], ⟨a :: as, l1⟩, count, s, e⟩) (.ok ⟨[], ⟨b :: bs, l2⟩, count, s, e⟩) :=
      ⟨rfl, ⟨.cons hab has, hl⟩, rfl, rfl, rfl⟩
    split
    · split
      · exact hstop
      · split
        · refine (Sim.eq _).bind fun _ _ _ => ?_
          refine (Sim.eq _).bind ?_
          rintro ps _ rfl
          refine (ih (l1 := some a) (l2 := some b) (count + 1) _ _ hab).bind ?_
          rintro o1 o2 ⟨q1, q2, q3, q4, q5⟩
          exact ⟨by simp [q1], q2, q3, q4, q5⟩
        · exact hstop
    · exact hstop

theorem pad_tabular (ctx : Ctx) (h : Header) (hd : GoodDelim h.delim) (fields : List FieldName) {u1 u2 : Cur} (hu : PadCur u1 u2)
    (base : Nat) : Sim (fun _ => True) PadRes (decodeTabular (F := F) ctx h fields u1 base) (decodeTabular ctx h fields u2 base) := by
  unfold decodeTabular
  refine (pad_tabularLoop ctx fields hd h.length (base + 1) hu.1 0 none none hu.2).bind ?_
  rintro o1 o2 ⟨q1, q2, q3, q4, q5⟩
  rw [q3, q4, q5, pad_noExtraRows q2.1.head _ _ hd]
  refine (Sim.eq _).bind fun _ _ _ => ?_
  refine (Sim.eq _).bind fun _ _ _ => ?_
  refine (Sim.eq _).bind fun _ _ _ => ?_
  exact ⟨q1, q2⟩

/-- The statement of the induction. -/
structure PadAt (F : Type) [F64 F] (ctx : Ctx) (fuel : Nat) : Prop where
  kv : ∀ {x y : Str} {u1 u2 : Cur} base, Pad x y → PadCur u1 u2 →
    Sim (fun _ => True) PadRes (decodeKV (F := F) ctx fuel x u1 base) (decodeKV ctx fuel y u2 base)
  fields : ∀ {u1 u2 : Cur} base comp, PadCur u1 u2 →
    Sim (fun _ => True) PadRes (decodeFields (F := F) ctx fuel u1 base comp) (decodeFields ctx fuel u2 base comp)
  array : ∀ {h : Header} {u1 u2 : Cur} base, GoodDelim h.delim → PadCur u1 u2 →
    Sim (fun _ => True) PadRes (decodeArray (F := F) ctx fuel h u1 base) (decodeArray ctx fuel h u2 base)
  list : ∀ length depth {u1 u2 : Cur} count (s e : Option Nat), PadCur u1 u2 →
    Sim (fun _ => True) PadOut (listLoop (F := F) ctx fuel length depth u1 count s e) (listLoop ctx fuel length depth u2 count s e)
  item : ∀ {u1 u2 : Cur} base, PadCur u1 u2 →
    Sim (fun _ => True) PadRes (decodeItem (F := F) ctx fuel u1 base) (decodeItem ctx fuel u2 base)
  rest : ∀ {x y : Str} {u1 u2 : Cur} base, Pad x y → PadCur u1 u2 →
    Sim (fun _ => True) PadRes (decodeItemRest (F := F) ctx fuel x u1 base) (decodeItemRest ctx fuel y u2 base)
  follow : ∀ {u1 u2 : Cur} base, PadCur u1 u2 →
    Sim (fun _ => True) PadRes (followLoop (F := F) ctx fuel u1 base) (followLoop ctx fuel u2 base)

/-- Both runs see the same header. -/
theorem sim_header (x : Str) : Sim (fun _ => True) (fun a b => a = b ∧ ∀ h, a = some h → GoodDelim h.delim) (parseArrayHeaderLine x ',')
    (parseArrayHeaderLine x ',') := by
  cases hh : parseArrayHeaderLine x ',' with
  | error e => exact fun _ => rfl
  | ok o => exact ⟨rfl, fun h ho => header_delim (by rw [hh, ho])⟩

theorem padAt (ctx : Ctx) (fuel : Nat) : PadAt F ctx fuel := by
  induction fuel with
  | zero =>
    constructor
    · intro x y u1 u2 base hx hu; rw [decodeKV, decodeKV]; exact fun _ => rfl
    · intro u1 u2 base comp hu; rw [decodeFields, decodeFields]; exact fun _ => rfl
    · intro h u1 u2 base hd hu; rw [decodeArray, decodeArray]; exact fun _ => rfl
    · intro length depth u1 u2 count s e hu; rw [listLoop, listLoop]; exact fun _ => rfl
    · intro u1 u2 base hu; rw [decodeItem, decodeItem]; exact fun _ => rfl
    · intro x y u1 u2 base hx hu; rw [decodeItemRest, decodeItemRest]; exact fun _ => rfl
    · intro u1 u2 base hu; rw [followLoop, followLoop]; exact fun _ => rfl
  | succ fuel ih =>
    constructor
    · intro x y u1 u2 base hx hu
      rw [decodeKV, decodeKV, pad_header hx]
      refine (sim_header x).bind ?_
      rintro hdr _ ⟨rfl, hg⟩
      cases hk : keyedHeader hdr with
      | some kh =>
        obtain ⟨key, h⟩ := kh
        simp only
        refine (ih.array base (hg h (keyedHeader_some hk)) hu).bind ?_
        rintro ⟨a1, a2⟩ ⟨b1, b2⟩ ⟨q1, q2⟩
        simp only at q1 q2
        subst q1
        exact ⟨rfl, q2⟩
      | none =>
        simp only
        rw [pad_keyToken hx]
        cases hkt : parseKeyToken x with
        | error e => exact fun _ => rfl
        | ok r =>
        obtain ⟨key, e, quoted⟩ := r
        simp only [Bind.bind, Except.bind, pad_keyRest hx hkt]
        split
        · obtain ⟨hr, hl⟩ := hu
          obtain ⟨r1, l1⟩ := u1
          obtain ⟨r2, l2⟩ := u2
          simp only at hr hl
          cases hr with
          | nil => exact ⟨rfl, .nil, hl⟩
          | @cons a b as bs hab has =>
            simp only [hab.1]
            split
            · refine Sim.bind (ih.fields (base + 1) none (u1 := ⟨a :: as, l1⟩) (u2 := ⟨b :: bs, l2⟩) ⟨.cons hab has, hl⟩) ?_
              rintro ⟨a1, a2⟩ ⟨b1, b2⟩ ⟨q1, q2⟩
              simp only at q1 q2
              subst q1
              exact ⟨rfl, q2⟩
            · exact ⟨rfl, .cons hab has, hl⟩
        · refine Sim.bind (Sim.eq (P := fun _ => True) (parsePrimitiveToken (F := F) (trim (x.drop e)))) ?_
          rintro p _ rfl
          exact ⟨rfl, hu⟩
    · intro u1 u2 base comp hu
      rw [decodeFields, decodeFields]
      obtain ⟨hr, hl⟩ := hu
      obtain ⟨r1, l1⟩ := u1
      obtain ⟨r2, l2⟩ := u2
      simp only at hr hl
      cases hr with
      | nil => exact ⟨rfl, .nil, hl⟩
      | @cons a b as bs hab has =>
        simp only [hab.1]
        split
        · exact ⟨rfl, .cons hab has, hl⟩
        · split
          · refine (ih.kv _ hab.2.2.1 (u1 := ⟨as, some a⟩) (u2 := ⟨bs, some b⟩) ⟨has, hab⟩).bind ?_
            rintro ⟨a1, a2⟩ ⟨b1, b2⟩ ⟨q1, q2⟩
            simp only at q1 q2
            subst q1
            refine (ih.fields _ _ q2).bind ?_
            rintro ⟨x1, x2⟩ ⟨y1, y2⟩ ⟨q1, q2⟩
            simp only at q1 q2
            subst q1
            exact ⟨rfl, q2⟩
          · exact ⟨rfl, .cons hab has, hl⟩
    · intro h u1 u2 base hd hu
      rw [decodeArray, decodeArray]
      cases h.inline with
      | some inline =>
        simp only
        refine (Sim.eq _).bind ?_
        rintro evs _ rfl
        exact ⟨rfl, hu⟩
      | none =>
        simp only
        split
        · refine (ih.list _ _ 0 none none hu).bind ?_
          rintro o1 o2 ⟨q1, q2, q3, q4, q5⟩
          rw [q3, q4, q5, pad_noExtraItems q2.1.head]
          refine (Sim.eq _).bind fun _ _ _ => ?_
          refine (Sim.eq _).bind fun _ _ _ => ?_
          refine (Sim.eq _).bind fun _ _ _ => ?_
          exact ⟨by rw [q1], q2⟩
        · refine (pad_tabular ctx h hd _ hu base).bind ?_
          rintro ⟨a1, a2⟩ ⟨b1, b2⟩ ⟨q1, q2⟩
          simp only at q1 q2
          subst q1
          exact ⟨rfl, q2⟩
    · intro length depth u1 u2 count s e hu
      rw [listLoop, listLoop]
      have hu' := hu
      obtain ⟨hr, hl⟩ := hu
      obtain ⟨r1, l1⟩ := u1
      obtain ⟨r2, l2⟩ := u2
      simp only at hr hl
      cases hr with
      | nil => exact ⟨rfl, ⟨.nil, hl⟩, rfl, rfl, rfl⟩
      | @cons a b as bs hab has =>
        simp only [hab.1, padLine_listItem hab, hab.2.1]
        have hstop : Sim (fun _ => True) (PadOut (F := F)) (.ok ⟨[], ⟨a :: as, l1⟩, count, s, e⟩)
            (.ok ⟨[], ⟨b :: bs, l2⟩, count, s, e⟩) := ⟨rfl, ⟨.cons hab has, hl⟩, rfl, rfl, rfl⟩
        split
        · split
          · exact hstop
          · split
            · refine (ih.item depth hu').bind ?_
              rintro ⟨a1, a2⟩ ⟨b1, b2⟩ ⟨q1, q2⟩
              simp only at q1 q2
              subst q1
              obtain ⟨ar, al⟩ := a2
              obtain ⟨br, bl⟩ := b2
              have hl2 := q2.2
              simp only at hl2
              have hfin : ∀ E : Option Nat, Sim (fun _ => True) (PadOut (F := F))
                  (listLoop ctx fuel length depth ⟨ar, al⟩ (count + 1) (match (generalizing := false) s with | none => some b.num | some s => some s) E >>=
                    fun out => pure { out with evs := a1 ++ out.evs })
                  (listLoop ctx fuel length depth ⟨br, bl⟩ (count + 1) (match (generalizing := false) s with | none => some b.num | some s => some s) E >>=
                    fun out => pure { out with evs := a1 ++ out.evs }) := by
                intro E
                refine (ih.list length depth (count + 1) _ _ q2).bind ?_
                rintro o1 o2 ⟨q1, q2, q3, q4, q5⟩
                exact ⟨by simp [q1], q2, q3, q4, q5⟩
              cases al with
              | none =>
                cases bl with
                | none => exact hfin _
                | some y => exact absurd hl2 (by simp [OptRel])
              | some x =>
                cases bl with
                | none => exact absurd hl2 (by simp [OptRel])
                | some y =>
                  have hn : x.num = y.num := hl2.2.1
                  simp only [hn]
                  exact hfin _
            · exact hstop
        · exact hstop
    · intro u1 u2 base hu
      rw [decodeItem, decodeItem]
      obtain ⟨hr, hl⟩ := hu
      obtain ⟨r1, l1⟩ := u1
      obtain ⟨r2, l2⟩ := u2
      simp only at hr hl
      cases hr with
      | nil => exact fun _ => rfl
      | @cons a b as bs hab has =>
        simp only [padLine_hyphen hab, padLine_dash hab]
        have hcur : PadCur ⟨as, some a⟩ ⟨bs, some b⟩ := ⟨has, hab⟩
        split
        · exact ⟨rfl, hcur⟩
        · split
          · rename_i hdash
            obtain ⟨ht, hp⟩ := padLine_after hab hdash
            rw [ht]
            split
            · exact ⟨rfl, hcur⟩
            · rename_i hne
              have hp := hp (by simpa using hne)
              rw [pad_header hp, pad_isArrayHeader hp]
              refine (sim_header _).bind ?_
              rintro hdr _ ⟨rfl, hg⟩
              have hkeyed : Sim (fun _ => True) (PadRes (F := F))
                  (match keyedHeader hdr with
                  | some (key, h) =>
                    if h.fields.isSome then do
                      let (evs, cur2) ← decodeArray ctx fuel h ⟨as, some a⟩ (base + 1)
                      let (evs', cur3) ← followLoop ctx fuel cur2 (base + 1)
                      return (.startObj :: .key key h.keyQuoted :: evs ++ evs' ++ [.endObj], cur3)
                    else decodeItemRest ctx fuel (a.content.drop 2) ⟨as, some a⟩ base
                  | none => decodeItemRest ctx fuel (a.content.drop 2) ⟨as, some a⟩ base)
                  (match keyedHeader hdr with
                  | some (key, h) =>
                    if h.fields.isSome then do
                      let (evs, cur2) ← decodeArray ctx fuel h ⟨bs, some b⟩ (base + 1)
                      let (evs', cur3) ← followLoop ctx fuel cur2 (base + 1)
                      return (.startObj :: .key key h.keyQuoted :: evs ++ evs' ++ [.endObj], cur3)
                    else decodeItemRest ctx fuel (b.content.drop 2) ⟨bs, some b⟩ base
                  | none => decodeItemRest ctx fuel (b.content.drop 2) ⟨bs, some b⟩ base) := by
                cases hk : keyedHeader hdr with
                | none => exact ih.rest _ hp hcur
                | some kh =>
                  obtain ⟨key, h⟩ := kh
                  simp only
                  split
                  · refine (ih.array _ (hg h (keyedHeader_some hk)) hcur).bind ?_
                    rintro ⟨a1, a2⟩ ⟨b1, b2⟩ ⟨q1, q2⟩
                    simp only at q1 q2
                    subst q1
                    refine (ih.follow _ q2).bind ?_
                    rintro ⟨x1, x2⟩ ⟨y1, y2⟩ ⟨q1, q2⟩
                    simp only at q1 q2
                    subst q1
                    exact ⟨rfl, q2⟩
                  · exact ih.rest _ hp hcur
              cases isArrayHeaderContent (a.content.drop 2) with
              | false => cases hdr <;> exact hkeyed
              | true =>
                cases hdr with
                | none => exact hkeyed
                | some h => exact ih.array base (hg h rfl) hcur
          · exact fun _ => rfl
    · intro x y u1 u2 base hx hu
      rw [decodeItemRest, decodeItemRest, pad_isKeyValue hx, pad_token hx]
      split
      · refine (ih.kv _ hx hu).bind ?_
        rintro ⟨a1, a2⟩ ⟨b1, b2⟩ ⟨q1, q2⟩
        simp only at q1 q2
        subst q1
        refine (ih.follow _ q2).bind ?_
        rintro ⟨x1, x2⟩ ⟨y1, y2⟩ ⟨q1, q2⟩
        simp only at q1 q2
        subst q1
        exact ⟨rfl, q2⟩
      · refine (Sim.eq _).bind ?_
        rintro p _ rfl
        exact ⟨rfl, hu⟩
    · intro u1 u2 base hu
      rw [followLoop, followLoop]
      obtain ⟨hr, hl⟩ := hu
      obtain ⟨r1, l1⟩ := u1
      obtain ⟨r2, l2⟩ := u2
      simp only at hr hl
      cases hr with
      | nil => exact ⟨rfl, .nil, hl⟩
      | @cons a b as bs hab has =>
        simp only [hab.1, padLine_dash hab]
        split
        · exact ⟨rfl, .cons hab has, hl⟩
        · split
          · refine (ih.kv _ hab.2.2.1 (u1 := ⟨as, some a⟩) (u2 := ⟨bs, some b⟩) ⟨has, hab⟩).bind ?_
            rintro ⟨a1, a2⟩ ⟨b1, b2⟩ ⟨q1, q2⟩
            simp only at q1 q2
            subst q1
            refine (ih.follow _ q2).bind ?_
            rintro ⟨x1, x2⟩ ⟨y1, y2⟩ ⟨q1, q2⟩
            simp only at q1 q2
            subst q1
            exact ⟨rfl, q2⟩
          · exact ⟨rfl, .cons hab has, hl⟩

theorem pad_root (ctx : Ctx) (fuel : Nat) : ∀ {u1 u2 : Cur}, PadCur u1 u2 →
    Sim (fun _ => True) PadRes (rootLoop (F := F) ctx fuel u1) (rootLoop ctx fuel u2) := by
  induction fuel with
  | zero => intro u1 u2 hu; rw [rootLoop, rootLoop]; exact fun _ => rfl
  | succ fuel ih =>
    intro u1 u2 hu
    rw [rootLoop, rootLoop]
    obtain ⟨hr, hl⟩ := hu
    obtain ⟨r1, l1⟩ := u1
    obtain ⟨r2, l2⟩ := u2
    simp only at hr hl
    cases hr with
    | nil => exact ⟨rfl, .nil, hl⟩
    | @cons a b as bs hab has =>
      simp only [hab.1]
      split
      · exact ⟨rfl, .cons hab has, hl⟩
      · refine ((padAt ctx fuel).kv _ hab.2.2.1 (u1 := ⟨as, some a⟩) (u2 := ⟨bs, some b⟩) ⟨has, hab⟩).bind ?_
        rintro ⟨a1, a2⟩ ⟨b1, b2⟩ ⟨q1, q2⟩
        simp only at q1 q2
        subst q1
        refine (ih q2).bind ?_
        rintro ⟨x1, x2⟩ ⟨y1, y2⟩ ⟨q1, q2⟩
        simp only at q1 q2
        subst q1
        exact ⟨rfl, q2⟩

theorem sim_true_eq {α : Type} {x y : Except Err α} (h : Sim (fun _ => True) Eq x y) : x = y := by
  cases x with
  | ok a => obtain ⟨b, h1, h2⟩ := h.ok rfl; rw [h1, h2]
  | error e => rw [h.error trivial rfl]

/-- The whole decoder after scanning. -/
theorem pad_lines (ctx : Ctx) {ls1 ls2 : List Line} (h : PadLines ls1 ls2) :
    decodeLines (F := F) ctx ls1 = decodeLines ctx ls2 := by
  refine sim_true_eq ?_
  unfold decodeLines
  cases h with
  | nil => exact rfl
  | @cons a b as bs hab has =>
    have hlen : as.length = bs.length := has.length
    have hcur : PadCur ⟨as, some a⟩ ⟨bs, some b⟩ := ⟨has, hab⟩
    have he : as.isEmpty = bs.isEmpty := by cases has <;> rfl
    have hx := hab.2.2.1
    have hroot : rootHeader b.content = rootHeader a.content := by
      unfold rootHeader; rw [pad_isArrayHeader hx, pad_header hx]
    simp only [hroot, List.length_cons, hlen, he, pad_isKeyValueLine hx, pad_trim hx]
    have hsim : Sim (fun _ => True) (fun x y => x = y ∧ ∀ h, x = some h → GoodDelim h.delim) (rootHeader a.content) (rootHeader a.content) := by
      unfold rootHeader
      split
      · exact sim_header _
      · exact ⟨rfl, fun h h0 => by simp at h0⟩
    refine hsim.bind ?_
    rintro hdr _ ⟨rfl, hg⟩
    cases hdr with
    | some h =>
      simp only
      refine ((padAt ctx _).array 0 (hg h rfl) hcur).bind ?_
      rintro ⟨a1, a2⟩ ⟨b1, b2⟩ ⟨q1, q2⟩
      exact q1
    | none =>
      simp only
      split
      · exact Sim.eq _
      · refine ((padAt ctx _).kv 0 hx hcur).bind ?_
        rintro ⟨a1, a2⟩ ⟨b1, b2⟩ ⟨q1, q2⟩
        simp only at q1 q2
        subst q1
        refine (pad_root ctx _ q2).bind ?_
        rintro ⟨x1, x2⟩ ⟨y1, y2⟩ ⟨q1, q2⟩
        simp only at q1 q2
        subst q1
        exact rfl

end Toon
