import Verif.Lemmas.DecodeAll
import Verif.Spec.Retry

/-! Two runs of the decoder on the same lines with different line numbers and different strictness. -/

namespace Toon

/-- The second run succeeds whenever the first one does, with a related result; if the first one fails with an error
of which `P` holds, the second one fails alike. -/
def Sim {α β : Type} (P : Err → Prop) (R : α → β → Prop) : Except Err α → Except Err β → Prop
  | .ok a, .ok b => R a b
  | .ok _, .error _ => False
  | .error e, .ok _ => ¬P e
  | .error e, .error e' => P e → e = e'

theorem Sim.bind {α β γ δ : Type} {P : Err → Prop} {R : α → β → Prop} {S : γ → δ → Prop} {x : Except Err α} {y : Except Err β}
    {f : α → Except Err γ} {g : β → Except Err δ} (h : Sim P R x y) (hf : ∀ a b, R a b → Sim P S (f a) (g b)) :
    Sim P S (x >>= f) (y >>= g) := by
  cases x with
  | ok a =>
    cases y with
    | ok b => exact hf a b h
    | error e => exact absurd h (by simp [Sim])
  | error e =>
    cases y with
    | ok b =>
      simp only [Sim] at h
      simp only [Bind.bind, Except.bind]
      cases g b with
      | ok d => exact h
      | error e' => exact fun hp => absurd hp h
    | error e' => exact h

theorem Sim.same {α : Type} {P : Err → Prop} {R : α → α → Prop} (hr : ∀ a, R a a) (x : Except Err α) : Sim P R x x := by
  cases x with
  | ok a => exact hr a
  | error e => exact fun _ => rfl

theorem Sim.eq {α : Type} {P : Err → Prop} (x : Except Err α) : Sim P Eq x x := Sim.same (fun _ => rfl) x

theorem Sim.ok {α β : Type} {P : Err → Prop} {R : α → β → Prop} {x : Except Err α} {y : Except Err β} {a : α}
    (h : Sim P R x y) (hx : x = .ok a) : ∃ b, y = .ok b ∧ R a b := by
  subst hx
  cases y with
  | ok b => exact ⟨b, rfl, h⟩
  | error e => exact absurd h (by simp [Sim])

theorem Sim.error {α β : Type} {P : Err → Prop} {R : α → β → Prop} {x : Except Err α} {y : Except Err β} {e : Err}
    (h : Sim P R x y) (hp : P e) (hx : x = .error e) : y = .error e := by
  subst hx
  cases y with
  | ok b => exact absurd hp h
  | error e' => rw [h hp]

/-- Equal lines up to related line numbers. -/
def LineRel (Q : Nat → Nat → Prop) (a b : Line) : Prop := a.depth = b.depth ∧ a.content = b.content ∧ Q a.num b.num

inductive LinesRel (Q : Nat → Nat → Prop) : List Line → List Line → Prop
  | nil : LinesRel Q [] []
  | cons {a b : Line} {as bs : List Line} : LineRel Q a b → LinesRel Q as bs → LinesRel Q (a :: as) (b :: bs)

theorem LinesRel.flip {Q : Nat → Nat → Prop} {a b : List Line} (h : LinesRel Q a b) :
    LinesRel (fun x y => Q y x) b a := by
  induction h with
  | nil => exact .nil
  | cons h _ ih => exact .cons ⟨h.1.symm, h.2.1.symm, h.2.2⟩ ih

theorem LinesRel.length {Q : Nat → Nat → Prop} {a b : List Line} (h : LinesRel Q a b) : a.length = b.length := by
  induction h with
  | nil => rfl
  | cons _ _ ih => simp [ih]

def OptRel {α : Type} (R : α → α → Prop) : Option α → Option α → Prop
  | none, none => True
  | some a, some b => R a b
  | _, _ => False

theorem LinesRel.head {Q : Nat → Nat → Prop} {a b : List Line} (h : LinesRel Q a b) :
    OptRel (LineRel Q) a.head? b.head? := by
  cases h with
  | nil => trivial
  | cons h _ => exact h

def CurRel (Q : Nat → Nat → Prop) (a b : Cur) : Prop := LinesRel Q a.rest b.rest ∧ OptRel (LineRel Q) a.last b.last

/-- The contexts of the two runs. -/
structure Compat (P : Err → Prop) (Q : Nat → Nat → Prop) (c1 c2 : Ctx) : Prop where
  weaker : c2.strict = true → c1.strict = true
  same : ∀ e, strictOnly e = true → P e → c1.strict = c2.strict
  check : ∀ s1 s2 e1 e2, Q s1 s2 → Q e1 e2 →
    ∀ table, Sim P Eq (noBlankInRange s1 e1 c1.blanks c1.strict table) (noBlankInRange s2 e2 c2.blanks c2.strict table)

variable {P : Err → Prop} {Q : Nat → Nat → Prop} {c1 c2 : Ctx}

theorem sim_if (hc : Compat P Q c1 c2) (b : Bool) (e : Err) (he : strictOnly e = true) :
    Sim P Eq (if c1.strict && b then (.error e : Except Err Unit) else .ok ())
      (if c2.strict && b then .error e else .ok ()) := by
  cases h1 : c1.strict <;> cases h2 : c2.strict <;> cases b <;> simp [Sim]
  · exact absurd (hc.weaker h2) (by simp [h1])
  · intro hp
    have := hc.same e he hp
    simp [h1, h2] at this

theorem sim_assertCount (hc : Compat P Q c1 c2) (a n : Nat) (w : Counted) : Sim P Eq (assertCount a n w c1.strict) (assertCount a n w c2.strict) :=
  sim_if hc _ _ rfl

theorem sim_noExtraItems (hc : Compat P Q c1 c2) {n1 n2 : Option Line} (h : OptRel (LineRel Q) n1 n2) (d n : Nat) :
    Sim P Eq (noExtraItems n1 d n c1.strict) (noExtraItems n2 d n c2.strict) := by
  unfold noExtraItems
  match n1, n2, h with
  | none, none, _ => exact rfl
  | some a, some b, h =>
    obtain ⟨h1, h2, _⟩ := h
    simp only [h1, h2, Bool.and_assoc]
    exact sim_if hc _ _ rfl

theorem sim_noExtraRows (hc : Compat P Q c1 c2) {n1 n2 : Option Line} (h : OptRel (LineRel Q) n1 n2) (d n : Nat) (c : Char) :
    Sim P Eq (noExtraRows n1 d n c c1.strict) (noExtraRows n2 d n c c2.strict) := by
  unfold noExtraRows
  match n1, n2, h with
  | none, none, _ => exact rfl
  | some a, some b, h =>
    obtain ⟨h1, h2, _⟩ := h
    simp only [h1, h2, Bool.and_assoc]
    exact sim_if hc _ _ rfl

theorem sim_checkBlanks (hc : Compat P Q c1 c2) {s1 s2 e1 e2 : Option Nat} (hs : OptRel Q s1 s2) (he : OptRel Q e1 e2) (table : Bool) :
    Sim P Eq (checkBlanks c1 table s1 e1) (checkBlanks c2 table s2 e2) := by
  unfold checkBlanks
  match s1, s2, e1, e2, hs, he with
  | none, none, _, _, _, _ => exact rfl
  | some a, some b, none, none, _, _ => exact rfl
  | some a, some b, some c, some d, hs, he => exact hc.check a b c d hs he table

section
variable {F : Type} [F64 F]

/-- Related results of the array loops. -/
def OutRel (Q : Nat → Nat → Prop) (a b : LoopOut F) : Prop :=
  a.evs = b.evs ∧ CurRel Q a.cur b.cur ∧ a.count = b.count ∧ OptRel Q a.start b.start ∧ OptRel Q a.end b.end

/-- Related results of the decoder functions. -/
def ResRel (Q : Nat → Nat → Prop) (a b : List (Ev F) × Cur) : Prop := a.1 = b.1 ∧ CurRel Q a.2 b.2

theorem sim_inline (hc : Compat P Q c1 c2) (h : Header) (inline : Str) :
    Sim P Eq (decodeInline (F := F) h inline c1.strict) (decodeInline h inline c2.strict) := by
  unfold decodeInline
  split
  · exact (sim_assertCount hc _ _ _).bind fun _ _ _ => Sim.eq _
  · refine (Sim.eq _).bind ?_
    rintro a _ rfl
    exact (sim_assertCount hc _ _ _).bind fun _ _ _ => Sim.eq _

theorem sim_tabularLoop (hc : Compat P Q c1 c2) (fields : List FieldName) (delim : Char) (length depth : Nat)
    {r1 r2 : List Line} (hr : LinesRel Q r1 r2) : ∀ {l1 l2 : Option Line} (count : Nat) {s1 s2 e1 e2 : Option Nat},
      OptRel (LineRel Q) l1 l2 → OptRel Q s1 s2 → OptRel Q e1 e2 →
      Sim P (OutRel Q) (tabularLoop (F := F) c1 fields delim length depth r1 l1 count s1 e1)
        (tabularLoop c2 fields delim length depth r2 l2 count s2 e2) := by
  induction hr with
  | nil =>
    intro l1 l2 count s1 s2 e1 e2 hl hs he
    rw [tabularLoop.eq_def, tabularLoop.eq_def]
    exact ⟨rfl, ⟨.nil, hl⟩, rfl, hs, he⟩
  | @cons a b as bs hab has ih =>
    intro l1 l2 count s1 s2 e1 e2 hl hs he
    rw [tabularLoop.eq_def, tabularLoop.eq_def]
    obtain ⟨h1, h2, h3⟩ := hab
    simp only [h1, h2]
    have hstop : Sim P (OutRel (F := F) Q) (.ok ⟨[], ⟨a :: as, l1⟩, count, s1, e1⟩) (.ok ⟨[], ⟨b :: bs, l2⟩, count, s2, e2⟩) :=
      ⟨rfl, ⟨.cons ⟨h1, h2, h3⟩ has, hl⟩, rfl, hs, he⟩
    split
    · split
      · exact hstop
      · split
        · refine (sim_assertCount hc _ _ _).bind fun _ _ _ => ?_
          refine (Sim.eq _).bind ?_
          rintro ps _ rfl
          have hs' : OptRel Q (match (generalizing := false) s1 with | none => some a.num | some s => some s)
              (match (generalizing := false) s2 with | none => some b.num | some s => some s) := by
            match s1, s2, hs with
            | none, none, _ => exact h3
            | some x, some y, hs => exact hs
          refine (ih (l1 := some a) (l2 := some b) (count + 1) ⟨h1, h2, h3⟩ hs' (e1 := some a.num) (e2 := some b.num) h3).bind ?_
          rintro o1 o2 ⟨q1, q2, q3, q4, q5⟩
          exact ⟨by simp [q1], q2, q3, q4, q5⟩
        · exact hstop
    · exact hstop

theorem sim_tabular (hc : Compat P Q c1 c2) (h : Header) (fields : List FieldName) {u1 u2 : Cur} (hu : CurRel Q u1 u2)
    (base : Nat) : Sim P (ResRel Q) (decodeTabular (F := F) c1 h fields u1 base) (decodeTabular c2 h fields u2 base) := by
  unfold decodeTabular
  refine (sim_tabularLoop hc fields h.delim h.length (base + 1) hu.1 0 hu.2 (s1 := none) (s2 := none) trivial
    (e1 := none) (e2 := none) trivial).bind ?_
  rintro o1 o2 ⟨q1, q2, q3, q4, q5⟩
  rw [q3]
  refine (sim_assertCount hc _ _ _).bind fun _ _ _ => ?_
  refine (sim_checkBlanks hc q4 q5 _).bind fun _ _ _ => ?_
  refine (sim_noExtraRows hc q2.1.head _ _ _).bind fun _ _ _ => ?_
  exact ⟨q1, q2⟩

/-- The statement of the induction. -/
structure SimAt (F : Type) [F64 F] (P : Err → Prop) (Q : Nat → Nat → Prop) (c1 c2 : Ctx) (fuel : Nat) : Prop where
  kv : ∀ content {u1 u2 : Cur} base, CurRel Q u1 u2 →
    Sim P (ResRel Q) (decodeKV (F := F) c1 fuel content u1 base) (decodeKV c2 fuel content u2 base)
  fields : ∀ {u1 u2 : Cur} base comp, CurRel Q u1 u2 →
    Sim P (ResRel Q) (decodeFields (F := F) c1 fuel u1 base comp) (decodeFields c2 fuel u2 base comp)
  array : ∀ h {u1 u2 : Cur} base, CurRel Q u1 u2 →
    Sim P (ResRel Q) (decodeArray (F := F) c1 fuel h u1 base) (decodeArray c2 fuel h u2 base)
  list : ∀ length depth {u1 u2 : Cur} count {s1 s2 e1 e2 : Option Nat}, CurRel Q u1 u2 → OptRel Q s1 s2 → OptRel Q e1 e2 →
    Sim P (OutRel Q) (listLoop (F := F) c1 fuel length depth u1 count s1 e1)
      (listLoop c2 fuel length depth u2 count s2 e2)
  item : ∀ {u1 u2 : Cur} base, CurRel Q u1 u2 →
    Sim P (ResRel Q) (decodeItem (F := F) c1 fuel u1 base) (decodeItem c2 fuel u2 base)
  rest : ∀ after {u1 u2 : Cur} base, CurRel Q u1 u2 →
    Sim P (ResRel Q) (decodeItemRest (F := F) c1 fuel after u1 base) (decodeItemRest c2 fuel after u2 base)
  follow : ∀ {u1 u2 : Cur} base, CurRel Q u1 u2 →
    Sim P (ResRel Q) (followLoop (F := F) c1 fuel u1 base) (followLoop c2 fuel u2 base)

theorem simAt (hc : Compat P Q c1 c2) (fuel : Nat) : SimAt F P Q c1 c2 fuel := by
  induction fuel with
  | zero =>
    constructor
    · intro content u1 u2 base hu; rw [decodeKV, decodeKV]; exact fun _ => rfl
    · intro u1 u2 base comp hu; rw [decodeFields, decodeFields]; exact fun _ => rfl
    · intro h u1 u2 base hu; rw [decodeArray, decodeArray]; exact fun _ => rfl
    · intro length depth u1 u2 count s1 s2 e1 e2 hu hs he; rw [listLoop, listLoop]; exact fun _ => rfl
    · intro u1 u2 base hu; rw [decodeItem, decodeItem]; exact fun _ => rfl
    · intro after u1 u2 base hu; rw [decodeItemRest, decodeItemRest]; exact fun _ => rfl
    · intro u1 u2 base hu; rw [followLoop, followLoop]; exact fun _ => rfl
  | succ fuel ih =>
    constructor
    · intro content u1 u2 base hu
      rw [decodeKV, decodeKV]
      refine (Sim.eq _).bind ?_
      rintro hdr _ rfl
      cases hk : keyedHeader hdr with
      | some kh =>
        obtain ⟨key, h⟩ := kh
        simp only
        refine (ih.array h base hu).bind ?_
        rintro ⟨a1, a2⟩ ⟨b1, b2⟩ ⟨q1, q2⟩
        simp only at q1 q2
        subst q1
        exact ⟨rfl, q2⟩
      | none =>
        simp only
        refine (Sim.eq _).bind ?_
        rintro ⟨key, e, quoted⟩ _ rfl
        simp only
        split
        · obtain ⟨hr, hl⟩ := hu
          obtain ⟨r1, l1⟩ := u1
          obtain ⟨r2, l2⟩ := u2
          simp only at hr hl
          cases hr with
          | nil => exact ⟨rfl, .nil, hl⟩
          | @cons a b as bs hab has =>
            simp only [hab.1]
            split
            · refine (ih.fields (base + 1) none ⟨.cons hab has, hl⟩).bind ?_
              rintro ⟨a1, a2⟩ ⟨b1, b2⟩ ⟨q1, q2⟩
              simp only at q1 q2
              subst q1
              exact ⟨rfl, q2⟩
            · exact ⟨rfl, .cons hab has, hl⟩
        · refine (Sim.eq _).bind ?_
          rintro p _ rfl
          exact ⟨rfl, hu⟩
    · intro u1 u2 base comp hu
      rw [decodeFields, decodeFields]
      obtain ⟨hr, hl⟩ := hu
      obtain ⟨r1, l1⟩ := u1
      obtain ⟨r2, l2⟩ := u2
      simp only at hr hl
      cases hr with
      | nil => exact ⟨rfl, .nil, hl⟩
      | @cons a b as bs hab has =>
        simp only [hab.1, hab.2.1]
        split
        · exact ⟨rfl, .cons hab has, hl⟩
        · split
          · refine (ih.kv _ _ (u1 := ⟨as, some a⟩) (u2 := ⟨bs, some b⟩) ⟨has, hab⟩).bind ?_
            rintro ⟨a1, a2⟩ ⟨b1, b2⟩ ⟨q1, q2⟩
            simp only at q1 q2
            subst q1
            refine (ih.fields _ _ q2).bind ?_
            rintro ⟨x1, x2⟩ ⟨y1, y2⟩ ⟨q1, q2⟩
            simp only at q1 q2
            subst q1
            exact ⟨rfl, q2⟩
          · exact ⟨rfl, .cons hab has, hl⟩
    · intro h u1 u2 base hu
      rw [decodeArray, decodeArray]
      cases h.inline with
      | some inline =>
        simp only
        refine (sim_inline hc h inline).bind ?_
        rintro evs _ rfl
        exact ⟨rfl, hu⟩
      | none =>
        simp only
        split
        · refine (ih.list _ _ 0 hu (s1 := none) (s2 := none) trivial (e1 := none) (e2 := none) trivial).bind ?_
          rintro o1 o2 ⟨q1, q2, q3, q4, q5⟩
          rw [q3]
          refine (sim_assertCount hc _ _ _).bind fun _ _ _ => ?_
          refine (sim_checkBlanks hc q4 q5 _).bind fun _ _ _ => ?_
          refine (sim_noExtraItems hc q2.1.head _ _).bind fun _ _ _ => ?_
          exact ⟨by rw [q1], q2⟩
        · refine (sim_tabular hc h _ hu base).bind ?_
          rintro ⟨a1, a2⟩ ⟨b1, b2⟩ ⟨q1, q2⟩
          simp only at q1 q2
          subst q1
          exact ⟨rfl, q2⟩
    · intro length depth u1 u2 count s1 s2 e1 e2 hu hs he
      rw [listLoop, listLoop]
      have hu' := hu
      obtain ⟨hr, hl⟩ := hu
      obtain ⟨r1, l1⟩ := u1
      obtain ⟨r2, l2⟩ := u2
      simp only at hr hl
      cases hr with
      | nil => exact ⟨rfl, ⟨.nil, hl⟩, rfl, hs, he⟩
      | @cons a b as bs hab has =>
        simp only [hab.1, hab.2.1]
        have hstop : Sim P (OutRel (F := F) Q) (.ok ⟨[], ⟨a :: as, l1⟩, count, s1, e1⟩)
            (.ok ⟨[], ⟨b :: bs, l2⟩, count, s2, e2⟩) := ⟨rfl, ⟨.cons hab has, hl⟩, rfl, hs, he⟩
        split
        · split
          · exact hstop
          · split
            · refine (ih.item depth hu').bind ?_
              rintro ⟨a1, a2⟩ ⟨b1, b2⟩ ⟨q1, q2⟩
              simp only at q1 q2
              subst q1
              have hs' : OptRel Q (match (generalizing := false) s1 with | none => some a.num | some s => some s)
                  (match (generalizing := false) s2 with | none => some b.num | some s => some s) := by
                match s1, s2, hs with
                | none, none, _ => exact hab.2.2
                | some x, some y, hs => exact hs
              have he' : OptRel Q (match a2.last with | some l => some l.num | none => some a.num)
                  (match b2.last with | some l => some l.num | none => some b.num) := by
                have := q2.2
                match a2.last, b2.last, this with
                | none, none, _ => exact hab.2.2
                | some x, some y, hs => exact hs.2.2
              refine (ih.list length depth (count + 1) q2 hs' he').bind ?_
              rintro o1 o2 ⟨q1, q2, q3, q4, q5⟩
              exact ⟨by simp [q1], q2, q3, q4, q5⟩
            · exact hstop
        · exact hstop
    · intro u1 u2 base hu
      rw [decodeItem, decodeItem]
      obtain ⟨hr, hl⟩ := hu
      obtain ⟨r1, l1⟩ := u1
      obtain ⟨r2, l2⟩ := u2
      simp only at hr hl
      cases hr with
      | nil => exact fun _ => rfl
      | @cons a b as bs hab has =>
        simp only [hab.2.1]
        have hcur : CurRel Q ⟨as, some a⟩ ⟨bs, some b⟩ := ⟨has, hab⟩
        split
        · exact ⟨rfl, hcur⟩
        · split
          · split
            · exact ⟨rfl, hcur⟩
            · refine (Sim.eq _).bind ?_
              rintro hdr _ rfl
              have hkeyed : Sim P (ResRel (F := F) Q)
                  (match keyedHeader hdr with
                  | some (key, h) =>
                    if h.fields.isSome then do
                      let (evs, cur2) ← decodeArray c1 fuel h ⟨as, some a⟩ (base + 1)
                      let (evs', cur3) ← followLoop c1 fuel cur2 (base + 1)
                      return (.startObj :: .key key h.keyQuoted :: evs ++ evs' ++ [.endObj], cur3)
                    else decodeItemRest c1 fuel (b.content.drop 2) ⟨as, some a⟩ base
                  | none => decodeItemRest c1 fuel (b.content.drop 2) ⟨as, some a⟩ base)
                  (match keyedHeader hdr with
                  | some (key, h) =>
                    if h.fields.isSome then do
                      let (evs, cur2) ← decodeArray c2 fuel h ⟨bs, some b⟩ (base + 1)
                      let (evs', cur3) ← followLoop c2 fuel cur2 (base + 1)
                      return (.startObj :: .key key h.keyQuoted :: evs ++ evs' ++ [.endObj], cur3)
                    else decodeItemRest c2 fuel (b.content.drop 2) ⟨bs, some b⟩ base
                  | none => decodeItemRest c2 fuel (b.content.drop 2) ⟨bs, some b⟩ base) := by
                cases keyedHeader hdr with
                | none => exact ih.rest _ _ hcur
                | some kh =>
                  obtain ⟨key, h⟩ := kh
                  simp only
                  split
                  · refine (ih.array _ _ hcur).bind ?_
                    rintro ⟨a1, a2⟩ ⟨b1, b2⟩ ⟨q1, q2⟩
                    simp only at q1 q2
                    subst q1
                    refine (ih.follow _ q2).bind ?_
                    rintro ⟨x1, x2⟩ ⟨y1, y2⟩ ⟨q1, q2⟩
                    simp only at q1 q2
                    subst q1
                    exact ⟨rfl, q2⟩
                  · exact ih.rest _ _ hcur
              cases isArrayHeaderContent (b.content.drop 2) with
              | false => cases hdr <;> exact hkeyed
              | true =>
                cases hdr with
                | none => exact hkeyed
                | some h => exact ih.array h base hcur
          · exact fun _ => rfl
    · intro after u1 u2 base hu
      rw [decodeItemRest, decodeItemRest]
      split
      · refine (ih.kv _ _ hu).bind ?_
        rintro ⟨a1, a2⟩ ⟨b1, b2⟩ ⟨q1, q2⟩
        simp only at q1 q2
        subst q1
        refine (ih.follow _ q2).bind ?_
        rintro ⟨x1, x2⟩ ⟨y1, y2⟩ ⟨q1, q2⟩
        simp only at q1 q2
        subst q1
        exact ⟨rfl, q2⟩
      · refine (Sim.eq _).bind ?_
        rintro p _ rfl
        exact ⟨rfl, hu⟩
    · intro u1 u2 base hu
      rw [followLoop, followLoop]
      obtain ⟨hr, hl⟩ := hu
      obtain ⟨r1, l1⟩ := u1
      obtain ⟨r2, l2⟩ := u2
      simp only at hr hl
      cases hr with
      | nil => exact ⟨rfl, .nil, hl⟩
      | @cons a b as bs hab has =>
        simp only [hab.1, hab.2.1]
        split
        · exact ⟨rfl, .cons hab has, hl⟩
        · split
          · refine (ih.kv _ _ (u1 := ⟨as, some a⟩) (u2 := ⟨bs, some b⟩) ⟨has, hab⟩).bind ?_
            rintro ⟨a1, a2⟩ ⟨b1, b2⟩ ⟨q1, q2⟩
            simp only at q1 q2
            subst q1
            refine (ih.follow _ q2).bind ?_
            rintro ⟨x1, x2⟩ ⟨y1, y2⟩ ⟨q1, q2⟩
            simp only at q1 q2
            subst q1
            exact ⟨rfl, q2⟩
          · exact ⟨rfl, .cons hab has, hl⟩

theorem sim_root (hc : Compat P Q c1 c2) (fuel : Nat) : ∀ {u1 u2 : Cur}, CurRel Q u1 u2 →
    Sim P (ResRel Q) (rootLoop (F := F) c1 fuel u1) (rootLoop c2 fuel u2) := by
  induction fuel with
  | zero => intro u1 u2 hu; rw [rootLoop, rootLoop]; exact fun _ => rfl
  | succ fuel ih =>
    intro u1 u2 hu
    rw [rootLoop, rootLoop]
    obtain ⟨hr, hl⟩ := hu
    obtain ⟨r1, l1⟩ := u1
    obtain ⟨r2, l2⟩ := u2
    simp only at hr hl
    cases hr with
    | nil => exact ⟨rfl, .nil, hl⟩
    | @cons a b as bs hab has =>
      simp only [hab.1, hab.2.1]
      split
      · exact ⟨rfl, .cons hab has, hl⟩
      · refine ((simAt hc fuel).kv _ _ (u1 := ⟨as, some a⟩) (u2 := ⟨bs, some b⟩) ⟨has, hab⟩).bind ?_
        rintro ⟨a1, a2⟩ ⟨b1, b2⟩ ⟨q1, q2⟩
        simp only at q1 q2
        subst q1
        refine (ih q2).bind ?_
        rintro ⟨x1, x2⟩ ⟨y1, y2⟩ ⟨q1, q2⟩
        simp only at q1 q2
        subst q1
        exact ⟨rfl, q2⟩

/-- The whole decoder after scanning. -/
theorem sim_lines (hc : Compat P Q c1 c2) {ls1 ls2 : List Line} (h : LinesRel Q ls1 ls2) :
    Sim P Eq (decodeLines (F := F) c1 ls1) (decodeLines c2 ls2) := by
  unfold decodeLines
  cases h with
  | nil => exact rfl
  | @cons a b as bs hab has =>
    have hlen : as.length = bs.length := has.length
    have hcur : CurRel Q ⟨as, some a⟩ ⟨bs, some b⟩ := ⟨has, hab⟩
    have he : as.isEmpty = bs.isEmpty := by cases has <;> rfl
    simp only [hab.2.1, List.length_cons, hlen, he]
    refine (Sim.eq _).bind ?_
    rintro hdr _ rfl
    cases hdr with
    | some h =>
      simp only
      refine ((simAt hc _).array h 0 hcur).bind ?_
      rintro ⟨a1, a2⟩ ⟨b1, b2⟩ ⟨q1, q2⟩
      exact q1
    | none =>
      simp only
      split
      · exact Sim.eq _
      · refine ((simAt hc _).kv _ 0 hcur).bind ?_
        rintro ⟨a1, a2⟩ ⟨b1, b2⟩ ⟨q1, q2⟩
        simp only at q1 q2
        subst q1
        refine (sim_root hc _ q2).bind ?_
        rintro ⟨x1, x2⟩ ⟨y1, y2⟩ ⟨q1, q2⟩
        simp only at q1 q2
        subst q1
        exact rfl

end

end Toon
