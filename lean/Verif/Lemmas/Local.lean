import Verif.Lemmas.Fuel
import Verif.Spec.Consumed

/-! The decoder reads the lines in order and looks one line ahead. -/

namespace Toon

/-- Success with `a`, unless the recursion budget runs out. -/
def Fok {α : Type} (x : Except Err α) (a : α) : Prop := x = .error .fuel ∨ x = .ok a

theorem Fok.ok {α : Type} (a : α) : Fok (.ok a) a := .inr rfl

theorem Fok.bind {α β : Type} {x : Except Err α} {f : α → Except Err β} {a : α} {b : β} (h : Fok x a) (hf : Fok (f a) b) :
    Fok (x >>= f) b := by
  rcases h with rfl | rfl
  · exact .inl rfl
  · exact hf

theorem Fok.bindEq {α β : Type} {x : Except Err α} {f : α → Except Err β} {a : α} {b : β} (h : x = .ok a) (hf : Fok (f a) b) :
    Fok (x >>= f) b := Fok.bind (.inr h) hf

section
variable {F : Type} [F64 F]

/-- The run from `u` that ended in `u'` with the result `evs` read the lines `p`; it gives the same
result before any other lines that start with the same line. -/
def Stable (X : Nat → Cur → Except Err (List (Ev F) × Cur)) (u u' : Cur) (evs : List (Ev F)) : Prop :=
  ∃ p, u.rest = p ++ u'.rest ∧ ∀ r fuel, r.head? = u'.rest.head? →
    Fok (X fuel ⟨p ++ r, u.last⟩) (evs, ⟨r, u'.last⟩)

def StableLoop (X : Nat → Cur → Except Err (LoopOut F)) (u : Cur) (out : LoopOut F) : Prop :=
  ∃ p, u.rest = p ++ out.cur.rest ∧ ∀ r fuel, r.head? = out.cur.rest.head? →
    Fok (X fuel ⟨p ++ r, u.last⟩) { out with cur := ⟨r, out.cur.last⟩ }

omit F [F64 F] in
theorem head_append {α : Type} (p r r' : List α) (h : r.head? = r'.head?) : (p ++ r).head? = (p ++ r').head? := by
  cases p with
  | nil => exact h
  | cons a p => rfl

omit F [F64 F] in
/-- The other remaining lines have the same shape. -/
theorem head_cases {α : Type} {r : List α} {l : α} {ls : List α} (h : r.head? = (l :: ls).head?) : ∃ t, r = l :: t := by
  cases r with
  | nil => simp at h
  | cons a t => simp at h; exact ⟨t, by rw [h]⟩

theorem stable_tabularLoop (ctx : Ctx) (fields : List FieldName) (d : Char) (length depth : Nat) (rest : List Line) :
    ∀ (last : Option Line) (count : Nat) (s e : Option Nat) (out : LoopOut F),
      tabularLoop ctx fields d length depth rest last count s e = .ok out →
      ∃ p, rest = p ++ out.cur.rest ∧ ∀ r : List Line, r.head? = out.cur.rest.head? →
        tabularLoop ctx fields d length depth (p ++ r) last count s e = .ok { out with cur := ⟨r, out.cur.last⟩ } := by
  induction rest with
  | nil =>
    intro last count s e out h
    rw [tabularLoop.eq_def] at h
    simp only [Except.ok.injEq] at h
    subst h
    refine ⟨[], rfl, fun r hr => ?_⟩
    cases r with
    | nil => rw [tabularLoop.eq_def]; rfl
    | cons a t => simp at hr
  | cons l ls ih =>
    intro last count s e out h
    have hstop : ∀ (hx : tabularLoop (F := F) ctx fields d length depth (l :: ls) last count s e =
          .ok ⟨[], ⟨l :: ls, last⟩, count, s, e⟩)
        (hall : ∀ t, tabularLoop (F := F) ctx fields d length depth (l :: t) last count s e = .ok ⟨[], ⟨l :: t, last⟩, count, s, e⟩),
        ∃ p, l :: ls = p ++ out.cur.rest ∧ ∀ r : List Line, r.head? = out.cur.rest.head? →
        tabularLoop ctx fields d length depth (p ++ r) last count s e = .ok { out with cur := ⟨r, out.cur.last⟩ } := by
      intro hx hall
      rw [h] at hx
      simp only [Except.ok.injEq] at hx
      subst hx
      refine ⟨[], rfl, fun r hr => ?_⟩
      obtain ⟨t, rfl⟩ := head_cases hr
      exact hall t
    by_cases hc : count < length
    · by_cases h1 : l.depth < depth
      · exact hstop (by rw [tabularLoop.eq_def]; simp [hc, h1]) (fun t => by rw [tabularLoop.eq_def]; simp [hc, h1])
      · by_cases h2 : l.depth = depth
        · rw [tabularLoop.eq_def] at h
          simp only [hc, h1, h2, if_true, if_false] at h
          rw [if_neg (Nat.lt_irrefl _)] at h
          obtain ⟨_, a1, h⟩ := bind_ok.mp h
          obtain ⟨ps, a2, h⟩ := bind_ok.mp h
          obtain ⟨o, a3, h⟩ := bind_ok.mp h
          simp only [pure, Except.pure, Except.ok.injEq] at h
          subst h
          obtain ⟨p, hp, hq⟩ := ih _ _ _ _ _ a3
          refine ⟨l :: p, by simp only [List.cons_append]; rw [← hp], fun r hr => ?_⟩
          rw [List.cons_append, tabularLoop.eq_def]
          simp only [hc, h2, Nat.lt_irrefl, if_true, if_false, a1, a2, hq r hr, bind, Except.bind, pure, Except.pure]
        · exact hstop (by rw [tabularLoop.eq_def]; simp [hc, h1, h2]) (fun t => by rw [tabularLoop.eq_def]; simp [hc, h1, h2])
    · exact hstop (by rw [tabularLoop.eq_def]; simp [hc]) (fun t => by rw [tabularLoop.eq_def]; simp [hc])

theorem stable_tabular (ctx : Ctx) (h : Header) (fields : List FieldName) (base : Nat) {u u' : Cur} {evs : List (Ev F)}
    (hx : decodeTabular ctx h fields u base = .ok (evs, u')) : Stable (fun _ u => decodeTabular ctx h fields u base) u u' evs := by
  unfold decodeTabular at hx
  obtain ⟨out, a1, hx⟩ := bind_ok.mp hx
  obtain ⟨_, a2, hx⟩ := bind_ok.mp hx
  obtain ⟨_, a3, hx⟩ := bind_ok.mp hx
  obtain ⟨_, a4, hx⟩ := bind_ok.mp hx
  simp only [pure, Except.pure, Except.ok.injEq, Prod.mk.injEq] at hx
  obtain ⟨rfl, rfl⟩ := hx
  obtain ⟨p, hp, hq⟩ := stable_tabularLoop ctx fields h.delim h.length (base + 1) _ _ _ _ _ _ a1
  refine ⟨p, hp, fun r _ hr => .inr ?_⟩
  show decodeTabular ctx h fields ⟨p ++ r, u.last⟩ base = _
  unfold decodeTabular
  simp only [hq r hr, hr, a2, a3, a4, bind, Except.bind, pure, Except.pure]

/-- The statement of the induction. -/
structure StableAt (F : Type) [F64 F] (ctx : Ctx) (fuel : Nat) : Prop where
  kv : ∀ content base {u u' : Cur} {evs}, decodeKV (F := F) ctx fuel content u base = .ok (evs, u') →
    Stable (fun f u => decodeKV ctx f content u base) u u' evs
  fields : ∀ base comp {u u' : Cur} {evs}, decodeFields (F := F) ctx fuel u base comp = .ok (evs, u') →
    Stable (fun f u => decodeFields ctx f u base comp) u u' evs
  array : ∀ h base {u u' : Cur} {evs}, decodeArray (F := F) ctx fuel h u base = .ok (evs, u') →
    Stable (fun f u => decodeArray ctx f h u base) u u' evs
  list : ∀ length depth count s e {u : Cur} {out}, listLoop (F := F) ctx fuel length depth u count s e = .ok out →
    StableLoop (fun f u => listLoop ctx f length depth u count s e) u out
  item : ∀ base {u u' : Cur} {evs}, decodeItem (F := F) ctx fuel u base = .ok (evs, u') →
    Stable (fun f u => decodeItem ctx f u base) u u' evs
  rest : ∀ after base {u u' : Cur} {evs}, decodeItemRest (F := F) ctx fuel after u base = .ok (evs, u') →
    Stable (fun f u => decodeItemRest ctx f after u base) u u' evs
  follow : ∀ base {u u' : Cur} {evs}, followLoop (F := F) ctx fuel u base = .ok (evs, u') →
    Stable (fun f u => followLoop ctx f u base) u u' evs

/-- Two runs one after the other. -/
theorem Stable.seq {X Y : Nat → Cur → Except Err (List (Ev F) × Cur)} {u u1 u2 : Cur} {e1 e2 : List (Ev F)}
    (h1 : Stable X u u1 e1) (h2 : Stable Y u1 u2 e2) :
    ∃ p, u.rest = p ++ u2.rest ∧ ∀ r, r.head? = u2.rest.head? → ∃ u1', ∀ f g,
      Fok (X f ⟨p ++ r, u.last⟩) (e1, u1') ∧ Fok (Y g u1') (e2, ⟨r, u2.last⟩) := by
  obtain ⟨p1, a1, b1⟩ := h1
  obtain ⟨p2, a2, b2⟩ := h2
  refine ⟨p1 ++ p2, by rw [a1, a2, List.append_assoc], fun r hr => ⟨⟨p2 ++ r, u1.last⟩, fun f g => ⟨?_, b2 r g hr⟩⟩⟩
  have := b1 (p2 ++ r) f (by rw [a2]; exact head_append _ _ _ hr)
  rwa [List.append_assoc]

/-- A list item after its header has been looked for: no array header. -/
def keyedItem (ctx : Ctx) (hdr : Option Header) (after : Str) (base f : Nat) (u : Cur) : Except Err (List (Ev F) × Cur) :=
  match keyedHeader hdr with
  | some (key, h) =>
    if h.fields.isSome then do
      let (evs, cur2) ← decodeArray ctx f h u (base + 1)
      let (evs', cur3) ← followLoop ctx f cur2 (base + 1)
      return (Ev.startObj :: Ev.key key h.keyQuoted :: evs ++ evs' ++ [Ev.endObj], cur3)
    else decodeItemRest ctx f after u base
  | none => decodeItemRest ctx f after u base

/-- A list item after its header has been looked for. -/
def itemBody (ctx : Ctx) (isHdr : Bool) (hdr : Option Header) (after : Str) (base f : Nat) (u : Cur) :
    Except Err (List (Ev F) × Cur) :=
  match isHdr, hdr with
  | true, some h => decodeArray ctx f h u base
  | _, _ => keyedItem ctx hdr after base f u

theorem decodeItem_body {ctx : Ctx} {l : Line} (h1 : ¬ l.content = ['-']) (h2 : startsWithDash l.content = true)
    (h3 : ¬ (trim (l.content.drop 2)).isEmpty = true) (base f : Nat) (r : List Line) (last : Option Line) :
    decodeItem (F := F) ctx (f + 1) ⟨l :: r, last⟩ base = (do
      let hdr ← parseArrayHeaderLine (l.content.drop 2) ','
      itemBody ctx (isArrayHeaderContent (l.content.drop 2)) hdr (l.content.drop 2) base f ⟨r, some l⟩) := by
  rw [decodeItem]
  simp only [if_neg h1, if_pos h2, if_neg h3]
  cases parseArrayHeaderLine (l.content.drop 2) ',' with
  | error e => rfl
  | ok hdr =>
    simp only [bind, Except.bind]
    cases isArrayHeaderContent (l.content.drop 2) <;> cases hdr <;> rfl

theorem stableAt (ctx : Ctx) (fuel : Nat) : StableAt F ctx fuel := by
  induction fuel with
  | zero =>
    constructor
    · intro content base u u' evs h; rw [decodeKV] at h; simp at h
    · intro base comp u u' evs h; rw [decodeFields] at h; simp at h
    · intro hh base u u' evs h; rw [decodeArray] at h; simp at h
    · intro length depth count s e u out h; rw [listLoop] at h; simp at h
    · intro base u u' evs h; rw [decodeItem] at h; simp at h
    · intro after base u u' evs h; rw [decodeItemRest] at h; simp at h
    · intro base u u' evs h; rw [followLoop] at h; simp at h
  | succ fuel ih =>
    constructor
    · -- decodeKV
      intro content base u u' evs h
      rw [decodeKV] at h
      obtain ⟨hdr, a1, h⟩ := bind_ok.mp h
      cases hk : keyedHeader hdr with
      | some kh =>
        obtain ⟨key, hh⟩ := kh
        simp only [hk] at h
        obtain ⟨⟨e1, u1⟩, a2, h⟩ := bind_ok.mp h
        simp only [pure, Except.pure, Except.ok.injEq, Prod.mk.injEq] at h
        obtain ⟨rfl, rfl⟩ := h
        obtain ⟨p, hp, hq⟩ := ih.array hh base a2
        refine ⟨p, hp, fun r f hr => ?_⟩
        cases f with
        | zero => exact .inl (by simp only [decodeKV])
        | succ f =>
          simp only
          rw [decodeKV]
          refine Fok.bindEq a1 ?_
          simp only [hk]
          exact (hq r f hr).bind (.ok _)
      | none =>
        simp only [hk] at h
        obtain ⟨⟨key, e, quoted⟩, a2, h⟩ := bind_ok.mp h
        simp only at h
        by_cases he : (trim (content.drop e)).isEmpty = true
        · rw [if_pos he] at h
          obtain ⟨rest, last⟩ := u
          cases rest with
          | nil =>
            simp only [pure, Except.pure, Except.ok.injEq, Prod.mk.injEq] at h
            obtain ⟨rfl, rfl⟩ := h
            refine ⟨[], rfl, fun r f hr => ?_⟩
            cases f with
            | zero => exact .inl (by simp only [decodeKV])
            | succ f =>
              cases r with
              | cons _ _ => simp at hr
              | nil =>
                simp only
                rw [decodeKV]
                refine Fok.bindEq a1 ?_
                simp only [hk]
                refine Fok.bindEq a2 ?_
                simp only [if_pos he]
                exact .ok _
          | cons l ls =>
            simp only at h
            by_cases hb : base < l.depth
            · rw [if_pos hb] at h
              obtain ⟨⟨e1, u1⟩, a3, h⟩ := bind_ok.mp h
              simp only [pure, Except.pure, Except.ok.injEq, Prod.mk.injEq] at h
              obtain ⟨rfl, rfl⟩ := h
              obtain ⟨p, hp, hq⟩ := ih.fields _ _ a3
              refine ⟨p, hp, fun r f hr => ?_⟩
              cases f with
              | zero => exact .inl (by simp only [decodeKV])
              | succ f =>
                obtain ⟨t, ht⟩ := head_cases (show (p ++ r).head? = (l :: ls).head? by
                  rw [show l :: ls = p ++ u1.rest from hp]; exact head_append _ _ _ hr)
                simp only
                rw [decodeKV]
                refine Fok.bindEq a1 ?_
                simp only [hk]
                refine Fok.bindEq a2 ?_
                simp only [if_pos he]
                rw [ht]
                simp only [if_pos hb]
                rw [← ht]
                exact (hq r f hr).bind (.ok _)
            · rw [if_neg hb] at h
              simp only [pure, Except.pure, Except.ok.injEq, Prod.mk.injEq] at h
              obtain ⟨rfl, rfl⟩ := h
              refine ⟨[], rfl, fun r f hr => ?_⟩
              cases f with
              | zero => exact .inl (by simp only [decodeKV])
              | succ f =>
                obtain ⟨t, rfl⟩ := head_cases hr
                simp only
                rw [decodeKV]
                refine Fok.bindEq a1 ?_
                simp only [hk]
                refine Fok.bindEq a2 ?_
                simp only [if_pos he, if_neg hb, List.nil_append]
                exact .ok _
        · rw [if_neg he] at h
          obtain ⟨pv, a3, h⟩ := bind_ok.mp h
          simp only [pure, Except.pure, Except.ok.injEq, Prod.mk.injEq] at h
          obtain ⟨rfl, rfl⟩ := h
          refine ⟨[], rfl, fun r f hr => ?_⟩
          cases f with
          | zero => exact .inl (by simp only [decodeKV])
          | succ f =>
            simp only
            rw [decodeKV]
            refine Fok.bindEq a1 ?_
            simp only [hk]
            refine Fok.bindEq a2 ?_
            simp only [if_neg he]
            exact Fok.bindEq a3 (.ok _)
    · -- decodeFields
      intro base comp u u' evs h
      rw [decodeFields] at h
      obtain ⟨rest, last⟩ := u
      cases rest with
      | nil =>
        simp only [Except.ok.injEq, Prod.mk.injEq] at h
        obtain ⟨rfl, rfl⟩ := h
        refine ⟨[], rfl, fun r f hr => ?_⟩
        cases f with
        | zero => exact .inl (by simp only [decodeFields])
        | succ f =>
          cases r with
          | cons _ _ => simp at hr
          | nil => simp only; rw [decodeFields]; exact .ok _
      | cons l ls =>
        simp only at h
        have hstop : ∀ (_ : Except.ok (([] : List (Ev F)), (⟨l :: ls, last⟩ : Cur)) = (Except.ok (evs, u') : Except Err _))
            (_ : ∀ t f, decodeFields (F := F) ctx (f + 1) ⟨l :: t, last⟩ base comp = .ok ([], ⟨l :: t, last⟩)),
            Stable (fun f u => decodeFields ctx f u base comp) ⟨l :: ls, last⟩ u' evs := by
          intro hx hall
          simp only [Except.ok.injEq, Prod.mk.injEq] at hx
          obtain ⟨rfl, rfl⟩ := hx
          refine ⟨[], rfl, fun r f hr => ?_⟩
          obtain ⟨t, rfl⟩ := head_cases hr
          cases f with
          | zero => exact .inl (by simp only [decodeFields])
          | succ f => exact .inr (hall t f)
        by_cases h1 : l.depth < base
        · rw [if_pos h1] at h
          exact hstop h (fun t f => by rw [decodeFields]; simp only [if_pos h1])
        · rw [if_neg h1] at h
          by_cases h2 : comp.getD l.depth = l.depth
          · rw [if_pos h2] at h
            obtain ⟨⟨e1, u1⟩, a1, h⟩ := bind_ok.mp h
            obtain ⟨⟨e2, u2⟩, a2, h⟩ := bind_ok.mp h
            simp only [pure, Except.pure, Except.ok.injEq, Prod.mk.injEq] at h
            obtain ⟨rfl, rfl⟩ := h
            obtain ⟨p, hp, hq⟩ := (ih.kv _ _ a1).seq (ih.fields _ _ a2)
            refine ⟨l :: p, by simp only [List.cons_append]; rw [← hp], fun r f hr => ?_⟩
            obtain ⟨um, hm⟩ := hq r hr
            cases f with
            | zero => exact .inl (by simp only [decodeFields])
            | succ f =>
              simp only
              rw [decodeFields]
              simp only [List.cons_append, if_neg h1, if_pos h2]
              exact (hm f f).1.bind ((hm f f).2.bind (.ok _))
          · rw [if_neg h2] at h
            exact hstop h (fun t f => by rw [decodeFields]; simp only [if_neg h1, if_neg h2])
    · -- decodeArray
      intro hh base u u' evs h
      rw [decodeArray] at h
      cases hi : hh.inline with
      | some inline =>
        simp only [hi] at h
        obtain ⟨e1, a1, h⟩ := bind_ok.mp h
        simp only [pure, Except.pure, Except.ok.injEq, Prod.mk.injEq] at h
        obtain ⟨rfl, rfl⟩ := h
        refine ⟨[], rfl, fun r f hr => ?_⟩
        cases f with
        | zero => exact .inl (by simp only [decodeArray])
        | succ f =>
          simp only
          rw [decodeArray]
          simp only [hi]
          exact Fok.bindEq a1 (.ok _)
      | none =>
        simp only [hi] at h
        by_cases he : (hh.fields.getD []).isEmpty = true
        · rw [if_pos he] at h
          obtain ⟨out, a1, h⟩ := bind_ok.mp h
          obtain ⟨_, a2, h⟩ := bind_ok.mp h
          obtain ⟨_, a3, h⟩ := bind_ok.mp h
          obtain ⟨_, a4, h⟩ := bind_ok.mp h
          simp only [pure, Except.pure, Except.ok.injEq, Prod.mk.injEq] at h
          obtain ⟨rfl, rfl⟩ := h
          obtain ⟨p, hp, hq⟩ := ih.list _ _ _ _ _ a1
          refine ⟨p, hp, fun r f hr => ?_⟩
          cases f with
          | zero => exact .inl (by simp only [decodeArray])
          | succ f =>
            simp only
            rw [decodeArray]
            simp only [hi, if_pos he]
            refine (hq r f hr).bind ?_
            simp only [hr]
            exact Fok.bindEq a2 (Fok.bindEq a3 (Fok.bindEq a4 (.ok _)))
        · rw [if_neg he] at h
          obtain ⟨⟨e1, u1⟩, a1, h⟩ := bind_ok.mp h
          simp only [pure, Except.pure, Except.ok.injEq, Prod.mk.injEq] at h
          obtain ⟨rfl, rfl⟩ := h
          obtain ⟨p, hp, hq⟩ := stable_tabular ctx hh _ base a1
          refine ⟨p, hp, fun r f hr => ?_⟩
          cases f with
          | zero => exact .inl (by simp only [decodeArray])
          | succ f =>
            simp only
            rw [decodeArray]
            simp only [hi, if_neg he]
            exact (hq r f hr).bind (.ok _)
    · -- listLoop
      intro length depth count s e u out h
      rw [listLoop] at h
      obtain ⟨rest, last⟩ := u
      cases rest with
      | nil =>
        simp only [Except.ok.injEq] at h
        subst h
        refine ⟨[], rfl, fun r f hr => ?_⟩
        cases f with
        | zero => exact .inl (by simp only [listLoop])
        | succ f =>
          cases r with
          | cons _ _ => simp at hr
          | nil => simp only; rw [listLoop]; exact .ok _
      | cons l ls =>
        simp only at h
        have hstop : ∀ (_ : (Except.ok ⟨[], ⟨l :: ls, last⟩, count, s, e⟩ : Except Err (LoopOut F)) = .ok out)
            (_ : ∀ t f, listLoop (F := F) ctx (f + 1) length depth ⟨l :: t, last⟩ count s e = .ok ⟨[], ⟨l :: t, last⟩, count, s, e⟩),
            StableLoop (fun f u => listLoop ctx f length depth u count s e) ⟨l :: ls, last⟩ out := by
          intro hx hall
          simp only [Except.ok.injEq] at hx
          subst hx
          refine ⟨[], rfl, fun r f hr => ?_⟩
          obtain ⟨t, rfl⟩ := head_cases hr
          cases f with
          | zero => exact .inl (by simp only [listLoop])
          | succ f => exact .inr (hall t f)
        by_cases h0 : count < length
        · rw [if_pos h0] at h
          by_cases h1 : l.depth < depth
          · rw [if_pos h1] at h
            exact hstop h (fun t f => by rw [listLoop]; simp only [if_pos h0, if_pos h1])
          · rw [if_neg h1] at h
            by_cases h2 : (l.depth == depth && isListItem l.content) = true
            · rw [if_pos h2] at h
              obtain ⟨⟨e1, u1⟩, a1, h⟩ := bind_ok.mp h
              obtain ⟨o, a2, h⟩ := bind_ok.mp h
              simp only [pure, Except.pure, Except.ok.injEq] at h
              subst h
              obtain ⟨p1, b1, c1⟩ := ih.item _ a1
              obtain ⟨p2, b2, c2⟩ := ih.list _ _ _ _ _ a2
              refine ⟨p1 ++ p2, by rw [b1, b2, List.append_assoc], fun r f hr => ?_⟩
              cases f with
              | zero => exact .inl (by simp only [listLoop])
              | succ f =>
                have q1 := c1 (p2 ++ r) f (by rw [b2]; exact head_append _ _ _ hr)
                obtain ⟨t, ht⟩ := head_cases (show (p1 ++ p2 ++ r).head? = (l :: ls).head? by
                  rw [show l :: ls = p1 ++ p2 ++ o.cur.rest by rw [List.append_assoc, ← b2]; exact b1]
                  exact head_append _ _ _ hr)
                simp only at q1 ⊢
                rw [← List.append_assoc, ht] at q1
                rw [listLoop, ht]
                simp only [if_pos h0, if_neg h1, if_pos h2]
                refine q1.bind ?_
                exact (c2 r f hr).bind (.ok _)
            · rw [if_neg h2] at h
              exact hstop h (fun t f => by rw [listLoop]; simp only [if_pos h0, if_neg h1, if_neg h2])
        · rw [if_neg h0] at h
          exact hstop h (fun t f => by rw [listLoop]; simp only [if_neg h0])
    · -- decodeItem
      intro base u u' evs h
      have hfull := h
      rw [decodeItem] at h
      obtain ⟨rest, last⟩ := u
      cases rest with
      | nil => simp at h
      | cons l ls =>
        simp only at h
        by_cases h1 : l.content = ['-']
        · rw [if_pos h1] at h
          simp only [Except.ok.injEq, Prod.mk.injEq] at h
          obtain ⟨rfl, rfl⟩ := h
          refine ⟨[l], rfl, fun r f hr => ?_⟩
          cases f with
          | zero => exact .inl (by simp only [decodeItem])
          | succ f => simp only; rw [decodeItem]; simp only [List.cons_append, List.nil_append, if_pos h1]; exact .ok _
        · rw [if_neg h1] at h
          by_cases h2 : startsWithDash l.content = true
          · rw [if_pos h2] at h
            by_cases h3 : (trim (l.content.drop 2)).isEmpty = true
            · rw [if_pos h3] at h
              simp only [Except.ok.injEq, Prod.mk.injEq] at h
              obtain ⟨rfl, rfl⟩ := h
              refine ⟨[l], rfl, fun r f hr => ?_⟩
              cases f with
              | zero => exact .inl (by simp only [decodeItem])
              | succ f =>
                simp only; rw [decodeItem]
                simp only [List.cons_append, List.nil_append, if_neg h1, if_pos h2, if_pos h3]; exact .ok _
            · have hb := decodeItem_body (F := F) (ctx := ctx) h1 h2 h3 base
              have hx : decodeItem (F := F) ctx (fuel + 1) ⟨l :: ls, last⟩ base = .ok (evs, u') := hfull
              rw [hb] at hx
              obtain ⟨hdr, a1, hx⟩ := bind_ok.mp hx
              have hkeyed : ∀ (_ : keyedItem ctx hdr (l.content.drop 2) base fuel ⟨ls, some l⟩ = .ok (evs, u')),
                  Stable (keyedItem ctx hdr (l.content.drop 2) base) ⟨ls, some l⟩ u' evs := by
                intro h
                unfold keyedItem at h
                cases hk : keyedHeader hdr with
                | none =>
                  simp only [hk] at h
                  obtain ⟨p, hp, hq⟩ := ih.rest _ _ h
                  refine ⟨p, hp, fun r f hr => ?_⟩
                  unfold keyedItem
                  simp only [hk]
                  exact hq r f hr
                | some kh =>
                  obtain ⟨key, hh⟩ := kh
                  simp only [hk] at h
                  by_cases hf : hh.fields.isSome = true
                  · rw [if_pos hf] at h
                    obtain ⟨⟨e1, u1⟩, b1, h⟩ := bind_ok.mp h
                    obtain ⟨⟨e2, u2⟩, b2, h⟩ := bind_ok.mp h
                    simp only [pure, Except.pure, Except.ok.injEq, Prod.mk.injEq] at h
                    obtain ⟨rfl, rfl⟩ := h
                    obtain ⟨p, hp, hq⟩ := (ih.array _ _ b1).seq (ih.follow _ b2)
                    refine ⟨p, hp, fun r f hr => ?_⟩
                    obtain ⟨um, hm⟩ := hq r hr
                    unfold keyedItem
                    simp only [hk, if_pos hf]
                    exact (hm f f).1.bind ((hm f f).2.bind (.ok _))
                  · rw [if_neg hf] at h
                    obtain ⟨p, hp, hq⟩ := ih.rest _ _ h
                    refine ⟨p, hp, fun r f hr => ?_⟩
                    unfold keyedItem
                    simp only [hk, if_neg hf]
                    exact hq r f hr
              have hbody : Stable (itemBody ctx (isArrayHeaderContent (l.content.drop 2)) hdr (l.content.drop 2) base)
                  ⟨ls, some l⟩ u' evs := by
                cases hia : isArrayHeaderContent (l.content.drop 2) with
                | false => rw [hia] at hx; cases hdr <;> exact hkeyed hx
                | true =>
                  rw [hia] at hx
                  cases hdr with
                  | none => exact hkeyed hx
                  | some hh => exact ih.array hh base hx
              obtain ⟨p, hp, hq⟩ := hbody
              refine ⟨l :: p, by simp only [List.cons_append]; rw [← hp], fun r f hr => ?_⟩
              cases f with
              | zero => exact .inl (by simp only [decodeItem])
              | succ f =>
                simp only [List.cons_append]
                rw [hb]
                exact Fok.bindEq a1 (hq r f hr)
          · rw [if_neg h2] at h; simp at h
    · -- decodeItemRest
      intro after base u u' evs h
      rw [decodeItemRest] at h
      by_cases hk : isKeyValueContent after = true
      · rw [if_pos hk] at h
        obtain ⟨⟨e1, u1⟩, b1, h⟩ := bind_ok.mp h
        obtain ⟨⟨e2, u2⟩, b2, h⟩ := bind_ok.mp h
        simp only [pure, Except.pure, Except.ok.injEq, Prod.mk.injEq] at h
        obtain ⟨rfl, rfl⟩ := h
        obtain ⟨p, hp, hq⟩ := (ih.kv _ _ b1).seq (ih.follow _ b2)
        refine ⟨p, hp, fun r f hr => ?_⟩
        obtain ⟨um, hm⟩ := hq r hr
        cases f with
        | zero => exact .inl (by simp only [decodeItemRest])
        | succ f =>
          simp only
          rw [decodeItemRest]
          simp only [if_pos hk]
          exact (hm f f).1.bind ((hm f f).2.bind (.ok _))
      · rw [if_neg hk] at h
        obtain ⟨pv, b1, h⟩ := bind_ok.mp h
        simp only [pure, Except.pure, Except.ok.injEq, Prod.mk.injEq] at h
        obtain ⟨rfl, rfl⟩ := h
        refine ⟨[], rfl, fun r f hr => ?_⟩
        cases f with
        | zero => exact .inl (by simp only [decodeItemRest])
        | succ f =>
          simp only
          rw [decodeItemRest]
          simp only [if_neg hk]
          exact Fok.bindEq b1 (.ok _)
    · -- followLoop
      intro base u u' evs h
      rw [followLoop] at h
      obtain ⟨rest, last⟩ := u
      cases rest with
      | nil =>
        simp only [Except.ok.injEq, Prod.mk.injEq] at h
        obtain ⟨rfl, rfl⟩ := h
        refine ⟨[], rfl, fun r f hr => ?_⟩
        cases f with
        | zero => exact .inl (by simp only [followLoop])
        | succ f =>
          cases r with
          | cons _ _ => simp at hr
          | nil => simp only; rw [followLoop]; exact .ok _
      | cons l ls =>
        simp only at h
        have hstop : ∀ (_ : Except.ok (([] : List (Ev F)), (⟨l :: ls, last⟩ : Cur)) = (Except.ok (evs, u') : Except Err _))
            (_ : ∀ t f, followLoop (F := F) ctx (f + 1) ⟨l :: t, last⟩ base = .ok ([], ⟨l :: t, last⟩)),
            Stable (fun f u => followLoop ctx f u base) ⟨l :: ls, last⟩ u' evs := by
          intro hx hall
          simp only [Except.ok.injEq, Prod.mk.injEq] at hx
          obtain ⟨rfl, rfl⟩ := hx
          refine ⟨[], rfl, fun r f hr => ?_⟩
          obtain ⟨t, rfl⟩ := head_cases hr
          cases f with
          | zero => exact .inl (by simp only [followLoop])
          | succ f => exact .inr (hall t f)
        by_cases h1 : l.depth < base
        · rw [if_pos h1] at h
          exact hstop h (fun t f => by rw [followLoop]; simp only [if_pos h1])
        · rw [if_neg h1] at h
          by_cases h2 : (l.depth == base && !startsWithDash l.content) = true
          · rw [if_pos h2] at h
            obtain ⟨⟨e1, u1⟩, a1, h⟩ := bind_ok.mp h
            obtain ⟨⟨e2, u2⟩, a2, h⟩ := bind_ok.mp h
            simp only [pure, Except.pure, Except.ok.injEq, Prod.mk.injEq] at h
            obtain ⟨rfl, rfl⟩ := h
            obtain ⟨p, hp, hq⟩ := (ih.kv _ _ a1).seq (ih.follow _ a2)
            refine ⟨l :: p, by simp only [List.cons_append]; rw [← hp], fun r f hr => ?_⟩
            obtain ⟨um, hm⟩ := hq r hr
            cases f with
            | zero => exact .inl (by simp only [followLoop])
            | succ f =>
              simp only
              rw [followLoop]
              simp only [List.cons_append, if_neg h1, if_pos h2]
              exact (hm f f).1.bind ((hm f f).2.bind (.ok _))
          · rw [if_neg h2] at h
            exact hstop h (fun t f => by rw [followLoop]; simp only [if_neg h1, if_neg h2])

theorem stable_root (ctx : Ctx) (fuel : Nat) : ∀ {u u' : Cur} {evs : List (Ev F)}, rootLoop ctx fuel u = .ok (evs, u') →
    Stable (fun f u => rootLoop ctx f u) u u' evs := by
  induction fuel with
  | zero => intro u u' evs h; rw [rootLoop] at h; simp at h
  | succ fuel ih =>
    intro u u' evs h
    rw [rootLoop] at h
    obtain ⟨rest, last⟩ := u
    cases rest with
    | nil =>
      simp only [Except.ok.injEq, Prod.mk.injEq] at h
      obtain ⟨rfl, rfl⟩ := h
      refine ⟨[], rfl, fun r f hr => ?_⟩
      cases f with
      | zero => exact .inl (by simp only [rootLoop])
      | succ f =>
        cases r with
        | cons _ _ => simp at hr
        | nil => simp only; rw [rootLoop]; exact .ok _
    | cons l ls =>
      simp only at h
      by_cases h1 : l.depth ≠ 0
      · rw [if_pos h1] at h
        simp only [Except.ok.injEq, Prod.mk.injEq] at h
        obtain ⟨rfl, rfl⟩ := h
        refine ⟨[], rfl, fun r f hr => ?_⟩
        obtain ⟨t, rfl⟩ := head_cases hr
        cases f with
        | zero => exact .inl (by simp only [rootLoop])
        | succ f => simp only; rw [rootLoop]; simp only [List.nil_append, if_pos h1]; exact .ok _
      · rw [if_neg h1] at h
        obtain ⟨⟨e1, u1⟩, a1, h⟩ := bind_ok.mp h
        obtain ⟨⟨e2, u2⟩, a2, h⟩ := bind_ok.mp h
        simp only [pure, Except.pure, Except.ok.injEq, Prod.mk.injEq] at h
        obtain ⟨rfl, rfl⟩ := h
        obtain ⟨p, hp, hq⟩ := ((stableAt ctx fuel).kv _ _ a1).seq (ih a2)
        refine ⟨l :: p, by simp only [List.cons_append]; rw [← hp], fun r f hr => ?_⟩
        obtain ⟨um, hm⟩ := hq r hr
        cases f with
        | zero => exact .inl (by simp only [rootLoop])
        | succ f =>
          simp only
          rw [rootLoop]
          simp only [List.cons_append, if_neg h1]
          exact (hm f f).1.bind ((hm f f).2.bind (.ok _))

/-- `decodeLinesRest` gives the events of `decodeLines`. -/
theorem decodeLinesRest_events (ctx : Ctx) (lines : List Line) :
    (decodeLinesRest (F := F) ctx lines).map Prod.fst = decodeLines ctx lines := by
  unfold decodeLinesRest decodeLines
  cases lines with
  | nil => rfl
  | cons first rest =>
    simp only
    cases rootHeader first.content with
    | error e => rfl
    | ok hdr =>
      simp only [bind, Except.bind]
      cases hdr with
      | some h =>
        simp only
        cases decodeArray (F := F) ctx (5 * (first :: rest).length + 5) h ⟨rest, some first⟩ 0 <;> rfl
      | none =>
        simp only
        split
        · cases parsePrimitiveToken (F := F) (trim first.content) <;> rfl
        · cases decodeKV (F := F) ctx (5 * (first :: rest).length + 5) first.content ⟨rest, some first⟩ 0 with
          | error e => rfl
          | ok out =>
            simp only
            cases rootLoop (F := F) ctx (5 * (first :: rest).length + 5) out.2 <;> rfl

/-- The whole decoder: the lines read, and the lines not read. -/
theorem decodeLines_local [LawfulF64 F] {ctx : Ctx} {lines r : List Line} {evs : List (Ev F)}
    (h : decodeLinesRest ctx lines = .ok (evs, r)) : ∃ p, lines = p ++ r ∧ (lines ≠ [] → p ≠ []) ∧
      ∀ r', r'.head? = r.head? → decodeLinesRest ctx (p ++ r') = .ok (evs, r') := by
  cases lines with
  | nil =>
    simp only [decodeLinesRest, Except.ok.injEq, Prod.mk.injEq] at h
    obtain ⟨rfl, rfl⟩ := h
    refine ⟨[], rfl, by simp, fun r' hr => ?_⟩
    cases r' with
    | nil => rfl
    | cons _ _ => simp at hr
  | cons first rest =>
    have hnf : ∀ r', decodeLinesRest (F := F) ctx r' ≠ .error .fuel := by
      intro r' he
      have := nf_decodeLines (F := F) ctx r'
      rw [← decodeLinesRest_events, he] at this
      exact this rfl
    unfold decodeLinesRest at h
    simp only at h
    obtain ⟨hdr, a1, h⟩ := bind_ok.mp h
    cases hdr with
    | some hh =>
      simp only at h
      obtain ⟨⟨e1, u1⟩, a2, h⟩ := bind_ok.mp h
      simp only [pure, Except.pure, Except.ok.injEq, Prod.mk.injEq] at h
      obtain ⟨rfl, rfl⟩ := h
      obtain ⟨p, hp, hq⟩ := (stableAt ctx _).array _ _ a2
      refine ⟨first :: p, by rw [List.cons_append, ← hp], by simp, fun r' hr => ?_⟩
      have : Fok (decodeLinesRest ctx (first :: p ++ r')) (e1, r') := by
        unfold decodeLinesRest
        simp only [List.cons_append]
        refine Fok.bindEq a1 ?_
        exact (hq r' _ hr).bind (.ok _)
      exact this.resolve_left (hnf _)
    | none =>
      simp only at h
      by_cases hs : (rest.isEmpty && !isKeyValueLine first.content) = true
      · rw [if_pos hs] at h
        obtain ⟨pv, a2, h4⟩ := bind_ok.mp h
        simp only [pure, Except.pure, Except.ok.injEq, Prod.mk.injEq] at h4
        obtain ⟨rfl, rfl⟩ := h4
        have hr0 : rest = [] := by
          simp only [Bool.and_eq_true, List.isEmpty_iff] at hs
          exact hs.1
        subst hr0
        refine ⟨[first], rfl, by simp, fun r' hr => ?_⟩
        cases r' with
        | cons _ _ => simp at hr
        | nil =>
          unfold decodeLinesRest
          simp only [List.append_nil, a1, bind, Except.bind, if_pos hs, a2, pure, Except.pure]
      · rw [if_neg hs] at h
        obtain ⟨⟨e1, u1⟩, a2, h⟩ := bind_ok.mp h
        obtain ⟨⟨e2, u2⟩, a3, h⟩ := bind_ok.mp h
        simp only [pure, Except.pure, Except.ok.injEq, Prod.mk.injEq] at h
        obtain ⟨rfl, rfl⟩ := h
        obtain ⟨p, hp, hq⟩ := ((stableAt ctx _).kv _ _ a2).seq (stable_root ctx _ a3)
        refine ⟨first :: p, by rw [List.cons_append, ← hp], by simp, fun r' hr => ?_⟩
        obtain ⟨um, hm⟩ := hq r' hr
        have hs' : ¬ ((p ++ r').isEmpty && !isKeyValueLine first.content) = true := by
          have : (p ++ r').isEmpty = rest.isEmpty := by
            simp only at hp
            rw [hp]
            have := head_append p r' u2.rest hr
            cases h1 : p ++ r' <;> cases h2 : p ++ u2.rest <;> simp_all
          rw [this]; exact hs
        have : Fok (decodeLinesRest ctx (first :: p ++ r')) (.startObj :: e1 ++ e2 ++ [.endObj], r') := by
          unfold decodeLinesRest
          simp only [List.cons_append]
          refine Fok.bindEq a1 ?_
          simp only [if_neg hs']
          exact (hm _ 0).1.bind ((hm 0 _).2.bind (.ok _))
        exact this.resolve_left (hnf _)

end

end Toon
