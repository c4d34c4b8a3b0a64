import Verif.Model.Api
import Verif.Spec.Events
import Verif.Spec.Values
import Verif.Spec.Float
import Verif.Lemmas.Str

/-! What a successful run of the decoder returns, for arbitrary input: the events of a tree, and a
cursor further down the same lines. -/

namespace Toon

theorem bind_ok {α β ε : Type} {x : Except ε α} {f : α → Except ε β} {b : β} :
    (x >>= f) = .ok b ↔ ∃ a, x = .ok a ∧ f a = .ok b := by
  cases x <;> simp [bind, Except.bind]

theorem pure_ok {α ε : Type} {a b : α} : (pure a : Except ε α) = .ok b ↔ a = b := by
  simp [pure, Except.pure]

/-! ## Cursors -/

/-- A later cursor: some lines have been consumed, from the front. -/
structure CurLe (cur' cur : Cur) : Prop where
  suffix : cur'.rest <:+ cur.rest
  last : cur'.last = cur.last ∨ ∃ l ∈ cur.rest, cur'.last = some l

theorem CurLe.refl (cur : Cur) : CurLe cur cur := ⟨List.suffix_refl _, Or.inl rfl⟩

theorem CurLe.trans {a b c : Cur} (h1 : CurLe a b) (h2 : CurLe b c) : CurLe a c := by
  refine ⟨h1.suffix.trans h2.suffix, ?_⟩
  rcases h1.last with h | ⟨l, hl, h⟩
  · rw [h]; exact h2.last
  · exact Or.inr ⟨l, h2.suffix.subset hl, h⟩

theorem CurLe.step {line : Line} {rest : List Line} {cur : Cur} (h : cur.rest = line :: rest) :
    CurLe ⟨rest, some line⟩ cur := by
  refine ⟨?_, Or.inr ⟨line, ?_, rfl⟩⟩
  · rw [h]; exact List.suffix_cons _ _
  · rw [h]; simp

theorem CurLe.length {a b : Cur} (h : CurLe a b) : a.rest.length ≤ b.rest.length := h.suffix.length_le

/-! ## Trees -/

section
variable {F : Type} [F64 F]

/-- What is known about the arrays and primitives of decoded trees. -/
structure Good (strict : Bool) (t : ETree F) : Prop where
  arrays : t.AllArrays fun declared actual => declared ≤ maxDeclaredLength ∧ (strict = true → declared = actual)
  prims : t.AllPrims PlainPrim

structure GoodItems (strict : Bool) (ts : List (ETree F)) : Prop where
  arrays : ETree.AllArraysItems (fun declared actual => declared ≤ maxDeclaredLength ∧ (strict = true → declared = actual)) ts
  prims : ETree.AllPrimsItems PlainPrim ts

structure GoodEntries (strict : Bool) (es : List (Str × Bool × ETree F)) : Prop where
  arrays : ETree.AllArraysEntries (fun declared actual => declared ≤ maxDeclaredLength ∧ (strict = true → declared = actual)) es
  prims : ETree.AllPrimsEntries PlainPrim es

theorem GoodItems.nil {strict : Bool} : GoodItems (F := F) strict [] := ⟨trivial, trivial⟩
theorem GoodEntries.nil {strict : Bool} : GoodEntries (F := F) strict [] := ⟨trivial, trivial⟩

theorem GoodItems.cons {strict : Bool} {t : ETree F} {ts : List (ETree F)} (h : Good strict t) (h' : GoodItems strict ts) :
    GoodItems strict (t :: ts) := ⟨⟨h.arrays, h'.arrays⟩, ⟨h.prims, h'.prims⟩⟩

theorem GoodEntries.cons {strict : Bool} {k : Str} {q : Bool} {t : ETree F} {es : List (Str × Bool × ETree F)}
    (h : Good strict t) (h' : GoodEntries strict es) : GoodEntries strict ((k, q, t) :: es) :=
  ⟨⟨h.arrays, h'.arrays⟩, ⟨h.prims, h'.prims⟩⟩

theorem Good.prim {strict : Bool} {p : Prim F} (h : PlainPrim p) : Good strict (.prim p) := ⟨trivial, h⟩

theorem Good.obj {strict : Bool} {es : List (Str × Bool × ETree F)} (h : GoodEntries strict es) :
    Good strict (.obj es) := ⟨by simpa [ETree.AllArrays] using h.arrays, by simpa [ETree.AllPrims] using h.prims⟩

theorem Good.arr {strict : Bool} {n : Nat} {ts : List (ETree F)} (hn : n ≤ maxDeclaredLength)
    (hl : strict = true → n = ts.length) (h : GoodItems strict ts) : Good strict (.arr n ts) :=
  ⟨by simp only [ETree.AllArrays]; exact ⟨⟨hn, hl⟩, h.arrays⟩, by simpa [ETree.AllPrims] using h.prims⟩

omit [F64 F] in
theorem eventsEntries_append (a b : List (Str × Bool × ETree F)) :
    ETree.eventsEntries (a ++ b) = ETree.eventsEntries a ++ ETree.eventsEntries b := by
  induction a with
  | nil => rfl
  | cons e a ih => obtain ⟨k, q, t⟩ := e; simp [ETree.eventsEntries, ih]

/-! ## Leaves of the decoder -/

theorem parsePrimitive_plain [LawfulF64 F] {t : Str} {p : Prim F} (h : parsePrimitiveToken t = .ok p) : PlainPrim p := by
  unfold parsePrimitiveToken at h
  simp only at h
  split at h
  · simp at h; subst h; trivial
  · split at h
    · cases hs : parseStringLiteral (trim t) with
      | error e => simp [hs] at h
      | ok s => simp [hs] at h; subst h; trivial
    · split at h
      · split at h
        · simp at h; subst h; trivial
        · split at h <;> (simp at h; subst h; trivial)
      · split at h
        · rename_i hnum
          unfold isNumericLiteral at hnum
          simp only [Bool.and_eq_true, trim_trim] at hnum
          cases hp : (F64.parse (trim t) : Option F) with
          | none => simp [hp] at h; subst h; trivial
          | some x =>
            rw [hp] at hnum h
            simp at h
            subst h
            simp only [PlainPrim]
            split
            · refine ⟨LawfulF64.zero_isFinite, ?_⟩
              rw [LawfulF64.zero_isNeg]; simp
            · rename_i hz
              exact ⟨hnum.2, by simpa using hz⟩
        · simp at h; subst h; trivial

theorem mapRowValues_plain [LawfulF64 F] {ts : List Str} {ps : List (Prim F)} (h : mapRowValues ts = .ok ps) :
    ps.length = ts.length ∧ ∀ p ∈ ps, PlainPrim p := by
  induction ts generalizing ps with
  | nil => simp [mapRowValues] at h; subst h; simp
  | cons t ts ih =>
    rw [mapRowValues] at h
    cases hp : parsePrimitiveToken (F := F) t with
    | error e => simp [hp] at h
    | ok p =>
      rw [hp] at h
      cases hr : mapRowValues (F := F) ts with
      | error e => simp [hr] at h
      | ok qs =>
        simp only [hr, Except.ok.injEq] at h
        subst h
        obtain ⟨h1, h2⟩ := ih hr
        refine ⟨by simp [h1], ?_⟩
        intro q hq
        rcases List.mem_cons.mp hq with rfl | hq
        · exact parsePrimitive_plain hp
        · exact h2 q hq

theorem parseHeader_cap {content : Str} {d : Char} {h : Header} (hp : parseArrayHeaderLine content d = .ok (some h)) :
    h.length ≤ maxDeclaredLength := by
  unfold parseArrayHeaderLine at hp
  repeat' (split at hp)
  all_goals first
    | contradiction
    | (simp only [Except.ok.injEq, Option.some.injEq] at hp; subst hp; simp only; omega)
    | simp at hp

theorem assertCount_ok {a e : Nat} {what : Counted} {strict : Bool} {u : Unit} (h : assertCount a e what strict = .ok u) :
    strict = true → a = e := by
  unfold assertCount at h
  split at h
  · contradiction
  · rename_i hc
    intro hs
    simpa [hs] using hc

/-- Primitive items. -/
theorem primItems (strict : Bool) {ps : List (Prim F)} (h : ∀ p ∈ ps, PlainPrim p) :
    ∃ ts : List (ETree F), ps.map Ev.prim = ETree.eventsItems ts ∧ ts.length = ps.length ∧ GoodItems strict ts := by
  induction ps with
  | nil => exact ⟨[], rfl, rfl, .nil⟩
  | cons p ps ih =>
    obtain ⟨ts, h1, h2, h3⟩ := ih (fun q hq => h q (by simp [hq]))
    refine ⟨.prim p :: ts, ?_, by simp [h2], .cons (.prim (h p (by simp))) h3⟩
    simp [ETree.eventsItems, ETree.events, h1]

theorem decodeInline_tree [LawfulF64 F] {h : Header} {inline : Str} {strict : Bool} {evs : List (Ev F)}
    (hd : decodeInline h inline strict = .ok evs) :
    ∃ ts : List (ETree F), evs = ETree.eventsItems ts ∧ (strict = true → h.length = ts.length) ∧ GoodItems strict ts := by
  unfold decodeInline at hd
  split at hd
  · obtain ⟨u, h1, h2⟩ := bind_ok.mp hd
    rw [pure_ok] at h2
    subst h2
    exact ⟨[], rfl, fun hs => (assertCount_ok h1 hs).symm, .nil⟩
  · obtain ⟨ps, h1, h2⟩ := bind_ok.mp hd
    obtain ⟨u, h3, h4⟩ := bind_ok.mp h2
    rw [pure_ok] at h4
    subst h4
    obtain ⟨ts, e1, e2, e3⟩ := primItems strict (mapRowValues_plain h1).2
    exact ⟨ts, e1, fun hs => by rw [e2]; exact (assertCount_ok h3 hs).symm, e3⟩

theorem fieldEvents_tree (strict : Bool) (fs : List FieldName) {ps : List (Prim F)} (h : ∀ p ∈ ps, PlainPrim p) :
    ∃ es : List (Str × Bool × ETree F), fieldEvents fs ps = ETree.eventsEntries es ∧ GoodEntries strict es ∧
      es.map (fun e => (e.1, e.2.1)) = fs.map (fun f => (f.name, f.quoted)) := by
  induction fs generalizing ps with
  | nil => exact ⟨[], by cases ps <;> rfl, .nil, rfl⟩
  | cons f fs ih =>
    cases ps with
    | nil =>
      obtain ⟨es, h1, h2, h3⟩ := ih (ps := []) (by simp)
      refine ⟨(f.name, f.quoted, .prim .null) :: es, ?_, .cons (.prim trivial) h2, by simp [h3]⟩
      simp [fieldEvents, ETree.eventsEntries, ETree.events, h1]
    | cons p ps =>
      obtain ⟨es, h1, h2, h3⟩ := ih (ps := ps) (fun q hq => h q (by simp [hq]))
      refine ⟨(f.name, f.quoted, .prim p) :: es, ?_, .cons (.prim (h p (by simp))) h2, by simp [h3]⟩
      simp [fieldEvents, ETree.eventsEntries, ETree.events, h1]

theorem tabularLoop_tree [LawfulF64 F] (ctx : Ctx) (fields : List FieldName) (d : Char) (length rowDepth : Nat)
    (rest : List Line) (last : Option Line) (count : Nat) (s e : Option Nat) {out : LoopOut F}
    (h : tabularLoop ctx fields d length rowDepth rest last count s e = .ok out) :
    ∃ ts : List (ETree F), out.evs = ETree.eventsItems ts ∧ out.count = count + ts.length ∧
      GoodItems ctx.strict ts ∧ CurLe out.cur ⟨rest, last⟩ := by
  induction rest generalizing last count s e out with
  | nil =>
    rw [tabularLoop] at h
    simp only [Except.ok.injEq] at h
    subst h
    exact ⟨[], rfl, rfl, .nil, .refl _⟩
  | cons line rest ih =>
    rw [tabularLoop.eq_def] at h
    simp only at h
    have stop : ∀ {out : LoopOut F}, Except.ok (ε := Err) (LoopOut.mk [] ⟨line :: rest, last⟩ count s e) = .ok out →
        ∃ ts : List (ETree F), out.evs = ETree.eventsItems ts ∧ out.count = count + ts.length ∧
          GoodItems ctx.strict ts ∧ CurLe out.cur ⟨line :: rest, last⟩ := by
      intro out h
      simp only [Except.ok.injEq] at h
      subst h
      exact ⟨[], rfl, rfl, .nil, .refl _⟩
    split at h
    · split at h
      · exact stop h
      · split at h
        · obtain ⟨u, _, h⟩ := bind_ok.mp h
          obtain ⟨ps, hps, h⟩ := bind_ok.mp h
          obtain ⟨out', ho, h⟩ := bind_ok.mp h
          rw [pure_ok] at h
          subst h
          obtain ⟨ts, h1, h2, h3, h4⟩ := ih _ _ _ _ ho
          obtain ⟨es, e1, e2, _⟩ := fieldEvents_tree ctx.strict fields (mapRowValues_plain hps).2
          refine ⟨.obj es :: ts, ?_, ?_, .cons (.obj e2) h3, h4.trans (.step rfl)⟩
          · simp [ETree.eventsItems, ETree.events, h1, e1]
          · simp only [h2, List.length_cons]; omega
        · exact stop h
    · exact stop h

theorem decodeTabular_tree [LawfulF64 F] (ctx : Ctx) (h : Header) (fields : List FieldName) (cur : Cur) (base : Nat)
    {evs : List (Ev F)} {cur' : Cur} (hd : decodeTabular ctx h fields cur base = .ok (evs, cur')) :
    ∃ ts : List (ETree F), evs = ETree.eventsItems ts ∧ (ctx.strict = true → h.length = ts.length) ∧
      GoodItems ctx.strict ts ∧ CurLe cur' cur := by
  unfold decodeTabular at hd
  obtain ⟨out, h1, hd⟩ := bind_ok.mp hd
  obtain ⟨_, h2, hd⟩ := bind_ok.mp hd
  obtain ⟨_, h3, hd⟩ := bind_ok.mp hd
  obtain ⟨_, h4, hd⟩ := bind_ok.mp hd
  rw [pure_ok] at hd
  simp only [Prod.mk.injEq] at hd
  obtain ⟨rfl, rfl⟩ := hd
  obtain ⟨ts, e1, e2, e3, e4⟩ := tabularLoop_tree ctx fields _ _ _ _ _ _ _ _ h1
  refine ⟨ts, e1, fun hs => ?_, e3, e4⟩
  have := assertCount_ok h2 hs
  omega

/-! ## The recursion -/

/-- The claims for one fuel value. -/
structure TreeClaims (F : Type) [F64 F] (ctx : Ctx) (fuel : Nat) : Prop where
  kv : ∀ content cur base (evs : List (Ev F)) cur', decodeKV ctx fuel content cur base = .ok (evs, cur') →
    (∃ k q t, evs = .key k q :: ETree.events t ∧ Good ctx.strict t) ∧ CurLe cur' cur
  fields : ∀ cur base comp (evs : List (Ev F)) cur', decodeFields ctx fuel cur base comp = .ok (evs, cur') →
    (∃ es, evs = ETree.eventsEntries es ∧ GoodEntries ctx.strict es) ∧ CurLe cur' cur
  array : ∀ h cur base (evs : List (Ev F)) cur', h.length ≤ maxDeclaredLength →
    decodeArray ctx fuel h cur base = .ok (evs, cur') →
    (∃ t, evs = ETree.events t ∧ Good ctx.strict t) ∧ CurLe cur' cur
  list : ∀ length depth cur count s e (out : LoopOut F), listLoop ctx fuel length depth cur count s e = .ok out →
    (∃ ts, out.evs = ETree.eventsItems ts ∧ out.count = count + ts.length ∧ GoodItems ctx.strict ts) ∧ CurLe out.cur cur
  item : ∀ cur base (evs : List (Ev F)) cur', decodeItem ctx fuel cur base = .ok (evs, cur') →
    (∃ t, evs = ETree.events t ∧ Good ctx.strict t) ∧ ∃ line rest, cur.rest = line :: rest ∧ CurLe cur' ⟨rest, some line⟩
  itemRest : ∀ after cur base (evs : List (Ev F)) cur', decodeItemRest ctx fuel after cur base = .ok (evs, cur') →
    (∃ t, evs = ETree.events t ∧ Good ctx.strict t) ∧ CurLe cur' cur
  follow : ∀ cur depth (evs : List (Ev F)) cur', followLoop ctx fuel cur depth = .ok (evs, cur') →
    (∃ es, evs = ETree.eventsEntries es ∧ GoodEntries ctx.strict es) ∧ CurLe cur' cur

omit [F64 F] in
theorem keyedHeader_some {hdr : Option Header} {k : Str} {h : Header} (hk : keyedHeader hdr = some (k, h)) : hdr = some h := by
  unfold keyedHeader at hk
  split at hk
  · contradiction
  · split at hk
    · contradiction
    · simp only [Option.some.injEq, Prod.mk.injEq] at hk
      rw [hk.2]

omit [F64 F] in
theorem objEvents {es : List (Str × Bool × ETree F)} : Ev.startObj :: ETree.eventsEntries es ++ [.endObj] = (ETree.obj es).events := by
  simp [ETree.events]

theorem treeClaims [LawfulF64 F] (ctx : Ctx) (fuel : Nat) : TreeClaims F ctx fuel := by
  induction fuel with
  | zero => constructor <;> intros <;> rename_i h <;> simp [decodeKV, decodeFields, decodeArray, listLoop, decodeItem, decodeItemRest, followLoop] at h
  | succ fuel ih =>
    constructor
    · -- kv
      intro content cur base evs cur' h
      rw [decodeKV] at h
      obtain ⟨hdr, hh, h⟩ := bind_ok.mp h
      split at h
      · rename_i key hd hk
        obtain ⟨⟨evs1, cur1⟩, h1, h⟩ := bind_ok.mp h
        rw [pure_ok] at h
        simp only [Prod.mk.injEq] at h
        obtain ⟨rfl, rfl⟩ := h
        rw [keyedHeader_some hk] at hh
        obtain ⟨⟨t, rfl, ht⟩, hc⟩ := ih.array _ _ _ _ _ (parseHeader_cap hh) h1
        exact ⟨⟨key, _, t, rfl, ht⟩, hc⟩
      · obtain ⟨⟨key, e, quoted⟩, hk, h⟩ := bind_ok.mp h
        simp only at h
        split at h
        · split at h
          · split at h
            · obtain ⟨⟨evs1, cur1⟩, h1, h⟩ := bind_ok.mp h
              rw [pure_ok] at h
              simp only [Prod.mk.injEq] at h
              obtain ⟨rfl, rfl⟩ := h
              obtain ⟨⟨es, rfl, hes⟩, hc⟩ := ih.fields _ _ _ _ _ h1
              exact ⟨⟨key, quoted, .obj es, by simp [ETree.events], .obj hes⟩, hc⟩
            · rw [pure_ok] at h
              simp only [Prod.mk.injEq] at h
              obtain ⟨rfl, rfl⟩ := h
              exact ⟨⟨key, quoted, .obj [], by simp [ETree.events, ETree.eventsEntries], .obj .nil⟩, .refl _⟩
          · rw [pure_ok] at h
            simp only [Prod.mk.injEq] at h
            obtain ⟨rfl, rfl⟩ := h
            exact ⟨⟨key, quoted, .obj [], by simp [ETree.events, ETree.eventsEntries], .obj .nil⟩, .refl _⟩
        · obtain ⟨p, hp, h⟩ := bind_ok.mp h
          rw [pure_ok] at h
          simp only [Prod.mk.injEq] at h
          obtain ⟨rfl, rfl⟩ := h
          exact ⟨⟨key, quoted, .prim p, by simp [ETree.events], .prim (parsePrimitive_plain hp)⟩, .refl _⟩
    · -- fields
      intro cur base comp evs cur' h
      rw [decodeFields] at h
      split at h
      · simp only [Except.ok.injEq, Prod.mk.injEq] at h
        obtain ⟨rfl, rfl⟩ := h
        exact ⟨⟨[], rfl, .nil⟩, .refl _⟩
      · rename_i line rest hr
        split at h
        · simp only [Except.ok.injEq, Prod.mk.injEq] at h
          obtain ⟨rfl, rfl⟩ := h
          exact ⟨⟨[], rfl, .nil⟩, .refl _⟩
        · split at h
          · obtain ⟨⟨evs1, cur1⟩, h1, h⟩ := bind_ok.mp h
            obtain ⟨⟨evs2, cur2⟩, h2, h⟩ := bind_ok.mp h
            rw [pure_ok] at h
            simp only [Prod.mk.injEq] at h
            obtain ⟨rfl, rfl⟩ := h
            obtain ⟨⟨k, q, t, rfl, ht⟩, hc1⟩ := ih.kv _ _ _ _ _ h1
            obtain ⟨⟨es, rfl, hes⟩, hc2⟩ := ih.fields _ _ _ _ _ h2
            exact ⟨⟨(k, q, t) :: es, by simp [ETree.eventsEntries], .cons ht hes⟩, hc2.trans (hc1.trans (.step hr))⟩
          · simp only [Except.ok.injEq, Prod.mk.injEq] at h
            obtain ⟨rfl, rfl⟩ := h
            exact ⟨⟨[], rfl, .nil⟩, .refl _⟩
    · -- array
      intro h cur base evs cur' hcap hd
      rw [decodeArray] at hd
      split at hd
      · obtain ⟨evs1, h1, hd⟩ := bind_ok.mp hd
        rw [pure_ok] at hd
        simp only [Prod.mk.injEq] at hd
        obtain ⟨rfl, rfl⟩ := hd
        obtain ⟨ts, rfl, hl, hg⟩ := decodeInline_tree h1
        exact ⟨⟨.arr h.length ts, by simp [ETree.events], .arr hcap hl hg⟩, .refl _⟩
      · split at hd
        · obtain ⟨out, h1, hd⟩ := bind_ok.mp hd
          obtain ⟨_, h2, hd⟩ := bind_ok.mp hd
          obtain ⟨_, h3, hd⟩ := bind_ok.mp hd
          obtain ⟨_, h4, hd⟩ := bind_ok.mp hd
          rw [pure_ok] at hd
          simp only [Prod.mk.injEq] at hd
          obtain ⟨rfl, rfl⟩ := hd
          obtain ⟨⟨ts, e1, e2, e3⟩, hc⟩ := ih.list _ _ _ _ _ _ _ h1
          refine ⟨⟨.arr h.length ts, by simp [ETree.events, e1], .arr hcap (fun hs => ?_) e3⟩, hc⟩
          have := assertCount_ok h2 hs
          omega
        · obtain ⟨⟨evs1, cur1⟩, h1, hd⟩ := bind_ok.mp hd
          rw [pure_ok] at hd
          simp only [Prod.mk.injEq] at hd
          obtain ⟨rfl, rfl⟩ := hd
          obtain ⟨ts, rfl, hl, hg, hc⟩ := decodeTabular_tree _ _ _ _ _ h1
          exact ⟨⟨.arr h.length ts, by simp [ETree.events], .arr hcap hl hg⟩, hc⟩
    · -- list
      intro length depth cur count s e out h
      have stop : ∀ {out : LoopOut F}, Except.ok (ε := Err) (LoopOut.mk [] cur count s e) = .ok out →
          (∃ ts : List (ETree F), out.evs = ETree.eventsItems ts ∧ out.count = count + ts.length ∧
            GoodItems ctx.strict ts) ∧ CurLe out.cur cur := by
        intro out h
        simp only [Except.ok.injEq] at h
        subst h
        exact ⟨⟨[], rfl, rfl, .nil⟩, .refl _⟩
      rw [listLoop] at h
      split at h
      · exact stop h
      · rename_i line rest hr
        split at h
        · split at h
          · exact stop h
          · split at h
            · simp only at h
              obtain ⟨⟨evs1, cur1⟩, h1, h⟩ := bind_ok.mp h
              obtain ⟨out', h2, h⟩ := bind_ok.mp h
              rw [pure_ok] at h
              subst h
              obtain ⟨⟨t, rfl, ht⟩, line', rest', hr', hc1⟩ := ih.item _ _ _ _ h1
              obtain ⟨⟨ts, e1, e2, e3⟩, hc2⟩ := ih.list _ _ _ _ _ _ _ h2
              refine ⟨⟨t :: ts, by simp [ETree.eventsItems, e1], ?_, .cons ht e3⟩, hc2.trans (hc1.trans (.step hr'))⟩
              simp only [e2, List.length_cons]; omega
            · exact stop h
        · exact stop h
    · -- item
      intro cur base evs cur' h
      rw [decodeItem] at h
      split at h
      · contradiction
      · rename_i line rest hr
        simp only at h
        refine ⟨?_, line, rest, hr, ?_⟩ <;>
        · split at h
          · simp only [Except.ok.injEq, Prod.mk.injEq] at h
            obtain ⟨rfl, rfl⟩ := h
            first
            | exact ⟨.obj [], by simp [ETree.events, ETree.eventsEntries], .obj .nil⟩
            | exact .refl _
          · split at h
            · split at h
              · simp only [Except.ok.injEq, Prod.mk.injEq] at h
                obtain ⟨rfl, rfl⟩ := h
                first
                | exact ⟨.obj [], by simp [ETree.events, ETree.eventsEntries], .obj .nil⟩
                | exact .refl _
              · obtain ⟨hdr, hh, h⟩ := bind_ok.mp h
                split at h
                · have := ih.array _ _ _ _ _ (parseHeader_cap hh) h
                  first
                  | exact this.1
                  | exact this.2
                · split at h
                  · rename_i key hd hk
                    rw [keyedHeader_some hk] at hh
                    split at h
                    · obtain ⟨⟨evs1, cur1⟩, h1, h⟩ := bind_ok.mp h
                      obtain ⟨⟨evs2, cur2⟩, h2, h⟩ := bind_ok.mp h
                      rw [pure_ok] at h
                      simp only [Prod.mk.injEq] at h
                      obtain ⟨rfl, rfl⟩ := h
                      obtain ⟨⟨t, rfl, ht⟩, hc1⟩ := ih.array _ _ _ _ _ (parseHeader_cap hh) h1
                      obtain ⟨⟨es, rfl, hes⟩, hc2⟩ := ih.follow _ _ _ _ h2
                      first
                      | exact ⟨.obj ((key, hd.keyQuoted, t) :: es), by simp [ETree.events, ETree.eventsEntries], .obj (.cons ht hes)⟩
                      | exact hc2.trans hc1
                    · have := ih.itemRest _ _ _ _ _ h
                      first
                      | exact this.1
                      | exact this.2
                  · have := ih.itemRest _ _ _ _ _ h
                    first
                    | exact this.1
                    | exact this.2
            · contradiction
    · -- itemRest
      intro after cur base evs cur' h
      rw [decodeItemRest] at h
      split at h
      · obtain ⟨⟨evs1, cur1⟩, h1, h⟩ := bind_ok.mp h
        obtain ⟨⟨evs2, cur2⟩, h2, h⟩ := bind_ok.mp h
        rw [pure_ok] at h
        simp only [Prod.mk.injEq] at h
        obtain ⟨rfl, rfl⟩ := h
        obtain ⟨⟨k, q, t, rfl, ht⟩, hc1⟩ := ih.kv _ _ _ _ _ h1
        obtain ⟨⟨es, rfl, hes⟩, hc2⟩ := ih.follow _ _ _ _ h2
        exact ⟨⟨.obj ((k, q, t) :: es), by simp [ETree.events, ETree.eventsEntries], .obj (.cons ht hes)⟩, hc2.trans hc1⟩
      · obtain ⟨p, hp, h⟩ := bind_ok.mp h
        rw [pure_ok] at h
        simp only [Prod.mk.injEq] at h
        obtain ⟨rfl, rfl⟩ := h
        exact ⟨⟨.prim p, by simp [ETree.events], .prim (parsePrimitive_plain hp)⟩, .refl _⟩
    · -- follow
      intro cur depth evs cur' h
      rw [followLoop] at h
      split at h
      · simp only [Except.ok.injEq, Prod.mk.injEq] at h
        obtain ⟨rfl, rfl⟩ := h
        exact ⟨⟨[], rfl, .nil⟩, .refl _⟩
      · rename_i line rest hr
        split at h
        · simp only [Except.ok.injEq, Prod.mk.injEq] at h
          obtain ⟨rfl, rfl⟩ := h
          exact ⟨⟨[], rfl, .nil⟩, .refl _⟩
        · split at h
          · obtain ⟨⟨evs1, cur1⟩, h1, h⟩ := bind_ok.mp h
            obtain ⟨⟨evs2, cur2⟩, h2, h⟩ := bind_ok.mp h
            rw [pure_ok] at h
            simp only [Prod.mk.injEq] at h
            obtain ⟨rfl, rfl⟩ := h
            obtain ⟨⟨k, q, t, rfl, ht⟩, hc1⟩ := ih.kv _ _ _ _ _ h1
            obtain ⟨⟨es, rfl, hes⟩, hc2⟩ := ih.follow _ _ _ _ h2
            exact ⟨⟨(k, q, t) :: es, by simp [ETree.eventsEntries], .cons ht hes⟩, hc2.trans (hc1.trans (.step hr))⟩
          · simp only [Except.ok.injEq, Prod.mk.injEq] at h
            obtain ⟨rfl, rfl⟩ := h
            exact ⟨⟨[], rfl, .nil⟩, .refl _⟩

theorem rootLoop_tree [LawfulF64 F] (ctx : Ctx) (fuel : Nat) : ∀ cur (evs : List (Ev F)) cur',
    rootLoop ctx fuel cur = .ok (evs, cur') →
    (∃ es, evs = ETree.eventsEntries es ∧ GoodEntries ctx.strict es) ∧ CurLe cur' cur := by
  induction fuel with
  | zero => intro cur evs cur' h; simp [rootLoop] at h
  | succ fuel ih =>
    intro cur evs cur' h
    rw [rootLoop] at h
    split at h
    · simp only [Except.ok.injEq, Prod.mk.injEq] at h
      obtain ⟨rfl, rfl⟩ := h
      exact ⟨⟨[], rfl, .nil⟩, .refl _⟩
    · rename_i line rest hr
      split at h
      · simp only [Except.ok.injEq, Prod.mk.injEq] at h
        obtain ⟨rfl, rfl⟩ := h
        exact ⟨⟨[], rfl, .nil⟩, .refl _⟩
      · obtain ⟨⟨evs1, cur1⟩, h1, h⟩ := bind_ok.mp h
        obtain ⟨⟨evs2, cur2⟩, h2, h⟩ := bind_ok.mp h
        rw [pure_ok] at h
        simp only [Prod.mk.injEq] at h
        obtain ⟨rfl, rfl⟩ := h
        obtain ⟨⟨k, q, t, rfl, ht⟩, hc1⟩ := (treeClaims ctx fuel).kv _ _ _ _ _ h1
        obtain ⟨⟨es, rfl, hes⟩, hc2⟩ := ih _ _ _ h2
        exact ⟨⟨(k, q, t) :: es, by simp [ETree.eventsEntries], .cons ht hes⟩, hc2.trans (hc1.trans (.step hr))⟩

theorem decodeLines_tree [LawfulF64 F] (ctx : Ctx) (lines : List Line) {evs : List (Ev F)}
    (h : decodeLines ctx lines = .ok evs) : ∃ t, evs = ETree.events t ∧ Good ctx.strict t := by
  unfold decodeLines at h
  split at h
  · simp only [Except.ok.injEq] at h
    subst h
    exact ⟨.obj [], by simp [ETree.events, ETree.eventsEntries], .obj .nil⟩
  · rename_i first rest
    obtain ⟨hdr, hh, h⟩ := bind_ok.mp h
    unfold rootHeader at hh
    split at h
    · split at hh
      · obtain ⟨⟨evs1, cur1⟩, h1, h⟩ := bind_ok.mp h
        rw [pure_ok] at h
        subst h
        exact ((treeClaims ctx _).array _ _ _ _ _ (parseHeader_cap hh) h1).1
      · simp at hh
    · split at h
      · obtain ⟨p, hp, h⟩ := bind_ok.mp h
        rw [pure_ok] at h
        subst h
        exact ⟨.prim p, by simp [ETree.events], .prim (parsePrimitive_plain hp)⟩
      · obtain ⟨⟨evs1, cur1⟩, h1, h⟩ := bind_ok.mp h
        obtain ⟨⟨evs2, cur2⟩, h2, h⟩ := bind_ok.mp h
        rw [pure_ok] at h
        subst h
        obtain ⟨⟨k, q, t, rfl, ht⟩, _⟩ := (treeClaims ctx _).kv _ _ _ _ _ h1
        obtain ⟨⟨es, rfl, hes⟩, _⟩ := rootLoop_tree ctx _ _ _ _ h2
        exact ⟨.obj ((k, q, t) :: es), by simp [ETree.events, ETree.eventsEntries], .obj (.cons ht hes)⟩

theorem decodeStream_tree [LawfulF64 F] {indent : Nat} {strict : Bool} {source : List Str} {evs : List (Ev F)}
    (h : decodeStream indent strict source = .ok evs) : ∃ t, evs = ETree.events t ∧ Good strict t := by
  unfold decodeStream at h
  obtain ⟨⟨lines, blanks⟩, _, h⟩ := bind_ok.mp h
  exact decodeLines_tree _ _ h

end

end Toon
