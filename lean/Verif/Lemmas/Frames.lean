import Verif.Lemmas.Fuel
import Verif.Model.Frames

/-!
The machine with a bounded stack does what the model of the decoder does.

A cursor is the list of the lines that are left; the machine has the index of the first of them.
-/

set_option linter.unusedSimpArgs false

namespace Toon

section
variable {α β : Type}

@[simp] theorem Run.result_bind (x : Run α) (f : α → Run β) :
    (x >>= f).result = match x.result with | .ok a => (f a).result | .error e => .error e := rfl
@[simp] theorem Run.result_pure (a : α) : (pure a : Run α).result = .ok a := rfl
@[simp] theorem Run.result_tick (n : Nat) : (tick n).result = .ok () := rfl
@[simp] theorem Run.result_lift (x : Except Err α) : (Run.lift x).result = liftErr x := rfl
@[simp] theorem Run.result_stop (e : Stop) : (Run.stop e : Run α).result = .error e := rfl

theorem Run.lift_ok_bind (a : α) (f : α → Run β) : (Run.lift (.ok a) >>= f) = f a := by
  show Run.mk (0 + (f a).steps) (f a).result = f a
  rw [Nat.zero_add]

theorem Run.steps_bind (x : Run α) (f : α → Run β) :
    (x >>= f).steps = x.steps + match x.result with | .ok a => (f a).steps | .error _ => 0 := rfl
theorem Run.steps_pure (a : α) : (pure a : Run α).steps = 0 := rfl
theorem Run.steps_tick (n : Nat) : (tick n).steps = n := rfl
theorem Run.steps_lift (x : Except Err α) : (Run.lift x).steps = 0 := rfl

/-- What a run does: its steps and its result. -/
def Run.Is (x : Run α) (n : Nat) (a : α) : Prop := x.steps = n ∧ x.result = .ok a

theorem Run.Is.bind {x : Run α} {f : α → Run β} {n k : Nat} {a : α} {b : β} (h1 : x.Is n a) (h2 : (f a).Is k b) :
    (x >>= f).Is (n + k) b := by
  constructor
  · rw [Run.steps_bind, h1.1, h1.2]; simp only [h2.1]
  · rw [Run.result_bind, h1.2]; exact h2.2

theorem Run.Is.tick {n k : Nat} {f : Unit → Run β} {b : β} (h : (f ()).Is k b) : (tick n >>= f).Is (n + k) b :=
  Run.Is.bind (a := ()) ⟨rfl, rfl⟩ h

theorem Run.Is.lift {x : Except Err α} {a : α} {f : α → Run β} {k : Nat} {b : β} (hx : x = .ok a) (h : (f a).Is k b) :
    (Run.lift x >>= f).Is k b := by rw [hx, Run.lift_ok_bind]; exact h

theorem Run.Is.pure (a : α) : (pure a : Run α).Is 0 a := ⟨rfl, rfl⟩

theorem exc_ok {ε : Type} (a : α) (f : α → Except ε β) : (Except.ok a >>= f) = f a := rfl
theorem exc_error {ε : Type} (e : ε) (f : α → Except ε β) : ((Except.error e : Except ε α) >>= f) = .error e := rfl
theorem exc_pure {ε : Type} (a : α) : (pure a : Except ε α) = .ok a := rfl

end

section
variable {F : Type}

/-- The machine that has pushed `evs` and stands at `cur`. -/
def Machine.of (lines : List Line) (evs : List (Ev F)) (cur : Cur) : Machine F :=
  ⟨evs, lines.length - cur.rest.length, cur.last⟩

theorem Machine.of_push (lines : List Line) (evs more : List (Ev F)) (cur : Cur) :
    (Machine.of lines evs cur).push more = Machine.of lines (evs ++ more) cur := rfl

theorem Machine.of_last (lines : List Line) (evs : List (Ev F)) (cur : Cur) : (Machine.of lines evs cur).last = cur.last := rfl

theorem suffix_get {lines rest : List Line} (h : rest <:+ lines) : lines[lines.length - rest.length]? = rest.head? := by
  obtain ⟨pre, rfl⟩ := h
  rw [List.length_append, Nat.add_sub_cancel, List.getElem?_append_right (Nat.le_refl _), Nat.sub_self]
  cases rest <;> rfl

theorem Machine.of_peek {lines : List Line} {cur : Cur} (h : cur.rest <:+ lines) (evs : List (Ev F)) :
    (Machine.of lines evs cur).peek lines = cur.rest.head? := suffix_get h

theorem Machine.of_left {lines : List Line} {cur : Cur} (h : cur.rest <:+ lines) (evs : List (Ev F)) :
    (Machine.of lines evs cur).left lines = cur.rest.length := by
  have := h.length_le
  simp only [Machine.left, Machine.of]
  omega

theorem Machine.of_atEnd {lines : List Line} {cur : Cur} (h : cur.rest <:+ lines) (evs : List (Ev F)) :
    (Machine.of lines evs cur).atEnd lines = cur.rest.isEmpty := by
  have := h.length_le
  rw [Machine.atEnd, Bool.eq_iff_iff, decide_eq_true_eq, List.isEmpty_iff, ← List.length_eq_zero_iff]
  show lines.length ≤ lines.length - cur.rest.length ↔ _
  omega

theorem Machine.of_advance {lines : List Line} {cur : Cur} {line : Line} {rest : List Line} (h : cur.rest <:+ lines)
    (hr : cur.rest = line :: rest) (evs : List (Ev F)) :
    (Machine.of lines evs cur).advance lines = Machine.of lines evs ⟨rest, some line⟩ := by
  have hg := suffix_get h
  have hl := h.length_le
  simp only [Machine.advance, Machine.of]
  rw [hg, hr]
  simp only [List.head?_cons, Machine.mk.injEq, true_and, and_true]
  rw [hr] at hl
  simp only [List.length_cons] at hl ⊢
  omega

/-- What the machine must do when the model does `r`. -/
def after (lines : List Line) (evs : List (Ev F)) : Except Err (List (Ev F) × Cur) → Except Stop (Machine F)
  | .error e => .error (.failed e)
  | .ok (more, cur) => .ok (Machine.of lines (evs ++ more) cur)

/-- The same for the loops that count. -/
def afterLoop (lines : List Line) (evs : List (Ev F)) : Except Err (LoopOut F) → Except Stop (Machine F × Counts)
  | .error e => .error (.failed e)
  | .ok out => .ok (Machine.of lines (evs ++ out.evs) out.cur, ⟨out.count, out.start, out.end⟩)

/-- How many of the levels are deeper than `b`. -/
def deeper (levels : List Nat) (b : Nat) : Nat := levels.countP (b < ·)

theorem deeper_mono (levels : List Nat) {a b : Nat} (h : a ≤ b) : deeper levels b ≤ deeper levels a := by
  apply List.countP_mono_left
  intro x _ hx
  simp only [decide_eq_true_eq] at hx ⊢
  omega

theorem deeper_lt {levels : List Nat} {a b : Nat} (h : a < b) (hb : b ∈ levels) : deeper levels b + 1 ≤ deeper levels a := by
  induction levels with
  | nil => simp at hb
  | cons x xs ih =>
    simp only [deeper, List.countP_cons] at ih ⊢
    rcases List.mem_cons.mp hb with rfl | hb
    · have := deeper_mono xs (Nat.le_of_lt h)
      simp only [deeper] at this
      simp [h]
      omega
    · have := ih hb
      split <;> split <;> rename_i h1 h2 <;> simp only [decide_eq_true_eq] at h1 h2 <;> omega

variable [F64 F]

theorem rowsLoop_of (ctx : Ctx) (lines : List Line) (fields : List FieldName) (delim : Char) (length rowDepth : Nat)
    (rest : List Line) (last : Option Line) (count : Nat) (s e : Option Nat) (hs : rest <:+ lines)
    (n : Nat) (hn : rest.length ≤ n) (evs : List (Ev F)) :
    (rowsLoop ctx lines fields delim length rowDepth n ⟨count, s, e⟩ (Machine.of lines evs ⟨rest, last⟩)).result =
      afterLoop lines evs (tabularLoop (F := F) ctx fields delim length rowDepth rest last count s e) := by
  induction rest generalizing last count s e n evs with
  | nil =>
    cases n with
    | zero => simp [exc_ok, exc_error, exc_pure, liftErr, rowsLoop, tabularLoop, afterLoop]
    | succ n => simp [exc_ok, exc_error, exc_pure, liftErr, rowsLoop, tabularLoop, afterLoop, Machine.of_atEnd (cur := ⟨[], last⟩) hs]
  | cons line rest ih =>
    cases n with
    | zero => simp at hn
    | succ n =>
      have hs' : rest <:+ lines := (List.suffix_cons _ _).trans hs
      rw [rowsLoop, tabularLoop.eq_def, Machine.of_atEnd hs, Machine.of_peek hs, Machine.of_advance hs rfl]
      simp only [Run.result_bind, Run.result_pure, Run.result_tick, Run.result_lift, Run.result_stop, liftErr, List.isEmpty_cons, Bool.false_or, List.head?_cons]
      by_cases hc : count < length
      · simp only [Run.result_bind, Run.result_pure, Run.result_tick, Run.result_lift, Run.result_stop, liftErr, hc, decide_true, Bool.not_true, Bool.false_eq_true, if_false, if_true]
        by_cases h1 : line.depth < rowDepth
        · simp [exc_ok, exc_error, exc_pure, liftErr, h1, afterLoop]
        · simp only [Run.result_bind, Run.result_pure, Run.result_tick, Run.result_lift, Run.result_stop, liftErr, h1, if_false]
          by_cases h2 : line.depth = rowDepth
          · simp only [Run.result_bind, Run.result_pure, Run.result_tick, Run.result_lift, Run.result_stop, liftErr, h2, beq_self_eq_true, if_true]
            cases assertCount (parseDelimitedValues line.content delim).length fields.length .rowValues ctx.strict with
            | error e => simp [exc_ok, exc_error, exc_pure, liftErr, afterLoop, exc_ok, exc_error]
            | ok _ =>
              simp only [Run.result_bind, Run.result_pure, Run.result_tick, Run.result_lift, Run.result_stop, liftErr, exc_ok, exc_error]
              cases mapRowValues (F := F) (parseDelimitedValues line.content delim) with
              | error e => simp [exc_ok, exc_error, exc_pure, liftErr, afterLoop]
              | ok prims =>
                simp only [Run.result_bind, Run.result_pure, Run.result_tick, Run.result_lift, Run.result_stop, liftErr]
                rw [Machine.of_push, ih _ _ _ _ hs' _ (by simpa using hn)]
                cases tabularLoop (F := F) ctx fields delim length rowDepth rest (some line) (count + 1) _ _ with
                | error e => simp [exc_ok, exc_error, exc_pure, liftErr, afterLoop]
                | ok out => simp [exc_ok, exc_error, exc_pure, liftErr, afterLoop, exc_pure]
          · simp [exc_ok, exc_error, exc_pure, liftErr, h2, afterLoop]
      · simp [exc_ok, exc_error, exc_pure, liftErr, hc, afterLoop]

theorem tabularFrom_of (ctx : Ctx) (lines : List Line) (h : Header) (fields : List FieldName) (cur : Cur) (base : Nat)
    (hs : cur.rest <:+ lines) (hsuf : ∀ out, tabularLoop (F := F) ctx fields h.delim h.length (base + 1) cur.rest cur.last 0 none none = .ok out →
      out.cur.rest <:+ lines) (evs : List (Ev F)) :
    (tabularFrom ctx lines h fields (Machine.of lines evs cur) base).result =
      after lines evs (decodeTabular (F := F) ctx h fields cur base) := by
  rw [tabularFrom, decodeTabular, Machine.of_left hs]
  have hr := rowsLoop_of ctx lines fields h.delim h.length (base + 1) cur.rest cur.last 0 none none hs _ (Nat.le_refl _) evs
  rw [Run.result_bind, hr]
  cases hx : tabularLoop (F := F) ctx fields h.delim h.length (base + 1) cur.rest cur.last 0 none none with
  | error e => simp [exc_ok, exc_error, exc_pure, liftErr, afterLoop, after, exc_ok, exc_error]
  | ok out =>
    have := hsuf out hx
    simp only [Run.result_bind, Run.result_pure, Run.result_tick, Run.result_lift, Run.result_stop, liftErr, afterLoop, exc_ok, exc_error, Machine.of_peek this]
    cases assertCount out.count h.length .rows ctx.strict with
    | error e => simp [exc_ok, exc_error, exc_pure, liftErr, after]
    | ok _ =>
      simp only [Run.result_bind, Run.result_pure, Run.result_tick, Run.result_lift, Run.result_stop, liftErr]
      cases checkBlanks ctx true out.start out.end with
      | error e => simp [exc_ok, exc_error, exc_pure, liftErr, after]
      | ok _ =>
        simp only [Run.result_bind, Run.result_pure, Run.result_tick, Run.result_lift, Run.result_stop, liftErr]
        cases noExtraRows out.cur.rest.head? (base + 1) h.length h.delim ctx.strict with
        | error e => simp [exc_ok, exc_error, exc_pure, liftErr, after]
        | ok _ => simp [exc_ok, exc_error, exc_pure, liftErr, after, exc_pure]

/-- The stack each function needs, given the levels of indentation. -/
structure FrameClaims (F : Type) [F64 F] (ctx : Ctx) (lines : List Line) (levels : List Nat) (fuel : Nat) : Prop where
  kv : ∀ content cur base stack (evs : List (Ev F)), cur.rest <:+ lines → 5 * cur.rest.length + 3 ≤ fuel →
    4 * deeper levels base + 3 ≤ stack →
    (callKV ctx lines stack content (Machine.of lines evs cur) base).result = after lines evs (decodeKV ctx fuel content cur base)
  fields : ∀ cur base comp stack n (evs : List (Ev F)), cur.rest <:+ lines → 5 * cur.rest.length + 1 ≤ fuel →
    cur.rest.length ≤ n → (∀ l ∈ lines, base ≤ l.depth → 4 * deeper levels l.depth + 3 ≤ stack) →
    (fieldsLoop lines (callKV ctx lines stack) base n comp (Machine.of lines evs cur)).result =
      after lines evs (decodeFields ctx fuel cur base comp)
  array : ∀ h cur base stack (evs : List (Ev F)), cur.rest <:+ lines → 5 * cur.rest.length + 2 ≤ fuel →
    4 * deeper levels base + 2 ≤ stack →
    (callArray ctx lines stack h (Machine.of lines evs cur) base).result = after lines evs (decodeArray ctx fuel h cur base)
  list : ∀ length depth cur count s e stack n (evs : List (Ev F)), cur.rest <:+ lines → 5 * cur.rest.length + 1 ≤ fuel →
    cur.rest.length ≤ n → (∀ l ∈ lines, l.depth = depth → 4 * deeper levels depth + 4 ≤ stack) →
    (itemsLoop lines (callItem ctx lines stack) length depth n ⟨count, s, e⟩ (Machine.of lines evs cur)).result =
      afterLoop lines evs (listLoop ctx fuel length depth cur count s e)
  item : ∀ cur base stack (evs : List (Ev F)), cur.rest <:+ lines → 5 * cur.rest.length ≤ fuel → 0 < fuel →
    4 * deeper levels base + 4 ≤ stack →
    (callItem ctx lines stack (Machine.of lines evs cur) base).result = after lines evs (decodeItem ctx fuel cur base)
  itemRest : ∀ rest cur base stack (evs : List (Ev F)), cur.rest <:+ lines → 5 * cur.rest.length + 4 ≤ fuel →
    4 * deeper levels (base + 1) + 3 ≤ stack →
    (itemRest lines (callKV ctx lines stack) rest (Machine.of lines evs cur) base).result =
      after lines evs (decodeItemRest ctx fuel rest cur base)
  follow : ∀ cur depth stack n (evs : List (Ev F)), cur.rest <:+ lines → 5 * cur.rest.length + 1 ≤ fuel →
    cur.rest.length ≤ n → 4 * deeper levels depth + 3 ≤ stack →
    (entriesLoop lines (callKV ctx lines stack) depth n (Machine.of lines evs cur)).result =
      after lines evs (followLoop ctx fuel cur depth)

theorem frameClaims [LawfulF64 F] (ctx : Ctx) (lines : List Line) (levels : List Nat)
    (hlev : ∀ l ∈ lines, 0 < l.depth → l.depth ∈ levels) (fuel : Nat) : FrameClaims F ctx lines levels fuel := by
  induction fuel with
  | zero => constructor <;> intros <;> omega
  | succ fuel ih =>
    have tc := treeClaims (F := F) ctx fuel
    constructor
    · -- kv
      intro content cur base stack evs hs hf hst
      obtain ⟨stack, rfl⟩ : ∃ k, stack = k + 1 := ⟨stack - 1, by omega⟩
      rw [callKV, decodeKV]
      cases parseArrayHeaderLine content ',' with
      | error e => simp [exc_ok, exc_error, exc_pure, liftErr, after]
      | ok hdr =>
        simp only [Run.result_bind, Run.result_pure, Run.result_tick, Run.result_lift, Run.result_stop, liftErr, exc_ok, exc_error]
        cases keyedHeader hdr with
        | some kh =>
          obtain ⟨key, h⟩ := kh
          simp only [Run.result_bind, Run.result_pure, Run.result_tick, Run.result_lift, Run.result_stop, liftErr]
          rw [Machine.of_push, ih.array _ _ _ _ _ hs (by omega) (by omega)]
          cases decodeArray (F := F) ctx fuel h cur base with
          | error e => simp [exc_ok, exc_error, exc_pure, liftErr, after]
          | ok r => simp [exc_ok, exc_error, exc_pure, liftErr, after, exc_pure]
        | none =>
          simp only [Run.result_bind, Run.result_pure, Run.result_tick, Run.result_lift, Run.result_stop, liftErr]
          cases parseKeyToken content with
          | error e => simp [exc_ok, exc_error, exc_pure, liftErr, after]
          | ok k =>
            obtain ⟨key, e, quoted⟩ := k
            simp only [Run.result_bind, Run.result_pure, Run.result_tick, Run.result_lift, Run.result_stop, liftErr, exc_ok, Machine.of_push, Machine.of_peek hs]
            by_cases hte : (trim (content.drop e)).isEmpty = true
            · simp only [hte, if_true]
              cases hr : cur.rest with
              | nil => simp [exc_pure, after]
              | cons next tl =>
                simp only [List.head?_cons]
                by_cases hlt : base < next.depth
                · simp only [hlt, if_true, Run.result_bind, Run.result_pure, Run.result_tick, Run.result_lift, Run.result_stop, liftErr]
                  obtain ⟨stack, rfl⟩ : ∃ k, stack = k + 1 := ⟨stack - 1, by omega⟩
                  rw [callFields, Machine.of_left hs]
                  simp only [Run.result_bind, Run.result_pure, Run.result_tick, Run.result_lift, Run.result_stop, liftErr]
                  rw [ih.fields _ _ _ _ _ _ hs (by omega) (Nat.le_refl _) ?_]
                  · cases decodeFields (F := F) ctx fuel cur (base + 1) none with
                    | error e => simp [exc_error, exc_pure, after, liftErr]
                    | ok r => simp [exc_ok, exc_pure, after, Machine.of_push]
                  · intro l hl hd
                    have := deeper_lt (a := base) (by omega) (hlev l hl (by omega))
                    omega
                · simp [exc_pure, after, hlt]
            · simp only [hte, if_false, Run.result_bind, Run.result_pure, Run.result_tick, Run.result_lift, Run.result_stop, liftErr]
              cases parsePrimitiveToken (F := F) (trim (content.drop e)) with
              | error e => simp [exc_error, exc_pure, after, liftErr]
              | ok p => simp [exc_ok, exc_pure, after, liftErr]
    · -- fields
      intro cur base comp stack n evs hs hf hn hst
      rw [decodeFields]
      cases n with
      | zero =>
        have : cur.rest = [] := List.length_eq_zero_iff.mp (by omega)
        rw [fieldsLoop, this]
        simp [exc_ok, exc_error, exc_pure, liftErr, after]
      | succ n =>
        rw [fieldsLoop, Machine.of_atEnd hs, Machine.of_peek hs]
        cases hr : cur.rest with
        | nil => simp [exc_ok, exc_error, exc_pure, liftErr, after]
        | cons line rest =>
          have hm : line ∈ lines := hs.subset (by rw [hr]; simp)
          rw [Machine.of_advance hs hr]
          rw [hr] at hf hn hs
          have hs' : rest <:+ lines := (List.suffix_cons _ _).trans hs
          simp only [List.length_cons] at hf hn
          simp only [Run.result_bind, Run.result_pure, Run.result_tick, Run.result_lift, Run.result_stop, liftErr, List.isEmpty_cons, Bool.false_eq_true, if_false, List.head?_cons]
          by_cases h1 : line.depth < base
          · simp [exc_ok, exc_error, exc_pure, liftErr, h1, after]
          · simp only [Run.result_bind, Run.result_pure, Run.result_tick, Run.result_lift, Run.result_stop, liftErr, h1, if_false]
            have step : ∀ comp', comp' = some line.depth →
                (callKV ctx lines stack line.content (Machine.of lines evs ⟨rest, some line⟩) line.depth >>= fun m' =>
                  fieldsLoop lines (callKV ctx lines stack) base n comp' m').result =
                after lines evs (do
                  let (evs, cur') ← decodeKV (F := F) ctx fuel line.content ⟨rest, some line⟩ line.depth
                  let (evs', cur'') ← decodeFields ctx fuel cur' base (some line.depth)
                  return (evs ++ evs', cur'')) := by
              intro comp' hc
              subst hc
              rw [Run.result_bind, ih.kv _ _ _ _ _ hs' (by simp only; omega) (hst line hm (by omega))]
              cases hk : decodeKV (F := F) ctx fuel line.content ⟨rest, some line⟩ line.depth with
              | error e => simp [exc_ok, exc_error, exc_pure, liftErr, after, exc_ok, exc_error]
              | ok r =>
                obtain ⟨evs1, cur1⟩ := r
                have hc := (tc.kv _ _ _ _ _ hk).2
                have hl := hc.length
                simp only at hl
                simp only [Run.result_bind, Run.result_pure, Run.result_tick, Run.result_lift, Run.result_stop, liftErr, after, exc_ok, exc_error]
                rw [ih.fields _ _ _ _ _ _ (hc.suffix.trans hs') (by omega) (by omega) hst]
                cases decodeFields (F := F) ctx fuel cur1 base (some line.depth) with
                | error e => simp [exc_ok, exc_error, exc_pure, liftErr, after]
                | ok r => simp [exc_ok, exc_error, exc_pure, liftErr, after, exc_pure]
            cases comp with
            | none =>
              simp only [Run.result_bind, Run.result_pure, Run.result_tick, Run.result_lift, Run.result_stop, liftErr, Option.getD_none, if_true]
              exact step _ rfl
            | some c =>
              by_cases hc : c = line.depth
              · subst hc
                simp only [Run.result_bind, Run.result_pure, Run.result_tick, Run.result_lift, Run.result_stop, liftErr, Option.getD_some, if_true]
                exact step _ rfl
              · have hc' : ¬ line.depth = c := fun h => hc h.symm
                simp [exc_ok, exc_error, exc_pure, liftErr, hc, hc', after]
    · -- array
      intro h cur base stack evs hs hf hst
      obtain ⟨stack, rfl⟩ : ∃ k, stack = k + 1 := ⟨stack - 1, by omega⟩
      rw [callArray, decodeArray]
      simp only [Run.result_bind, Run.result_pure, Run.result_tick, Run.result_lift, Run.result_stop, liftErr, Machine.of_push]
      cases h.inline with
      | some inline =>
        simp only [Run.result_bind, Run.result_pure, Run.result_tick, Run.result_lift, Run.result_stop, liftErr]
        cases decodeInline (F := F) h inline ctx.strict with
        | error e => simp [exc_ok, exc_error, exc_pure, liftErr, after]
        | ok e => simp [exc_ok, exc_error, exc_pure, liftErr, after, exc_pure, exc_ok, exc_error]
      | none =>
        simp only [Run.result_bind, Run.result_pure, Run.result_tick, Run.result_lift, Run.result_stop, liftErr]
        split
        · obtain ⟨stack, rfl⟩ : ∃ k, stack = k + 1 := ⟨stack - 1, by omega⟩
          rw [callList, Machine.of_left hs]
          simp only [Run.result_bind, Run.result_pure, Run.result_tick, Run.result_lift, Run.result_stop, liftErr]
          rw [ih.list _ _ _ _ _ _ _ _ _ hs (by omega) (Nat.le_refl _) ?_]
          · cases hx : listLoop (F := F) ctx fuel h.length (base + 1) cur 0 none none with
            | error e => simp [exc_ok, exc_error, exc_pure, liftErr, afterLoop, after, exc_ok, exc_error]
            | ok out =>
              have hs' := (tc.list _ _ _ _ _ _ _ hx).2.suffix.trans hs
              simp only [Run.result_bind, Run.result_pure, Run.result_tick, Run.result_lift, Run.result_stop, liftErr, afterLoop, exc_ok, exc_error, Machine.of_peek hs']
              cases assertCount out.count h.length .listItems ctx.strict with
              | error e => simp [exc_ok, exc_error, exc_pure, liftErr, after]
              | ok _ =>
                simp only [Run.result_bind, Run.result_pure, Run.result_tick, Run.result_lift, Run.result_stop, liftErr]
                cases checkBlanks ctx false out.start out.end with
                | error e => simp [exc_ok, exc_error, exc_pure, liftErr, after]
                | ok _ =>
                  simp only [Run.result_bind, Run.result_pure, Run.result_tick, Run.result_lift, Run.result_stop, liftErr]
                  cases noExtraItems out.cur.rest.head? (base + 1) h.length ctx.strict with
                  | error e => simp [exc_ok, exc_error, exc_pure, liftErr, after]
                  | ok _ => simp [exc_ok, exc_error, exc_pure, liftErr, after, exc_pure, Machine.of_push]
          · intro l hl hd
            have := deeper_lt (a := base) (b := base + 1) (by omega) (hd ▸ hlev l hl (by omega))
            omega
        · simp only [Run.result_bind, Run.result_pure, Run.result_tick, Run.result_lift, Run.result_stop, liftErr]
          rw [tabularFrom_of ctx lines h _ _ _ hs]
          · cases decodeTabular (F := F) ctx h (h.fields.getD []) cur base with
            | error e => simp [exc_ok, exc_error, exc_pure, liftErr, after, exc_ok, exc_error]
            | ok r => simp [exc_ok, exc_error, exc_pure, liftErr, after, exc_pure, exc_ok, exc_error, Machine.of_push]
          · intro out ho
            obtain ⟨_, _, _, _, hc⟩ := tabularLoop_tree _ _ _ _ _ _ _ _ _ _ ho
            exact hc.suffix.trans hs
    · -- list
      intro length depth cur count s e stack n evs hs hf hn hst
      rw [listLoop]
      cases n with
      | zero =>
        have : cur.rest = [] := List.length_eq_zero_iff.mp (by omega)
        rw [itemsLoop, this]
        simp [exc_ok, exc_error, exc_pure, liftErr, afterLoop]
      | succ n =>
        rw [itemsLoop, Machine.of_atEnd hs, Machine.of_peek hs]
        cases hr : cur.rest with
        | nil => simp [exc_ok, exc_error, exc_pure, liftErr, afterLoop]
        | cons line rest =>
          have hm : line ∈ lines := hs.subset (by rw [hr]; simp)
          have hl0 : cur.rest.length = rest.length + 1 := by rw [hr]; simp
          simp only [Run.result_bind, Run.result_pure, Run.result_tick, Run.result_lift, Run.result_stop, liftErr, List.isEmpty_cons, Bool.false_or, List.head?_cons]
          by_cases hc : count < length
          · simp only [Run.result_bind, Run.result_pure, Run.result_tick, Run.result_lift, Run.result_stop, liftErr, hc, decide_true, Bool.not_true, Bool.false_eq_true, if_false, if_true]
            by_cases h1 : line.depth < depth
            · simp [exc_ok, exc_error, exc_pure, liftErr, h1, afterLoop]
            · simp only [Run.result_bind, Run.result_pure, Run.result_tick, Run.result_lift, Run.result_stop, liftErr, h1, if_false]
              by_cases h2 : (line.depth == depth && isListItem line.content) = true
              · simp only [Run.result_bind, Run.result_pure, Run.result_tick, Run.result_lift, Run.result_stop, liftErr, h2, if_true]
                have hd : line.depth = depth := by simp at h2; exact h2.1
                rw [ih.item _ _ _ _ hs (by omega) (by omega) (hst line hm hd)]
                cases hk : decodeItem (F := F) ctx fuel cur depth with
                | error e => simp [exc_ok, exc_error, exc_pure, liftErr, after, afterLoop, exc_ok, exc_error]
                | ok r =>
                  obtain ⟨evs1, cur1⟩ := r
                  obtain ⟨line', rest', hr', hc'⟩ := (tc.item _ _ _ _ hk).2
                  have hl := hc'.length
                  have hl1 : cur.rest.length = rest'.length + 1 := by rw [hr']; simp
                  simp only at hl
                  have hs' : cur1.rest <:+ lines := hc'.suffix.trans ((List.suffix_cons line' rest').trans (hr' ▸ hs))
                  simp only [Run.result_bind, Run.result_pure, Run.result_tick, Run.result_lift, Run.result_stop, liftErr, after, exc_ok, exc_error, Machine.of_last]
                  rw [ih.list _ _ _ _ _ _ _ _ _ hs' (by omega) (by omega) hst]
                  cases listLoop (F := F) ctx fuel length depth cur1 (count + 1) _ _ with
                  | error e => simp [exc_ok, exc_error, exc_pure, liftErr, afterLoop]
                  | ok out => simp [exc_ok, exc_error, exc_pure, liftErr, afterLoop, exc_pure]
              · simp [exc_ok, exc_error, exc_pure, liftErr, h2, afterLoop]
          · simp [exc_ok, exc_error, exc_pure, liftErr, hc, afterLoop]
    · -- item
      intro cur base stack evs hs hf _ hst
      obtain ⟨stack, rfl⟩ : ∃ k, stack = k + 1 := ⟨stack - 1, by omega⟩
      have hmono := deeper_mono levels (Nat.le_succ base)
      simp only [Nat.succ_eq_add_one] at hmono
      rw [callItem, decodeItem, Machine.of_peek hs]
      cases hr : cur.rest with
      | nil => simp [exc_ok, exc_error, exc_pure, liftErr, after]
      | cons line rest =>
        rw [Machine.of_advance hs hr]
        rw [hr] at hf hs
        have hs' : rest <:+ lines := (List.suffix_cons _ _).trans hs
        simp only [List.length_cons] at hf
        simp only [Run.result_bind, Run.result_pure, Run.result_tick, Run.result_lift, Run.result_stop, liftErr, List.head?_cons, Machine.of_push]
        have rest_ok := ih.itemRest (line.content.drop 2) ⟨rest, some line⟩ base stack evs hs' (by simp only; omega) (by omega)
        split
        · simp [exc_ok, exc_error, exc_pure, liftErr, after]
        · split
          · split
            · simp [exc_ok, exc_error, exc_pure, liftErr, after]
            · cases hh : parseArrayHeaderLine (line.content.drop 2) ',' with
              | error e => simp [exc_ok, exc_error, exc_pure, liftErr, after]
              | ok hdr =>
                simp only [Run.result_bind, Run.result_pure, Run.result_tick, Run.result_lift, Run.result_stop, liftErr, exc_ok, exc_error]
                have keyed : (match keyedHeader hdr with
                    | some (key, h) =>
                      if h.fields.isSome then
                        callArray ctx lines stack h
                            (Machine.of lines (evs ++ [.startObj, .key key h.keyQuoted]) ⟨rest, some line⟩) (base + 1) >>= fun m =>
                          entriesLoop lines (callKV ctx lines stack) (base + 1) (m.left lines) m >>= fun m =>
                          pure (m.push [.endObj])
                      else itemRest lines (callKV ctx lines stack) (line.content.drop 2)
                        (Machine.of lines evs ⟨rest, some line⟩) base
                    | none => itemRest lines (callKV ctx lines stack) (line.content.drop 2)
                        (Machine.of lines evs ⟨rest, some line⟩) base : Run (Machine F)).result =
                    after lines evs (match keyedHeader hdr with
                    | some (key, h) =>
                      if h.fields.isSome then do
                        let (evs, cur2) ← decodeArray (F := F) ctx fuel h ⟨rest, some line⟩ (base + 1)
                        let (evs', cur3) ← followLoop ctx fuel cur2 (base + 1)
                        return (.startObj :: .key key h.keyQuoted :: evs ++ evs' ++ [.endObj], cur3)
                      else decodeItemRest ctx fuel (line.content.drop 2) ⟨rest, some line⟩ base
                    | none => decodeItemRest ctx fuel (line.content.drop 2) ⟨rest, some line⟩ base) := by
                  cases hk : keyedHeader hdr with
                  | none => exact rest_ok
                  | some kh =>
                    obtain ⟨key, h⟩ := kh
                    simp only [Run.result_bind, Run.result_pure, Run.result_tick, Run.result_lift, Run.result_stop, liftErr]
                    split
                    · simp only [Run.result_bind, Run.result_pure, Run.result_tick, Run.result_lift, Run.result_stop, liftErr]
                      rw [ih.array _ _ _ _ _ hs' (by simp only; omega) (by omega)]
                      cases hx : decodeArray (F := F) ctx fuel h ⟨rest, some line⟩ (base + 1) with
                      | error e => simp [exc_ok, exc_error, exc_pure, liftErr, after, exc_ok, exc_error]
                      | ok r =>
                        obtain ⟨evs1, cur1⟩ := r
                        rw [keyedHeader_some hk] at hh
                        have hc := (tc.array _ _ _ _ _ (parseHeader_cap hh) hx).2
                        have hl := hc.length
                        simp only at hl
                        simp only [Run.result_bind, Run.result_pure, Run.result_tick, Run.result_lift, Run.result_stop, liftErr, after, exc_ok, exc_error]
                        rw [Machine.of_left (hc.suffix.trans hs'),
                          ih.follow _ _ _ _ _ (hc.suffix.trans hs') (by omega) (Nat.le_refl _) (by omega)]
                        cases followLoop (F := F) ctx fuel cur1 (base + 1) with
                        | error e => simp [exc_ok, exc_error, exc_pure, liftErr, after]
                        | ok r => simp [exc_ok, exc_error, exc_pure, liftErr, after, exc_pure, Machine.of_push]
                    · exact rest_ok
                cases hi : isArrayHeaderContent (line.content.drop 2) with
                | false => exact keyed
                | true =>
                  cases hdr with
                  | none => exact keyed
                  | some h => exact ih.array _ _ _ _ _ hs' (by simp only; omega) (by omega)
          · simp [exc_ok, exc_error, exc_pure, liftErr, after]
    · -- itemRest
      intro rest cur base stack evs hs hf hst
      rw [itemRest, decodeItemRest]
      split
      · simp only [Run.result_bind, Run.result_pure, Run.result_tick, Run.result_lift, Run.result_stop, liftErr]
        rw [Machine.of_push, ih.kv _ _ _ _ _ hs (by omega) (by omega)]
        cases hk : decodeKV (F := F) ctx fuel rest cur (base + 1) with
        | error e => simp [exc_ok, exc_error, exc_pure, liftErr, after, exc_ok, exc_error]
        | ok r =>
          obtain ⟨evs1, cur1⟩ := r
          have hc := (tc.kv _ _ _ _ _ hk).2
          have hl := hc.length
          simp only [Run.result_bind, Run.result_pure, Run.result_tick, Run.result_lift, Run.result_stop, liftErr, after, exc_ok, exc_error]
          rw [Machine.of_left (hc.suffix.trans hs),
            ih.follow _ _ _ _ _ (hc.suffix.trans hs) (by omega) (Nat.le_refl _) (by omega)]
          cases followLoop (F := F) ctx fuel cur1 (base + 1) with
          | error e => simp [exc_ok, exc_error, exc_pure, liftErr, after]
          | ok r => simp [exc_ok, exc_error, exc_pure, liftErr, after, exc_pure, Machine.of_push]
      · cases parsePrimitiveToken (F := F) rest with
        | error e => simp [exc_ok, exc_error, exc_pure, liftErr, after]
        | ok p => simp [exc_ok, exc_error, exc_pure, liftErr, after, exc_pure, exc_ok, exc_error, Machine.of_push]
    · -- follow
      intro cur depth stack n evs hs hf hn hst
      rw [followLoop]
      cases n with
      | zero =>
        have : cur.rest = [] := List.length_eq_zero_iff.mp (by omega)
        rw [entriesLoop, this]
        simp [exc_ok, exc_error, exc_pure, liftErr, after]
      | succ n =>
        rw [entriesLoop, Machine.of_atEnd hs, Machine.of_peek hs]
        cases hr : cur.rest with
        | nil => simp [exc_ok, exc_error, exc_pure, liftErr, after]
        | cons line rest =>
          rw [Machine.of_advance hs hr]
          rw [hr] at hf hn hs
          have hs' : rest <:+ lines := (List.suffix_cons _ _).trans hs
          simp only [List.length_cons] at hf hn
          simp only [Run.result_bind, Run.result_pure, Run.result_tick, Run.result_lift, Run.result_stop, liftErr, List.isEmpty_cons, Bool.false_eq_true, if_false, List.head?_cons]
          by_cases h1 : line.depth < depth
          · simp [exc_ok, exc_error, exc_pure, liftErr, h1, after]
          · simp only [Run.result_bind, Run.result_pure, Run.result_tick, Run.result_lift, Run.result_stop, liftErr, h1, if_false]
            by_cases h2 : (line.depth == depth && !startsWithDash line.content) = true
            · simp only [Run.result_bind, Run.result_pure, Run.result_tick, Run.result_lift, Run.result_stop, liftErr, h2, if_true]
              rw [ih.kv _ _ _ _ _ hs' (by simp only; omega) hst]
              cases hk : decodeKV (F := F) ctx fuel line.content ⟨rest, some line⟩ depth with
              | error e => simp [exc_ok, exc_error, exc_pure, liftErr, after, exc_ok, exc_error]
              | ok r =>
                obtain ⟨evs1, cur1⟩ := r
                have hc := (tc.kv _ _ _ _ _ hk).2
                have hl := hc.length
                simp only at hl
                simp only [Run.result_bind, Run.result_pure, Run.result_tick, Run.result_lift, Run.result_stop, liftErr, after, exc_ok, exc_error]
                rw [ih.follow _ _ _ _ _ (hc.suffix.trans hs') (by omega) (by omega) hst]
                cases followLoop (F := F) ctx fuel cur1 depth with
                | error e => simp [exc_ok, exc_error, exc_pure, liftErr, after]
                | ok r => simp [exc_ok, exc_error, exc_pure, liftErr, after, exc_pure]
            · simp [exc_ok, exc_error, exc_pure, liftErr, h2, after]

theorem topLoop_of [LawfulF64 F] (ctx : Ctx) (lines : List Line) (levels : List Nat)
    (hlev : ∀ l ∈ lines, 0 < l.depth → l.depth ∈ levels) (fuel : Nat) :
    ∀ (cur : Cur) stack n (evs : List (Ev F)), cur.rest <:+ lines → 5 * cur.rest.length + 1 ≤ fuel → cur.rest.length ≤ n →
      4 * deeper levels 0 + 3 ≤ stack →
      (topLoop lines (callKV ctx lines stack) n (Machine.of lines evs cur)).result = after lines evs (rootLoop ctx fuel cur) := by
  induction fuel with
  | zero => intros; omega
  | succ fuel ih =>
    intro cur stack n evs hs hf hn hst
    rw [rootLoop]
    cases n with
    | zero =>
      have : cur.rest = [] := List.length_eq_zero_iff.mp (by omega)
      rw [topLoop, this]
      simp [exc_ok, exc_error, exc_pure, liftErr, after]
    | succ n =>
      rw [topLoop, Machine.of_atEnd hs, Machine.of_peek hs]
      cases hr : cur.rest with
      | nil => simp [exc_ok, exc_error, exc_pure, liftErr, after]
      | cons line rest =>
        rw [Machine.of_advance hs hr]
        rw [hr] at hf hn hs
        have hs' : rest <:+ lines := (List.suffix_cons _ _).trans hs
        simp only [List.length_cons] at hf hn
        simp only [Run.result_bind, Run.result_pure, Run.result_tick, Run.result_lift, Run.result_stop, liftErr, List.isEmpty_cons, Bool.false_eq_true, if_false, List.head?_cons]
        split
        · simp [exc_ok, exc_error, exc_pure, liftErr, after]
        · simp only [Run.result_bind, Run.result_pure, Run.result_tick, Run.result_lift, Run.result_stop, liftErr]
          rw [(frameClaims ctx lines levels hlev fuel).kv _ _ _ _ _ hs' (by simp only; omega) hst]
          cases hk : decodeKV (F := F) ctx fuel line.content ⟨rest, some line⟩ 0 with
          | error e => simp [exc_ok, exc_error, exc_pure, liftErr, after, exc_ok, exc_error]
          | ok r =>
            obtain ⟨evs1, cur1⟩ := r
            have hc := ((treeClaims (F := F) ctx fuel).kv _ _ _ _ _ hk).2
            have hl := hc.length
            simp only at hl
            simp only [Run.result_bind, Run.result_pure, Run.result_tick, Run.result_lift, Run.result_stop, liftErr, after, exc_ok, exc_error]
            rw [ih _ _ _ _ (hc.suffix.trans hs') (by omega) (by omega) hst]
            cases rootLoop (F := F) ctx fuel cur1 with
            | error e => simp [exc_ok, exc_error, exc_pure, liftErr, after]
            | ok r => simp [exc_ok, exc_error, exc_pure, liftErr, after, exc_pure]

/-- With four frames for every level of indentation and four more the machine computes what the model does. -/
theorem runLines_of [LawfulF64 F] (ctx : Ctx) (lines : List Line) (levels : List Nat)
    (hlev : ∀ l ∈ lines, 0 < l.depth → l.depth ∈ levels) (stack : Nat) (hst : 4 * levels.length + 4 ≤ stack) :
    (runLines (F := F) ctx lines stack).result = liftErr (decodeLines ctx lines) := by
  obtain ⟨stack, rfl⟩ : ∃ k, stack = k + 1 := ⟨stack - 1, by omega⟩
  have h0 : deeper levels 0 ≤ levels.length := List.countP_le_length
  rw [runLines]
  simp only [Run.result_bind, Run.result_pure, Run.result_tick, Run.result_lift, Run.result_stop, liftErr]
  cases lines with
  | nil => simp [Machine.peek, decodeLines, liftErr, Machine.push]
  | cons first rest =>
    have hs : rest <:+ first :: rest := List.suffix_cons _ _
    have hadv : (Machine.mk (F := F) [] 0 none).advance (first :: rest) = Machine.of (first :: rest) [] ⟨rest, some first⟩ := by
      simp [Machine.advance, Machine.of]
    have hpk : (Machine.mk (F := F) [] 0 none).peek (first :: rest) = some first := rfl
    rw [hpk, hadv, decodeLines]
    simp only [Run.result_bind, Run.result_pure, Run.result_tick, Run.result_lift, Run.result_stop, liftErr]
    have fc := frameClaims (F := F) ctx (first :: rest) levels hlev (5 * (first :: rest).length + 5)
    cases hh : rootHeader first.content with
    | error e => simp [liftErr, exc_ok, exc_error]
    | ok hdr =>
      cases hdr with
      | some h =>
        simp only [Run.result_bind, Run.result_pure, Run.result_tick, Run.result_lift, Run.result_stop, liftErr, exc_ok, exc_error]
        rw [fc.array _ _ _ _ _ hs (by simp only [List.length_cons]; omega) (by omega)]
        cases decodeArray (F := F) ctx (5 * (first :: rest).length + 5) h ⟨rest, some first⟩ 0 with
        | error e => simp [exc_ok, exc_error, exc_pure, liftErr, after]
        | ok r => simp [exc_ok, exc_error, exc_pure, liftErr, after, Machine.of, exc_pure]
      | none =>
        simp only [Run.result_bind, Run.result_pure, Run.result_tick, Run.result_lift, Run.result_stop, liftErr, exc_ok, exc_error, Machine.of_atEnd (cur := ⟨rest, some first⟩) hs]
        split
        · cases parsePrimitiveToken (F := F) (trim first.content) with
          | error e => simp [liftErr, exc_error, exc_pure]
          | ok p => simp [Machine.push, Machine.of, exc_pure, exc_ok, liftErr]
        · simp only [Run.result_bind, Run.result_pure, Run.result_tick, Run.result_lift, Run.result_stop, liftErr]
          rw [Machine.of_push, fc.kv _ _ _ _ _ hs (by simp only [List.length_cons]; omega) (by omega)]
          cases hk : decodeKV (F := F) ctx (5 * (first :: rest).length + 5) first.content ⟨rest, some first⟩ 0 with
          | error e => simp [exc_ok, exc_error, exc_pure, liftErr, after]
          | ok r =>
            obtain ⟨evs1, cur1⟩ := r
            have hc := ((treeClaims (F := F) ctx _).kv _ _ _ _ _ hk).2
            have hl := hc.length
            simp only at hl
            simp only [Run.result_bind, Run.result_pure, Run.result_tick, Run.result_lift, Run.result_stop, liftErr, after, exc_ok]
            rw [Machine.of_left (hc.suffix.trans hs), topLoop_of ctx _ levels hlev (5 * (first :: rest).length + 5) _ _ _ _ (hc.suffix.trans hs)
              (by simp only [List.length_cons]; omega) (Nat.le_refl _) (by omega)]
            cases rootLoop (F := F) ctx (5 * (first :: rest).length + 5) cur1 with
            | error e => simp [exc_ok, exc_error, exc_pure, liftErr, after]
            | ok r => simp [exc_ok, exc_error, exc_pure, liftErr, after, exc_pure, Machine.push, Machine.of]

end

end Toon
