import Verif.Model.AsyncEncode

namespace Toon

variable {F : Type} [F64 F]

/-! ## The event stream: what is still to come -/

/-- The events a frame still has to produce. -/
def EncFrame.rest : EncFrame F → List (Ev F)
  | .object entries none => emitEntries entries ++ [.endObj]
  | .object entries (some v) => emitEvents v ++ emitEntries entries ++ [.endObj]
  | .array items length false => .startArr length :: emitItems items ++ [.endArr]
  | .array items _ true => emitItems items ++ [.endArr]

/-- The events the stream still has to produce. -/
def EventStream.rest (st : EventStream F) : List (Ev F) :=
  (match st.started, st.root with
    | false, some v => emitEvents v
    | _, _ => []) ++ st.stack.flatMap EncFrame.rest

/-- One step: the head of what is to come is returned, the tail remains. -/
def EventStream.StepOk (st : EventStream F) (res : Option (Ev F) × EventStream F) : Prop :=
  res.1 = st.rest.head? ∧ res.2.rest = st.rest.tail

/-- A reachable state: once started, the root is gone; before, the stack is empty. -/
def EventStream.Inv (st : EventStream F) : Prop :=
  (st.started = true ∧ st.root = none) ∨ (st.started = false ∧ st.stack = [] ∧ ∃ v, st.root = some v)

omit [F64 F] in
/-- Starting a value in a started stream produces the first event of the value, and leaves the
others in front of what the stack still had. -/
theorem EventStream.startValue_ok (fuel : Nat) (v : Json F) (stack : List (EncFrame F)) :
    let res := EventStream.startValue (fuel + 2) v { stack, started := true, root := none }
    res.1 = (emitEvents v ++ stack.flatMap EncFrame.rest).head? ∧
    res.2.rest = (emitEvents v ++ stack.flatMap EncFrame.rest).tail ∧
    res.2.started = true ∧ res.2.root = none := by
  cases v with
  | prim p => simp [EventStream.startValue, emitEvents, EventStream.rest]
  | obj es => simp [EventStream.startValue, emitEvents, EventStream.rest, EncFrame.rest]
  | arr vs => simp [EventStream.startValue, EventStream.nextEvent, emitEvents, EventStream.rest, EncFrame.rest]

theorem EventStream.nextEvent_ok (fuel : Nat) (st : EventStream F) (hi : st.Inv) :
    st.StepOk (st.nextEvent (fuel + 3)) ∧ (st.nextEvent (fuel + 3)).2.Inv := by
  obtain ⟨stack, started, root⟩ := st
  rcases hi with ⟨hs, hr⟩ | ⟨hs, hk, v, hr⟩
  · simp only at hs hr
    subst hs hr
    cases stack with
    | nil => simp [EventStream.nextEvent, EventStream.StepOk, EventStream.rest, EventStream.Inv]
    | cons fr stack =>
      cases fr with
      | object entries pending =>
        cases pending with
        | some v =>
          have := EventStream.startValue_ok fuel v (.object entries none :: stack)
          simp only [EventStream.nextEvent, EventStream.StepOk, EventStream.Inv] at this ⊢
          simp only [EventStream.rest, List.flatMap_cons, EncFrame.rest, List.append_assoc, List.nil_append] at this ⊢
          exact ⟨⟨this.1, this.2.1⟩, Or.inl this.2.2⟩
        | none =>
          cases entries with
          | nil => simp [EventStream.nextEvent, EventStream.StepOk, EventStream.rest, EventStream.Inv, EncFrame.rest, emitEntries]
          | cons e es =>
            obtain ⟨k, v⟩ := e
            simp [EventStream.nextEvent, EventStream.StepOk, EventStream.rest, EventStream.Inv, EncFrame.rest, emitEntries]
      | array items length es =>
        cases es with
        | false => simp [EventStream.nextEvent, EventStream.StepOk, EventStream.rest, EventStream.Inv, EncFrame.rest]
        | true =>
          cases items with
          | nil => simp [EventStream.nextEvent, EventStream.StepOk, EventStream.rest, EventStream.Inv, EncFrame.rest, emitItems]
          | cons v vs =>
            have := EventStream.startValue_ok fuel v (.array vs length true :: stack)
            simp only [EventStream.nextEvent, EventStream.StepOk, EventStream.Inv] at this ⊢
            simp only [EventStream.rest, List.flatMap_cons, EncFrame.rest, List.append_assoc, List.nil_append,
              emitItems] at this ⊢
            exact ⟨⟨this.1, this.2.1⟩, Or.inl this.2.2⟩
  · simp only at hs hk hr
    subst hs hk hr
    have := EventStream.startValue_ok fuel v []
    simp only [EventStream.nextEvent, EventStream.StepOk, EventStream.Inv] at this ⊢
    simp only [EventStream.rest, List.flatMap_nil, List.append_nil] at this ⊢
    exact ⟨⟨this.1, this.2.1⟩, Or.inl this.2.2⟩

omit [F64 F] in
/-- Three levels of the mutual recursion are enough. -/
theorem EventStream.startValue_fuel (fuel : Nat) (v : Json F) (st : EventStream F)
    (h : st.started = true) (hr : st.root = none) :
    EventStream.startValue (fuel + 2) v st = EventStream.startValue 2 v st := by
  obtain ⟨stack, started, root⟩ := st
  simp only at h hr
  subst h hr
  cases v <;> simp [EventStream.startValue, EventStream.nextEvent]

theorem EventStream.nextEvent_fuel (fuel : Nat) (st : EventStream F) (hi : st.Inv) :
    st.nextEvent (fuel + 3) = st.nextEvent 3 := by
  obtain ⟨stack, started, root⟩ := st
  rcases hi with ⟨hs, hr⟩ | ⟨hs, hk, v, hr⟩
  · simp only at hs hr
    subst hs hr
    rcases stack with _ | ⟨fr, stack⟩
    · simp [EventStream.nextEvent]
    · rcases fr with ⟨_ | ⟨e, es⟩, _ | p⟩ | ⟨_ | ⟨v, vs⟩, l, _ | _⟩ <;>
        simp [EventStream.nextEvent, EventStream.startValue_fuel]
  · simp only at hs hk hr
    subst hs hk hr
    simp [EventStream.nextEvent, EventStream.startValue_fuel]

/-! ## Sequences of polls -/

/-- A state machine that returns the head of what is to come and keeps the tail, and nothing at the
end, produces the elements in order, for ever followed by `none`. -/
theorem pollN_get {St Item : Type} (poll : St → Option Item × St) (rest : St → List Item)
    (Inv : St → Prop) (hstep : ∀ st, Inv st → (poll st).1 = (rest st).head? ∧
      rest (poll st).2 = (rest st).tail ∧ Inv (poll st).2) :
    ∀ n st, Inv st → pollN poll n st = (List.range n).map fun i => (rest st)[i]?
  | 0, _, _ => rfl
  | n + 1, st, hi => by
    obtain ⟨h1, h2, h3⟩ := hstep st hi
    rw [pollN, pollN_get poll rest Inv hstep n _ h3, h1, h2, List.range_succ_eq_map]
    cases rest st <;> simp

theorem collectStream_eq {St Item : Type} (poll : St → Option Item × St) (rest : St → List Item)
    (Inv : St → Prop) (hstep : ∀ st, Inv st → (poll st).1 = (rest st).head? ∧
      rest (poll st).2 = (rest st).tail ∧ Inv (poll st).2) :
    ∀ fuel st, Inv st → (rest st).length < fuel → collectStream poll fuel st = some (rest st)
  | fuel + 1, st, hi, hl => by
    obtain ⟨h1, h2, h3⟩ := hstep st hi
    rw [collectStream]
    cases hr : rest st with
    | nil =>
      rw [hr] at h1
      rcases hp : poll st with ⟨o, st'⟩
      simp only [hp] at h1 ⊢
      subst h1; rfl
    | cons x xs =>
      rw [hr] at h1 h2 hl
      have ih := collectStream_eq poll rest Inv hstep fuel _ h3 (by rw [h2]; simp at hl ⊢; omega)
      rw [h2] at ih
      rcases hp : poll st with ⟨o, st'⟩
      simp only [hp] at h1 ih ⊢
      subst h1
      simp only [List.head?_cons, ih, Option.map_some, List.tail_cons]

theorem EventStream.step (st : EventStream F) (hi : st.Inv) : st.poll.1 = st.rest.head? ∧
    st.poll.2.rest = st.rest.tail ∧ st.poll.2.Inv := by
  have := EventStream.nextEvent_ok 0 st hi
  exact ⟨this.1.1, this.1.2, this.2⟩

theorem EventStream.new_inv (v : Json F) : (EventStream.new v).Inv := Or.inr ⟨rfl, rfl, _, rfl⟩

theorem EventStream.new_rest (v : Json F) : (EventStream.new v).rest = encodeStreamEvents v := by
  simp [EventStream.rest, EventStream.new, encodeStreamEvents]

/-- What is left of the line stream. -/
def LineStream.rest (st : LineStream) : List Str := st.lines.drop st.index

theorem LineStream.step (st : LineStream) : st.poll.1 = st.rest.head? ∧
    st.poll.2.rest = st.rest.tail := by
  unfold LineStream.poll LineStream.rest
  split
  · rename_i h
    rw [List.drop_eq_getElem_cons h]
    exact ⟨rfl, rfl⟩
  · rename_i h
    rw [List.drop_eq_nil_of_le (by omega)]
    exact ⟨rfl, rfl⟩

theorem EventStream.start_inv (v : Json F) :
    (⟨[], false, some v⟩ : EventStream F).Inv := Or.inr ⟨rfl, rfl, _, rfl⟩

theorem EventStream.start_rest (v : Json F) :
    (⟨[], false, some v⟩ : EventStream F).rest = emitEvents v := by
  simp [EventStream.rest]

theorem LineStream.poll_lines (st : LineStream) : st.poll.2.lines = st.lines := by
  unfold LineStream.poll; split <;> rfl

theorem LineStream.afterN_lines (n : Nat) (st : LineStream) :
    (afterN LineStream.poll n st).lines = st.lines := by
  induction n generalizing st with
  | zero => rfl
  | succ n ih => rw [afterN, ih, LineStream.poll_lines]

end Toon
