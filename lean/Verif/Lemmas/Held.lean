import Verif.Spec.Held
import Verif.Lemmas.AsyncEncode
import Verif.Lemmas.Copies
import Verif.Lemmas.Output

namespace Toon

variable {F : Type} [F64 F]

/-! ## The event stream of the encoder -/

/-- Between polls the start of every array on the stack was told. -/
def EncFrame.begun : EncFrame F → Bool
  | .object _ _ => true
  | .array _ _ b => b

/-- The values of a frame are at most this high. -/
def EncFrame.lowerThan : EncFrame F → Nat → Prop
  | .object entries pending, m => heightEntries entries ≤ m ∧ ∀ v, pending = some v → height v ≤ m
  | .array items _ _, m => heightItems items ≤ m

/-- Values up to height `m` can be opened in the top frame without more than `top` frames. -/
def Fits (top : Nat) : List (EncFrame F) → Nat → Prop
  | [], m => m ≤ top
  | f :: fs, m => f.lowerThan m ∧ Fits top fs (m + 1)

omit [F64 F] in
theorem Fits.length {top : Nat} : ∀ {fs : List (EncFrame F)} {m : Nat}, Fits top fs m → fs.length + m ≤ top
  | [], m, h => by simpa [Fits] using h
  | f :: fs, m, h => by have := Fits.length h.2; simp only [List.length_cons]; omega

structure EventStream.Steady (top : Nat) (st : EventStream F) : Prop where
  inv : st.Inv
  begun : ∀ f ∈ st.stack, f.begun = true
  fits : ∃ m, Fits top st.stack m ∧ ∀ v, st.root = some v → height v ≤ m

/-- What one poll does to the frames and the values held. -/
def Balanced (st : EventStream F) (res : Option (Ev F) × EventStream F) : Prop :=
  res.2.held + (res.1.toList.countP Ev.begins) = st.held ∧
    res.2.stack.length + res.1.toList.countP Ev.closes = st.stack.length + res.1.toList.countP Ev.opens

omit [F64 F] in
theorem startValue_balanced (top : Nat) (v : Json F) (stack : List (EncFrame F)) (hb : ∀ f ∈ stack, f.begun = true) (m : Nat)
    (hm : Fits top stack m) (hv : height v ≤ m) :
    let res := EventStream.startValue 2 v { stack, started := true, root := none }
    res.2.held + (res.1.toList.countP Ev.begins) = nodes v + framesHeld stack ∧
      res.2.stack.length + res.1.toList.countP Ev.closes = stack.length + res.1.toList.countP Ev.opens ∧
      (∀ f ∈ res.2.stack, f.begun = true) ∧ (∃ m, Fits top res.2.stack m) ∧ res.2.root = none := by
  cases v with
  | prim p =>
    simp [EventStream.startValue, EventStream.held, nodes, Ev.begins, Ev.closes, Ev.opens]
    exact ⟨by omega, hb, m, hm⟩
  | obj es =>
    simp [EventStream.startValue, EventStream.held, framesHeld, EncFrame.held, nodes, Ev.begins, Ev.closes, Ev.opens,
      EncFrame.begun]
    simp only [height] at hv
    obtain ⟨m, rfl⟩ : ∃ k, m = k + 1 := ⟨m - 1, by omega⟩
    exact ⟨by omega, hb, m, ⟨by omega, by simp⟩, hm⟩
  | arr vs =>
    simp [EventStream.startValue, EventStream.nextEvent, EventStream.held, framesHeld, EncFrame.held, nodes, Ev.begins,
      Ev.closes, Ev.opens, EncFrame.begun]
    simp only [height] at hv
    obtain ⟨m, rfl⟩ : ∃ k, m = k + 1 := ⟨m - 1, by omega⟩
    exact ⟨by omega, hb, m, by simp only [EncFrame.lowerThan]; omega, hm⟩

theorem EventStream.poll_balanced (top : Nat) (st : EventStream F) (h : st.Steady top) :
    Balanced st st.poll ∧ st.poll.2.Steady top := by
  have hinv := (EventStream.step st h.inv).2.2
  obtain ⟨stack, started, root⟩ := st
  obtain ⟨hi, hb, m, hm, hr'⟩ := h
  have key : Balanced ⟨stack, started, root⟩ (EventStream.poll ⟨stack, started, root⟩) ∧
      (∀ f ∈ (EventStream.poll ⟨stack, started, root⟩).2.stack, f.begun = true) ∧
      (∃ m, Fits top (EventStream.poll ⟨stack, started, root⟩).2.stack m) ∧
      (EventStream.poll ⟨stack, started, root⟩).2.root = none := by
    unfold EventStream.poll Balanced
    rcases hi with ⟨hs, hr⟩ | ⟨hs, hk, v, hr⟩
    · simp only at hs hr hb hm
      subst hs hr
      cases stack with
      | nil => simp [EventStream.nextEvent, EventStream.held]; exact ⟨m, hm⟩
      | cons fr stack =>
        obtain ⟨hf, hrest⟩ := hm
        have hb' : ∀ f ∈ stack, f.begun = true := fun f hf => hb f (by simp [hf])
        cases fr with
        | object entries pending =>
          cases pending with
          | some v =>
            have := startValue_balanced top v (.object entries none :: stack) (by simpa [EncFrame.begun] using hb') m
              ⟨⟨hf.1, by simp⟩, hrest⟩ (hf.2 v rfl)
            simp only [EventStream.nextEvent, EventStream.held, framesHeld, EncFrame.held, Option.map_none, Option.map_some,
              Option.getD_none, Option.getD_some, List.length_cons, ite_self] at this ⊢
            refine ⟨⟨by omega, by omega⟩, this.2.2.1, this.2.2.2.1, this.2.2.2.2⟩
          | none =>
            cases entries with
            | nil =>
              simp [EventStream.nextEvent, EventStream.held, framesHeld, EncFrame.held, nodesEntries, Ev.begins, Ev.closes, Ev.opens]
              exact ⟨hb', _, hrest⟩
            | cons e es =>
              obtain ⟨k, v⟩ := e
              simp [EventStream.nextEvent, EventStream.held, framesHeld, EncFrame.held, nodesEntries, Ev.begins, Ev.closes, Ev.opens,
                EncFrame.begun]
              have h1 := hf.1
              simp only [heightEntries] at h1
              refine ⟨by omega, hb', m, ⟨by omega, ?_⟩, hrest⟩
              simp; omega
        | array items length es =>
          have he : es = true := hb _ (List.mem_cons_self ..)
          subst he
          cases items with
          | nil =>
            simp [EventStream.nextEvent, EventStream.held, framesHeld, EncFrame.held, nodesItems, Ev.begins, Ev.closes, Ev.opens]
            exact ⟨hb', _, hrest⟩
          | cons v vs =>
            simp only [EncFrame.lowerThan, heightItems] at hf
            have := startValue_balanced top v (.array vs length true :: stack) (by simpa [EncFrame.begun] using hb') m
              ⟨by simp only [EncFrame.lowerThan]; omega, hrest⟩ (by omega)
            simp only [EventStream.nextEvent, EventStream.held, framesHeld, EncFrame.held, Option.map_none,
              Option.getD_none, List.length_cons, nodesItems, Bool.not_true, Bool.false_eq_true, if_false, ite_self] at this ⊢
            refine ⟨⟨by omega, by omega⟩, this.2.2.1, this.2.2.2.1, this.2.2.2.2⟩
    · simp only at hs hk hr
      subst hs hk hr
      have := startValue_balanced top v [] (by simp) m hm (hr' v rfl)
      simp only [EventStream.nextEvent, EventStream.held, framesHeld, Option.map_some, Option.getD_some, List.length_nil] at this ⊢
      refine ⟨⟨by omega, by omega⟩, this.2.2.1, this.2.2.2.1, this.2.2.2.2⟩
  obtain ⟨h1, h2, ⟨m', h3⟩, h4⟩ := key
  exact ⟨h1, hinv, h2, m', h3, by rw [h4]; simp⟩

theorem EventStream.after_balanced (top : Nat) : ∀ (n : Nat) (st : EventStream F), st.Steady top →
    (afterN EventStream.poll n st).Steady top ∧
      (afterN EventStream.poll n st).held + (st.rest.take n).countP Ev.begins = st.held ∧
      (afterN EventStream.poll n st).stack.length + (st.rest.take n).countP Ev.closes =
        st.stack.length + (st.rest.take n).countP Ev.opens
  | 0, st, h => ⟨h, by simp [afterN], by simp [afterN]⟩
  | n + 1, st, h => by
    obtain ⟨hb, hs⟩ := EventStream.poll_balanced top st h
    obtain ⟨h1, h2, _⟩ := EventStream.step st h.inv
    obtain ⟨i1, i2, i3⟩ := EventStream.after_balanced top n _ hs
    rw [h2] at i2 i3
    rw [afterN]
    unfold Balanced at hb
    rw [h1] at hb
    refine ⟨i1, ?_⟩
    cases hr : st.rest with
    | nil => rw [hr] at hb i2 i3; simp at hb i2 i3 ⊢; omega
    | cons e es =>
      rw [hr] at hb i2 i3
      simp only [List.head?_cons, Option.toList_some, List.tail_cons, List.take_succ_cons, List.countP_cons, List.countP_nil] at hb i2 i3 ⊢
      omega

theorem EventStream.start_steady (v : Json F) : (⟨[], false, some v⟩ : EventStream F).Steady (height v) :=
  ⟨EventStream.start_inv v, by simp, height v, Nat.le_refl _, by simp⟩

end Toon
