import Verif.Model.Writes
import Verif.Lemmas.EncFrames
import Verif.Lemmas.PathCopies

/-! The counted encoder writes what the encoder writes, and goes over no more than a multiple of it. -/

namespace Toon

/-! ## Tokens -/

theorem escapeString_longer (s : Str) : s.length ≤ (escapeString s).length := by
  induction s with
  | nil => simp
  | cons c s ih =>
    have : 1 ≤ (escapeChar c).length := by
      unfold escapeChar
      repeat' split
      all_goals simp
    rw [escapeString, List.flatMap_cons, List.length_append, List.length_cons]
    rw [escapeString] at ih
    omega

theorem stringWrites_le (s : Str) (delim : Char) : stringWrites s delim ≤ 19 * (encodeStringLiteral s delim).length := by
  have := escapeString_longer s
  unfold stringWrites encodeStringLiteral
  split
  · omega
  · simp only [List.length_append, List.length_cons, List.length_nil]
    omega

theorem stringLiteral_longer (s : Str) (delim : Char) : s.length ≤ (encodeStringLiteral s delim).length := by
  have := escapeString_longer s
  unfold encodeStringLiteral
  split
  · omega
  · simp only [List.length_append, List.length_cons, List.length_nil]
    omega

theorem keyWrites_le (k : Str) : keyWrites k ≤ 4 * (encodeKey k).length := by
  have := escapeString_longer k
  unfold keyWrites encodeKey
  split
  · omega
  · simp only [List.length_append, List.length_cons, List.length_nil]
    omega

theorem sum_le_join (delim : Char) (ts : List Str) : (ts.map List.length).sum ≤ (joinWith delim ts).length := by
  cases ts with
  | nil => simp
  | cons t ts =>
    rw [joinWith_cons_length, List.map_cons, List.sum_cons]
    refine Nat.add_le_add_left ?_ _
    induction ts with
    | nil => simp
    | cons t ts ih => simp only [List.map_cons, List.sum_cons]; omega

theorem sum_scaled {α : Type} {f g : α → Nat} {c : Nat} {xs : List α} (h : ∀ x ∈ xs, f x ≤ c * g x) : (xs.map f).sum ≤ c * (xs.map g).sum := by
  induction xs with
  | nil => simp
  | cons x xs ih =>
    have := ih fun y hy => h y (by simp [hy])
    have := h x (by simp)
    rw [List.map_cons, List.sum_cons, List.map_cons, List.sum_cons, Nat.mul_add]
    omega

/-- What of a header the key takes. -/
def keySlack : Option Str → Nat
  | none => 0
  | some k => 4 * (encodeKey k).length

theorem headerWrites_le (length : Nat) (key : Option Str) (fields : Option (List Str)) (delim : Char) :
    headerWrites length key fields delim + keySlack key ≤ 9 * (formatHeader length key fields delim).length := by
  have hk := fun k => keyWrites_le k
  have hf : ∀ fs : List Str, (fs.map keyWrites).sum ≤ 4 * (joinWith delim (fs.map encodeKey)).length := by
    intro fs
    have h1 := sum_scaled (xs := fs) (f := keyWrites) (g := fun k => (encodeKey k).length) (c := 4) fun k _ => keyWrites_le k
    have h2 := sum_le_join delim (fs.map encodeKey)
    rw [List.map_map] at h2
    simp only [Function.comp_def] at h2
    omega
  rw [headerWrites.eq_def]
  cases key with
  | none =>
    cases fields with
    | none => simp only [keySlack]; omega
    | some fs =>
      have := hf fs
      have hl : (joinWith delim (fs.map encodeKey)).length ≤ (formatHeader length none (some fs) delim).length := by
        simp only [formatHeader, List.length_append, List.length_cons]; omega
      simp only [keySlack]
      omega
  | some k =>
    have := hk k
    cases fields with
    | none =>
      have hl : (encodeKey k).length ≤ (formatHeader length (some k) none delim).length := by
        simp only [formatHeader, List.length_append]; omega
      simp only [keySlack]
      omega
    | some fs =>
      have := hf fs
      have hl : (encodeKey k).length + (joinWith delim (fs.map encodeKey)).length ≤ (formatHeader length (some k) (some fs) delim).length := by
        simp only [formatHeader, List.length_append, List.length_cons]; omega
      simp only [keySlack]
      omega

section
variable {F : Type} [F64 F]

theorem primWrites_le (p : Prim F) (delim : Char) : primWrites p delim ≤ 19 * (encodePrimitive p delim).length := by
  cases p with
  | str s => exact stringWrites_le s delim
  | null => rw [primWrites]; omega; simp
  | bool b => rw [primWrites]; omega; simp
  | num x => rw [primWrites]; omega; simp

theorem cloneWrites_le (ps : List (Prim F)) (delim : Char) : cloneWrites ps ≤ (encodeAndJoin ps delim).length := by
  refine Nat.le_trans ?_ (sum_le_join delim (ps.map (encodePrimitive · delim)))
  rw [List.map_map]
  have := sum_scaled (xs := ps) (c := 1) (f := fun p => match p with
    | .str s => s.length
    | _ => 0) (g := fun p => (encodePrimitive p delim).length) fun p _ => by
      cases p with
      | str s => simp only [Nat.one_mul]; exact stringLiteral_longer s delim
      | null => exact Nat.zero_le _
      | bool b => exact Nat.zero_le _
      | num x => exact Nat.zero_le _
  rw [Nat.one_mul] at this
  exact this

theorem joinWrites_le (ps : List (Prim F)) (delim : Char) : joinWrites ps delim ≤ 20 * (encodeAndJoin ps delim).length := by
  have h1 := sum_le_join delim (ps.map (encodePrimitive · delim))
  rw [List.map_map] at h1
  simp only [Function.comp_def] at h1
  have h2 := sum_scaled (xs := ps) (c := 19) (f := fun p => primWrites p delim) (g := fun p => (encodePrimitive p delim).length)
    fun p _ => primWrites_le p delim
  rw [joinWrites]
  rw [encodeAndJoin] at *
  omega

theorem inlineWrites_le (items : List (Json F)) (delim : Char) (key : Option Str) :
    inlineWrites items delim key + keySlack key ≤ 22 * (encodeInlineArrayLine items delim key).length := by
  have h1 := headerWrites_le items.length key none delim
  have h2 := cloneWrites_le (primsOf items) delim
  have h3 := joinWrites_le (primsOf items) delim
  unfold inlineWrites
  unfold encodeInlineArrayLine
  simp only
  split
  · rename_i he
    rw [List.isEmpty_iff] at he
    rw [he]
    simp only [cloneWrites, List.map_nil, List.sum_nil]
    omega
  · simp only [List.length_append, List.length_cons]
    omega

theorem rowWrites_le (es : List (Str × Json F)) (header : List Str) (delim : Char) :
    rowWrites es header delim ≤ 21 * (encodeAndJoin (rowValues es header) delim).length := by
  have h2 := cloneWrites_le (rowValues es header) delim
  have h3 := joinWrites_le (rowValues es header) delim
  rw [rowWrites]
  omega

end

/-! ## Lines -/

/-- The characters of lines. -/
def ink (indent : Nat) (ls : List OutLine) : Nat := (ls.map fun l => (renderLine indent l).length).sum

theorem ink_append (indent : Nat) (a b : List OutLine) : ink indent (a ++ b) = ink indent a + ink indent b := by
  simp [ink]

/-- The lines are put after the others, with the characters gone over in proportion to them, and `slack` to spare. -/
structure Puts (indent slack : Nat) (r : Run (List OutLine)) (out ls : List OutLine) : Prop where
  result : r.result = .ok (out ++ ls)
  least : ink indent ls ≤ r.steps
  most : r.steps + slack ≤ 24 * ink indent ls

theorem Puts.none (indent : Nat) (out : List OutLine) : Puts indent 0 (pure out) out [] :=
  ⟨by simp, by simp [ink], by simp only [ink, List.map_nil, List.sum_nil]; exact Nat.le_refl 0⟩

theorem Puts.line {opts : EncOpts} {cost slack depth : Nat} {content : Str} (h : cost + slack ≤ 23 * content.length) (out : List OutLine) :
    Puts opts.indent slack (emit opts cost ⟨depth, content⟩ out) out [⟨depth, content⟩] := by
  have hl : content.length ≤ (renderLine opts.indent ⟨depth, content⟩).length := by
    simp [renderLine]
  refine ⟨?_, ?_, ?_⟩
  · simp [emit, Run.result_bind]
  · simp only [ink, emit, Run.steps_bind, Run.steps_tick, Run.result_tick, List.map_cons, List.map_nil, List.sum_cons, List.sum_nil]
    simp only [Run.steps_pure]
    omega
  · simp only [ink, emit, Run.steps_bind, Run.steps_tick, Run.result_tick, List.map_cons, List.map_nil, List.sum_cons, List.sum_nil]
    simp only [Run.steps_pure]
    omega

theorem Puts.bind {indent s1 s2 : Nat} {r : Run (List OutLine)} {f : List OutLine → Run (List OutLine)} {out a b : List OutLine}
    (h1 : Puts indent s1 r out a) (h2 : ∀ out, Puts indent s2 (f out) out b) : Puts indent (s1 + s2) (r >>= f) out (a ++ b) := by
  refine ⟨?_, ?_, ?_⟩
  · rw [Run.result_bind, h1.result]
    simp only
    rw [(h2 _).result, List.append_assoc]
  · rw [Run.steps_bind, h1.result]
    have := h1.least
    have := (h2 (out ++ a)).least
    rw [ink_append]
    simp only
    omega
  · rw [Run.steps_bind, h1.result]
    have := h1.most
    have := (h2 (out ++ a)).most
    rw [ink_append]
    simp only
    omega

theorem Puts.weaken {indent s1 s2 : Nat} {r : Run (List OutLine)} {out a : List OutLine} (h : Puts indent s1 r out a) (hs : s2 ≤ s1) :
    Puts indent s2 r out a :=
  ⟨h.result, h.least, by have := h.most; omega⟩

theorem Puts.tick {indent s c : Nat} {r : Run (List OutLine)} {out a : List OutLine} (h : Puts indent s r out a) (hc : c ≤ s) :
    Puts indent 0 (do tick c; r) out a := by
  refine ⟨?_, ?_, ?_⟩
  · rw [Run.result_bind, Run.result_tick]; exact h.result
  · rw [Run.steps_bind, Run.result_tick, Run.steps_tick]; have := h.least; simp only; omega
  · rw [Run.steps_bind, Run.result_tick, Run.steps_tick]; have := h.most; simp only; omega

theorem Puts.each {α : Type} {indent : Nat} {f : α → List OutLine → Run (List OutLine)} {g : α → List OutLine} {xs : List α}
    (h : ∀ x ∈ xs, ∀ out, Puts indent 0 (f x out) out (g x)) (out : List OutLine) :
    Puts indent 0 (overEach f xs out) out (xs.flatMap g) := by
  induction xs generalizing out with
  | nil => exact Puts.none indent out
  | cons x xs ih =>
    rw [overEach, List.flatMap_cons]
    exact Puts.bind (s1 := 0) (s2 := 0) (h x (by simp) out) fun out => ih (fun y hy => h y (by simp [hy])) out

end Toon
