import Verif.Lemmas.AsyncDecode

/-! The incremental stream ignores the indentation of flat lines. -/

namespace Toon

variable {F : Type} [F64 F] {indent : Nat} {strict : Bool}

omit [F64 F] in
theorem parseLine_spaces (hi : 0 < indent) (depth : Nat) {l : Str} {m : Nat}
    (h : parseLine l m indent strict = .ok (.line ⟨0, l, m⟩)) (hc : ∃ c t, l = c :: t ∧ isWs c = false) (num : Nat) :
    parseLine (List.replicate (depth * indent) ' ' ++ l) num indent strict = .ok (.line ⟨depth, l, num⟩) := by
  obtain ⟨c, rest, rfl, hc⟩ := hc
  have hh : ∀ x, (c :: rest).head? = some x → x ≠ ' ' ∧ x ≠ '\t' := by
    intro x hx
    simp only [List.head?_cons, Option.some.injEq] at hx
    subst hx
    constructor <;> (intro h; subst h; exact absurd hc (by decide))
  unfold parseLine
  simp only
  rw [takeWhile_replicate _ (fun x hx => (hh x hx).1), takeWhile_replicate' _ hh]
  simp only [List.length_replicate]
  have hne : (trim (c :: rest)).isEmpty = false := by
    rw [Bool.eq_false_iff]
    intro ht
    rw [List.isEmpty_iff] at ht
    have := trim_eq_nil.mp ht c (by simp)
    rw [hc] at this; simp at this
  rw [List.drop_left' (by simp), hne]
  have hdep : computeDepth (depth * indent) indent = depth := by
    unfold computeDepth
    rw [if_neg (by omega), Nat.mul_div_cancel _ hi]
  rw [hdep]
  have hnt : (List.replicate (depth * indent) ' ').contains '\t' = false := by
    apply Bool.eq_false_iff.mpr
    intro h
    have := List.eq_of_mem_replicate (List.elem_iff.mp h)
    exact absurd this (by decide)
  rw [hnt]
  simp only [Bool.false_eq_true, if_false, Nat.mul_mod_left, bne_self_eq_false, Bool.and_false,
    show indent ≠ 0 by omega]
  split <;> rfl

/-- The state inside a flat object after a line of some depth. -/
def flatStateAt (lines : List Str) (n last : Nat) (bl : List Nat) : DecodeStream F :=
  { lines, lineNumber := n, queue := [], state := .simpleObject 0, contexts := [0], buffer := [],
    exhausted := false, lastDepth := some last, blanks := bl }

theorem closeTo_flat (lines : List Str) (n last depth : Nat) (bl : List Nat) :
    (flatStateAt (F := F) lines n last bl).closeTo depth 0 = flatStateAt lines n last bl := by
  unfold DecodeStream.closeTo flatStateAt
  simp only
  split
  · simp [closeContexts]
  · rfl

/-- A flat line with any indentation. -/
def indented (indent : Nat) (l : Nat × Str) : Str := List.replicate (l.1 * indent) ' ' ++ l.2

/-- The events of indented flat lines. -/
inductive IndentedDoc (indent : Nat) (strict : Bool) : List (Nat × Str) → List (Ev F) → Prop
  | nil : IndentedDoc indent strict [] []
  | line {d l ls evs key q p} : FlatInfo indent strict l key q p → (∃ c t, l = c :: t ∧ isWs c = false) →
      IndentedDoc indent strict ls evs → IndentedDoc indent strict ((d, l) :: ls) (.key key q :: .prim p :: evs)

theorem indentedDoc_of {lines : List (Nat × Str)} (h : ∀ l ∈ lines, FlatLine F indent strict l.2) :
    ∃ evs, IndentedDoc (F := F) indent strict lines evs ∧ FlatDoc indent strict (lines.map Prod.snd) evs := by
  induction lines with
  | nil => exact ⟨_, .nil, .nil⟩
  | cons l ls ih =>
    obtain ⟨evs, he, he'⟩ := ih (fun l hl => h l (List.mem_cons_of_mem _ hl))
    have hf := h l (List.mem_cons_self ..)
    obtain ⟨_, _, _, hi⟩ := flatInfo hf
    refine ⟨_, .line hi ?_ he, .line hi he'⟩
    obtain ⟨key, text, hl, _⟩ := hf
    obtain ⟨c, r, hc, hw, _⟩ := encodeKey_head_cases key
    exact ⟨c, r ++ ':' :: text, by rw [hl, hc]; rfl, hw⟩

theorem polls_flatStateAt (hpos : 0 < indent) {lines : List (Nat × Str)} {evs : List (Ev F)}
    (h : IndentedDoc indent strict lines evs) :
    ∀ n last bl, Polls (DecodeStream.poll indent strict) (flatStateAt (lines.map (indented indent)) n last bl)
      ((evs ++ [Ev.endObj]).map Except.ok) := by
  induction h with
  | nil =>
    intro n last bl
    refine Polls.cons (DecodeStream.poll_event (e := .endObj) (st' := ?_) ?_) (DecodeStream.polls_finished [] _ ?_ ?_)
    rotate_left
    · rfl
    · rfl
    · rfl
  | @line d l ls evs key q p hi hc _ ih =>
    intro n last bl
    have hp := parseLine_spaces hpos d (hi.scan 0) hc (n + 1)
    refine Polls.cons (DecodeStream.poll_event (e := .key key q)
      (st' := { flatStateAt (F := F) (ls.map (indented indent)) (n + 1) d bl with queue := [.prim p] }) ?_) ?_
    · have hcl := closeTo_flat (F := F) (ls.map (indented indent)) (n + 1) last d bl
      unfold flatStateAt at hcl
      simp [DecodeStream.processNext, flatStateAt, indented, hp, DecodeStream.objectLine,
        hcl, asyncHeader_of hi.keyLine, hi.async, DecodeStream.pop]
    · exact DecodeStream.polls_queue [.prim p] _ _ rfl (ih (n + 1) d bl)

theorem polls_initState_indented (hpos : 0 < indent) {lines : List (Nat × Str)} {evs : List (Ev F)}
    (h : IndentedDoc indent strict lines evs) :
    ∀ n bl, Polls (DecodeStream.poll indent strict) (initState (lines.map (indented indent)) n bl)
      ((Ev.startObj :: evs ++ [Ev.endObj]).map Except.ok) := by
  cases h with
  | nil =>
    intro n bl
    refine Polls.cons (DecodeStream.poll_event (e := .startObj) (st' := ?_) ?_)
      (DecodeStream.polls_finished [.endObj] _ ?_ ?_)
    rotate_left
    · rfl
    · rfl
    · rfl
  | @line d l ls evs key q p hi hc hrest =>
    intro n bl
    have hp := parseLine_spaces hpos d (hi.scan 0) hc (n + 1)
    refine Polls.cons (DecodeStream.poll_event (e := .startObj)
      (st' := { flatStateAt (F := F) (ls.map (indented indent)) (n + 1) d bl with queue := [.key key q, .prim p] }) ?_) ?_
    · simp [DecodeStream.processNext, initState, flatStateAt, indented, hp, DecodeStream.initialLine,
        asyncHeader_of hi.keyLine, asyncIsKeyValueLine_of hi.keyLine, hi.async, DecodeStream.pop]
    · exact DecodeStream.polls_queue [.key key q, .prim p] _ _ rfl (polls_flatStateAt hpos hrest (n + 1) d bl)

end Toon
