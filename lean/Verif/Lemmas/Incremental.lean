import Verif.Spec.Incremental
import Verif.Lemmas.AsyncDecode
import Verif.Lemmas.FaultRoot
import Verif.Lemmas.GrammarRoot

/-! The incremental reader yields exactly what the specification says. -/

namespace Toon

/-! ## Observations -/

section
variable {St Item : Type} {poll : St → Option Item × St} {unread : St → Nat}

theorem Observes.cons {st st' : St} {x : Item} {items : List (Item × Nat)} {tail : Option Item × Nat} {u : Nat}
    (h : poll st = (some x, st')) (hu : unread st' = u) (hr : Observes poll unread st' items tail) :
    Observes poll unread st ((x, u) :: items) tail := by
  intro n
  cases n with
  | zero => rfl
  | succ n => rw [observe, h, hr n, List.range_succ_eq_map]; simp [hu]

theorem Observes.tail {st st' : St} {tail : Option Item × Nat} (h : poll st = (tail.1, st')) (hu : unread st' = tail.2)
    (hr : Observes poll unread st' [] tail) : Observes poll unread st [] tail := by
  intro n
  cases n with
  | zero => rfl
  | succ n => rw [observe, h, hr n, List.range_succ_eq_map]; simp [hu]

theorem Observes.forever {st : St} {tail : Option Item × Nat} (h : poll st = (tail.1, st)) (hu : unread st = tail.2) :
    Observes poll unread st [] tail := by
  intro n
  induction n with
  | zero => rfl
  | succ n ih => rw [observe, h, ih, List.range_succ_eq_map]; simp [hu]

theorem Observes.congr {st st' : St} {items : List (Item × Nat)} {tail : Option Item × Nat}
    (h : poll st = poll st') (hr : Observes poll unread st' items tail) : Observes poll unread st items tail := by
  intro n
  have := hr n
  cases n with
  | zero => rfl
  | succ n => rw [observe, h]; exact this

theorem observe_append (n m : Nat) (st : St) : ∃ st', observe poll unread (n + m) st = observe poll unread n st ++ observe poll unread m st' := by
  induction n generalizing st with
  | zero => exact ⟨st, by simp [observe]⟩
  | succ n ih =>
    obtain ⟨st', h⟩ := ih (poll st).2
    refine ⟨st', ?_⟩
    rw [show n + 1 + m = (n + m) + 1 by omega, observe, h, observe]
    rfl

theorem observe_length (n : Nat) (st : St) : (observe poll unread n st).length = n := by
  induction n generalizing st with
  | zero => rfl
  | succ n ih => simp [observe, ih]

theorem observe_pollN (n : Nat) (st : St) : (observe poll unread n st).map Prod.fst = pollN poll n st := by
  induction n generalizing st with
  | zero => rfl
  | succ n ih => simp [observe, pollN, ih]

end

/-! ## One step -/

variable {F : Type} [F64 F] {indent : Nat} {strict : Bool}

/-- How many lines the stream has not yet taken from its source. -/
abbrev DecodeStream.unread (st : DecodeStream F) : Nat := st.lines.length

theorem DecodeStream.poll_pop {st st' : DecodeStream F} (h : st.processNext indent strict = st'.pop) :
    st.poll indent strict = st'.poll indent strict := by
  cases hq : st'.queue with
  | cons e q =>
    have hp : st'.pop = (.ok (some e), { st' with queue := q }) := by unfold DecodeStream.pop; rw [hq]
    rw [hp] at h
    rw [DecodeStream.poll_event h]
    symm
    apply DecodeStream.poll_event
    unfold DecodeStream.processNext
    simp only [hq]
  | nil =>
    have hp : st'.pop = (.ok none, st') := by unfold DecodeStream.pop; rw [hq]
    rw [hp] at h
    by_cases hf : st'.state = .finished
    · rw [DecodeStream.poll_done h (by simp [hf, hq])]
      symm
      apply DecodeStream.poll_done _ (by simp [hf, hq])
      unfold DecodeStream.processNext
      simp only [hq, hf, if_true]
    · exact DecodeStream.poll_skip h (by simp [hf])

theorem DecodeStream.observes_queue : ∀ (q : List (Ev F)) (st : DecodeStream F) (items tail), st.queue = q →
    Observes (DecodeStream.poll indent strict) DecodeStream.unread { st with queue := [] } items tail →
    Observes (DecodeStream.poll indent strict) DecodeStream.unread st (q.map (.ok ·, st.lines.length) ++ items) tail
  | [], st, xs, tail, hq, h => by
    have : { st with queue := [] } = st := by cases st; simp_all
    rw [this] at h; exact h
  | e :: q, st, xs, tail, hq, h => by
    refine Observes.cons (st' := { st with queue := q }) (DecodeStream.poll_event ?_) rfl
      (DecodeStream.observes_queue q { st with queue := q } xs tail rfl h)
    unfold DecodeStream.processNext; simp only [hq]

/-! ## The parts of a line -/

theorem indented_parse {raw content : Str} (h : Indented indent strict raw content) (n : Nat) :
    ∃ d, parseLine raw n indent strict = .ok (.line ⟨d, content, n⟩) := by
  obtain ⟨k, rfl, hb, hh, hs⟩ := h
  exact ⟨_, (scanLine_line hb hh).1 hs⟩

theorem indentFault_iff {n : Nat} {raw : Str} {e : Err} : IndentFault indent n raw e ↔ LineFault indent n raw e := by
  constructor
  · intro h
    cases h with
    | tab hb h => exact ⟨_, _, rfl, hb, Or.inl ⟨h, rfl⟩⟩
    | spaces hb h1 h2 h3 => exact ⟨_, _, rfl, hb, Or.inr ⟨h1, h2, h3, rfl⟩⟩
  · rintro ⟨k, content, rfl, hb, h⟩
    rcases h with ⟨h, rfl⟩ | ⟨h1, h2, h3, rfl⟩
    · exact .tab hb h
    · exact .spaces hb h1 h2 h3

/-- Every line is blank, faulty or indented. -/
theorem line_cases (indent : Nat) (strict : Bool) (n : Nat) (raw : Str) : BlankLine raw ∨
    (strict = true ∧ ∃ e, IndentFault indent n raw e) ∨ ∃ content, Indented indent strict raw content := by
  by_cases hb : BlankLine raw
  · exact Or.inl hb
  · refine Or.inr ?_
    obtain ⟨k, content, rfl, hh⟩ := raw_split raw
    have hbc : ¬ BlankLine content := fun h => hb (blank_replicate.mpr h)
    by_cases hs : strict = true → content.head? ≠ some '\t' ∧ k % indent = 0
    · exact Or.inr ⟨content, k, rfl, hbc, hh, hs⟩
    · obtain ⟨e, he⟩ := (scanLine_line (n := n) hbc hh).2 hs
      obtain ⟨h1, h2⟩ := (parseLine_error _ _ _ _ _).mp he
      exact Or.inl ⟨h1, e, indentFault_iff.mpr h2⟩

theorem asyncHeader_error {content : Str} {e : Err} : asyncHeader content = .error e ↔ Bracketed content ∧ HeaderFault content e := by
  unfold asyncHeader Bracketed
  rw [← isArrayHeaderContent_iff, ← header_error]
  by_cases h : isArrayHeaderContent content = true
  · rw [if_pos h]
    simp only [h, true_and]
    split <;> rename_i hp <;> simp [hp]
  · rw [if_neg h]; simp [h]

theorem asyncHeader_true {content : Str} : asyncHeader content = .ok true ↔ Bracketed content ∧ ∃ h, HeaderMeans content h := by
  unfold asyncHeader Bracketed
  rw [← isArrayHeaderContent_iff]
  simp only [← headerMeans_iff]
  by_cases h : isArrayHeaderContent content = true
  · rw [if_pos h]
    simp only [h, true_and]
    split
    · rename_i hp; simp [hp]
    · rename_i hdr hp
      simp only [hp, Except.ok.injEq]
      cases hdr <;> simp
  · rw [if_neg h]; simp [h]

theorem asyncHeader_false {content : Str} : asyncHeader content = .ok false ↔ (Bracketed content → NoHeader content) := by
  unfold asyncHeader Bracketed
  rw [← isArrayHeaderContent_iff, ← noHeader_iff]
  by_cases h : isArrayHeaderContent content = true
  · rw [if_pos h]
    simp only [h, true_implies]
    split
    · rename_i hp; simp [hp]
    · rename_i hdr hp
      simp only [hp, Except.ok.injEq]
      cases hdr <;> simp
  · rw [if_neg h]; simp [h]

theorem entryLike_iff {content : Str} : asyncIsKeyValueLine content = true ↔ EntryLike content := by
  unfold asyncIsKeyValueLine EntryLike
  rw [← hyphenSpace_iff, ← isKeyValueContent_iff]
  by_cases hd : startsWithDash content = true
  · simp [hd]
  · rw [if_neg hd]
    simp only [hd, Bool.false_eq_true, not_false_eq_true, true_and]
    by_cases hq : content.head? = some '"'
    · rw [if_pos hq]
      obtain ⟨s, rfl⟩ : ∃ s, content = '"' :: s := by
        cases content with
        | nil => simp at hq
        | cons c s => simp at hq; exact ⟨s, by rw [hq]⟩
      simp only [List.head?_cons, ne_eq, not_true, false_and, or_false, List.cons_append, List.cons.injEq, true_and]
      cases hc : findClosingQuote ('"' :: s) 0 with
      | none =>
        have := (neverClosed_iff s).mp ((findClosing_none s).mp hc)
        simp only [Bool.false_eq_true, false_iff]
        rintro ⟨body, rest, hb, rfl, _⟩
        exact this ⟨_, _, rfl, hb⟩
      | some j =>
        obtain ⟨body, rest, rfl, rfl, hb⟩ := (findClosingQuote_iff s j).mp hc
        have hdr : ('"' :: (body ++ '"' :: rest)).drop (body.length + 1 + 1) = rest := by simp
        simp only [hdr, List.contains_iff_mem]
        constructor
        · intro h; exact ⟨body, rest, hb, rfl, h⟩
        · rintro ⟨body', rest', hb', he, h⟩
          rw [(closing_unique hb hb' he).2]; exact h
    · rw [if_neg hq]
      simp only [hq, ne_eq, not_false_eq_true, true_and, Bool.and_eq_true]
      constructor
      · rintro ⟨_, h⟩; exact Or.inr h
      · rintro (⟨body, rest, _, rfl, _⟩ | h)
        · simp at hq
        · refine ⟨?_, h⟩
          obtain ⟨a, b, rfl, _⟩ := (isKeyValueContent_iff _).mp h
          simp

theorem key_unclosed (text : Str) (h : NeverClosed text) : parseKeyToken ('"' :: text) = .error .unterminatedKey := by
  unfold parseKeyToken parseQuotedKey
  simp [(findClosing_none text).mpr h]

theorem keyFault_error {content : Str} {e : Err} (h : KeyFault content e) : parseKeyToken content = .error e := by
  refine (key_error_of ?_ e).mpr h
  rintro s rfl
  generalize hg : '"' :: s = g at h
  cases h with
  | bare h _ => subst hg; simp at h
  | literal hb _ => simp at hg; exact ⟨_, _, hg, hb⟩
  | quoted hd _ => simp at hg; exact ⟨_, _, hg, quotedDenotes_literal hd⟩

/-- A line that is no list item has a key or a fault. -/
theorem key_cases (content : Str) : (∃ text, content = '"' :: text ∧ NeverClosed text) ∨ (∃ e, KeyFault content e) ∨
    ∃ k q after, KeyLineMeans content k q after := by
  by_cases h : ∃ text, content = '"' :: text ∧ NeverClosed text
  · exact Or.inl h
  · refine Or.inr ?_
    have hc : ∀ s, content = '"' :: s → ∃ body rest, s = body ++ '"' :: rest ∧ LiteralBody body := by
      intro s hs
      apply Classical.byContradiction
      intro hn
      exact h ⟨s, hs, (neverClosed_iff s).mpr hn⟩
    rcases hp : parseKeyToken content with e | ⟨k, e, q⟩
    · exact Or.inl ⟨e, (key_error_of hc e).mp hp⟩
    · exact Or.inr ⟨k, q, _, keyLine_iff _ _ _ _ hp⟩

theorem dash_quote (text : Str) : startsWithDash ('"' :: text) = false := by
  cases h : startsWithDash ('"' :: text) with
  | false => rfl
  | true =>
    have := (hyphenSpace_iff _).mp h
    simp [HyphenSpace] at this

theorem entryYields_total (content : Str) : ∃ fault evs stage', EntryYields F content fault evs stage' := by
  by_cases hd : HyphenSpace content
  · exact ⟨_, _, _, .hyphen hd⟩
  · rcases key_cases content with ⟨text, rfl, h⟩ | ⟨e, h⟩ | ⟨k, q, after, h⟩
    · exact ⟨_, _, _, .unclosed h⟩
    · exact ⟨_, _, _, .key hd h⟩
    · by_cases hb : BlankLine after
      · exact ⟨_, _, _, .nested hd h hb⟩
      · cases hp : parsePrimitiveToken (F := F) after with
        | error e => exact ⟨_, _, _, .value hd h hb ((primitive_error _ _).mp hp)⟩
        | ok p => exact ⟨_, _, _, .entry hd h hb ((parsePrimitiveToken_iff _ _).mp hp)⟩

/-- The result of a fault. -/
def faultResult : Option Err → Except Err Unit
  | none => .ok ()
  | some e => .error e

theorem keyValueLine_yields {content : Str} {fault : Option Err} {evs : List (Ev F)} {stage' : Stage}
    (h : EntryYields F content fault evs stage') (st : DecodeStream F) (d n : Nat) (raw : Str) :
    st.keyValueLine ⟨d, content, n⟩ raw = (faultResult fault,
      if stage' = .buffering then { st with state := .arrayMode, buffer := st.buffer ++ [raw], queue := st.queue ++ evs }
      else { st with queue := st.queue ++ evs }) := by
  have hnd : ∀ {s : Str}, ¬ HyphenSpace s → startsWithDash s = false := by
    intro s hs
    cases h : startsWithDash s with
    | false => rfl
    | true => exact absurd ((hyphenSpace_iff _).mp h) hs
  unfold DecodeStream.keyValueLine
  cases h with
  | hyphen h => simp [(hyphenSpace_iff _).mpr h, faultResult]
  | unclosed h => simp [dash_quote, key_unclosed _ h, faultResult]
  | key hd h => simp [hnd hd, keyFault_error h, faultResult]
  | nested hd h hb =>
    obtain ⟨e, h1, h2⟩ := keyLine_parse h
    simp [hnd hd, h1, h2, blank_trim.mp hb, faultResult]
  | value hd h hb hf =>
    obtain ⟨e, h1, h2⟩ := keyLine_parse h
    have hne : (trim (content.drop e)).isEmpty = false := by
      rw [h2]; simpa using fun h => hb (blank_trim.mpr h)
    have := (primitive_error (F := F) _ _).mpr ((trim_trim _).symm ▸ hf)
    simp only [hnd hd, h1, h2, this, faultResult]
    simp [h2 ▸ hne]
  | entry hd h hb hf =>
    obtain ⟨e, h1, h2⟩ := keyLine_parse h
    have hne : (trim (content.drop e)).isEmpty = false := by
      rw [h2]; simpa using fun h => hb (blank_trim.mpr h)
    have := (parsePrimitiveToken_iff (F := F) _ _).mpr ((trim_trim _).symm ▸ hf)
    simp only [hnd hd, h1, h2, this, faultResult]
    simp [h2 ▸ hne]

theorem entryYields_stage {content : Str} {fault : Option Err} {evs : List (Ev F)} {stage' : Stage}
    (h : EntryYields F content fault evs stage') : (stage' = .object ∨ stage' = .buffering ∧ fault = none ∧ evs = []) := by
  cases h <;> simp

/-! ## The states of the stream -/

def Stage.dstate : Stage → DState
  | .start => .initial
  | .object => .simpleObject 0
  | .buffering => .arrayMode
  | .finished => .finished

/-- The stream at a stage, between two lines. -/
structure AtStage (stage : Stage) (kept : List Str) (num : Nat) (lines : List Str) (st : DecodeStream F) : Prop where
  lines : st.lines = lines
  num : st.lineNumber = num
  queue : st.queue = []
  state : st.state = stage.dstate
  start : stage = .start → st.contexts = []
  object : stage = .object → st.contexts = [0]
  buffer : st.buffer = kept
  flat : stage ≠ .buffering → kept = []
  exhausted : st.exhausted = false

/-- Every stream at the stage shows these items. -/
def StageShows (F : Type) [F64 F] (indent : Nat) (strict : Bool) (stage : Stage) (kept : List Str) (num : Nat) (lines : List Str)
    (items : List (Except Err (Ev F) × Nat)) (tail : Option (Except Err (Ev F)) × Nat) : Prop :=
  ∀ st : DecodeStream F, AtStage stage kept num lines st →
    Observes (DecodeStream.poll indent strict) DecodeStream.unread st items tail

omit [F64 F] in
theorem closeTo_zero (st : DecodeStream F) (h : st.contexts = [0]) (hq : st.queue = []) (d : Nat) : st.closeTo d 0 = st := by
  unfold DecodeStream.closeTo
  split
  · rfl
  · split
    · obtain ⟨l, n, q, s, c, b, x, ld, bl⟩ := st
      dsimp only at h hq
      subst h; subst hq
      simp [closeContexts]
    · rfl

section
variable {stage stage' : Stage} {kept rest : List Str} {num : Nat} {raw content : Str}

/-- The step of a line that has text. -/
theorem step_line {st : DecodeStream F} (ha : AtStage stage kept num (raw :: rest) st) (hs : stage ≠ .finished)
    (hi : Indented indent strict raw content) : ∃ d, st.processNext indent strict =
      let st' := { st with lines := rest, lineNumber := num + 1 }
      match stage with
      | .start => st'.initialLine ⟨d, content, num + 1⟩ raw
      | .object => st'.objectLine ⟨d, content, num + 1⟩ raw 0
      | .buffering => (.ok none, { st' with buffer := kept ++ [raw] })
      | .finished => (.ok none, st') := by
  obtain ⟨d, hd⟩ := indented_parse hi (num + 1)
  refine ⟨d, ?_⟩
  unfold DecodeStream.processNext
  rw [ha.queue]
  simp only [ha.state, ha.exhausted, ha.lines, ha.num, hd, ha.buffer]
  cases stage <;> simp_all [Stage.dstate]

theorem step_blank {st : DecodeStream F} (ha : AtStage stage kept num (raw :: rest) st) (hs : stage ≠ .finished)
    (hb : BlankLine raw) : st.processNext indent strict =
      (.ok none, { st with lines := rest, lineNumber := num + 1, blanks := st.blanks ++ [num + 1] }) := by
  unfold DecodeStream.processNext
  rw [ha.queue]
  simp only [ha.state, ha.exhausted, ha.lines, ha.num, scanLine_blank hb]
  cases stage <;> simp_all [Stage.dstate]

theorem step_indent {st : DecodeStream F} (ha : AtStage stage kept num (raw :: rest) st) (hs : stage ≠ .finished)
    {e : Err} (h1 : strict = true) (h : IndentFault indent (num + 1) raw e) :
    st.processNext indent strict = (.error e, { st with lines := rest, lineNumber := num + 1 }) := by
  unfold DecodeStream.processNext
  rw [ha.queue]
  simp only [ha.state, ha.exhausted, ha.lines, ha.num, (parseLine_error _ _ _ _ _).mpr ⟨h1, indentFault_iff.mp h⟩]
  cases stage <;> simp_all [Stage.dstate]

/-- An entry, after the events that are already queued. -/
theorem entry_shows {items : List (Except Err (Ev F) × Nat)} {tail : Option (Except Err (Ev F)) × Nat}
    {fault : Option Err} {evs : List (Ev F)}
    {st st₀ : DecodeStream F} {q : List (Ev F)} {d n : Nat} (hy : EntryYields F content fault evs stage')
    (h₀ : AtStage (F := F) .object [] num rest { st₀ with queue := [] }) (hq : st₀.queue = q)
    (hp : st.processNext indent strict = match st₀.keyValueLine ⟨d, content, n⟩ raw with
      | (.error e, st) => (.error e, st)
      | (.ok (), st) => DecodeStream.pop { st with lastDepth := some d })
    (hr : StageShows F indent strict stage' (keep stage' raw) num rest items tail) :
    Observes (DecodeStream.poll indent strict) DecodeStream.unread st
      ((answers F fault (q ++ evs)).map (·, rest.length) ++ items) tail := by
  rw [keyValueLine_yields hy] at hp
  have hl : st₀.lines = rest := h₀.lines
  rcases entryYields_stage hy with rfl | ⟨rfl, rfl, rfl⟩
  · have hr' : ∀ ld, Observes (DecodeStream.poll indent strict) DecodeStream.unread
        { st₀ with queue := q ++ evs, lastDepth := ld } ((q ++ evs).map (.ok ·, rest.length) ++ items) tail := by
      intro ld
      have := DecodeStream.observes_queue (indent := indent) (strict := strict) (q ++ evs) { st₀ with queue := q ++ evs, lastDepth := ld }
        items tail rfl (hr _ ⟨h₀.lines, h₀.num, rfl, h₀.state, by simp, h₀.object, h₀.buffer, by simp [keep], h₀.exhausted⟩)
      rw [← hl]; exact this
    cases fault with
    | none =>
      simp only [faultResult, hq] at hp
      have h1 := DecodeStream.poll_pop hp
      have := Observes.congr h1 (hr' _)
      simpa [answers, Function.comp_def] using this
    | some e =>
      simp only [faultResult, hq] at hp
      have h1 := DecodeStream.poll_error hp
      have := Observes.cons h1 (u := rest.length) (by simp [DecodeStream.unread, hl]) (hr' st₀.lastDepth)
      simpa [answers, Function.comp_def] using this
  · simp only [faultResult, if_true, hq] at hp
    have h1 := DecodeStream.poll_pop hp
    refine Observes.congr h1 ?_
    have hb : st₀.buffer = [] := h₀.buffer
    have := DecodeStream.observes_queue (indent := indent) (strict := strict) (q ++ [])
      { st₀ with state := .arrayMode, buffer := st₀.buffer ++ [raw], queue := q ++ [], lastDepth := some d } items tail rfl
      (hr { st₀ with state := .arrayMode, buffer := st₀.buffer ++ [raw], queue := [], lastDepth := some d }
        ⟨h₀.lines, h₀.num, rfl, rfl, by simp, by simp, by simp [hb, keep], by simp, h₀.exhausted⟩)
    simp only [hl] at this
    simpa [answers, Function.comp_def, hl] using this

theorem line_shows {items : List (Except Err (Ev F) × Nat)} {tail : Option (Except Err (Ev F)) × Nat}
    {xs : List (Except Err (Ev F))} {kept₁ : List Str}
    (hy : LineYields F indent strict (num + 1) stage raw xs stage' kept₁)
    (hr : StageShows F indent strict stage' (kept ++ kept₁) (num + 1) rest items tail) :
    StageShows F indent strict stage kept num (raw :: rest) (xs.map (·, rest.length) ++ items) tail := by
  intro st ha
  cases hy with
  | blank hs hb =>
    rw [List.append_nil] at hr
    have h1 := step_blank (indent := indent) (strict := strict) ha hs hb
    refine Observes.congr (DecodeStream.poll_skip h1 ?_) (hr _ ?_)
    · simp only [ha.state]; cases stage <;> simp_all [Stage.dstate]
    · exact ⟨rfl, rfl, ha.queue, ha.state, ha.start, ha.object, ha.buffer, ha.flat, ha.exhausted⟩
  | indentation hs h1 hf =>
    rw [List.append_nil] at hr
    have h1 := step_indent (indent := indent) (strict := strict) ha hs h1 hf
    refine Observes.cons (DecodeStream.poll_error h1) rfl (hr _ ?_)
    exact ⟨rfl, rfl, ha.queue, ha.state, ha.start, ha.object, ha.buffer, ha.flat, ha.exhausted⟩
  | buffered hi =>
    obtain ⟨d, h1⟩ := step_line (indent := indent) (strict := strict) ha (by simp) hi
    refine Observes.congr (DecodeStream.poll_skip h1 ?_) (hr _ ?_)
    · simp only [ha.state]; rfl
    · exact ⟨rfl, rfl, ha.queue, ha.state, by simp, by simp, rfl, by simp, ha.exhausted⟩
  | header hs hi hb hm =>
    have hh := asyncHeader_true.mpr ⟨hb, _, hm⟩
    rcases hs with rfl | rfl
    · obtain ⟨d, h1⟩ := step_line (indent := indent) (strict := strict) ha (by simp) hi
      simp only [DecodeStream.initialLine, hh] at h1
      refine Observes.congr (DecodeStream.poll_skip h1 rfl) (hr _ ?_)
      exact ⟨rfl, rfl, ha.queue, rfl, by simp, by simp, by simp [ha.buffer], by simp, ha.exhausted⟩
    · obtain ⟨d, h1⟩ := step_line (indent := indent) (strict := strict) ha (by simp) hi
      have hc := closeTo_zero { st with lines := rest, lineNumber := num + 1 } (ha.object rfl) ha.queue d
      simp only [DecodeStream.objectLine, hc, hh] at h1
      refine Observes.congr (DecodeStream.poll_pop h1) (hr _ ?_)
      exact ⟨rfl, rfl, ha.queue, rfl, by simp, by simp, by simp [ha.buffer], by simp, ha.exhausted⟩
  | headerFault hs hi hb hm =>
    rw [List.append_nil] at hr
    have hh := asyncHeader_error.mpr ⟨hb, hm⟩
    rcases hs with rfl | rfl
    · obtain ⟨d, h1⟩ := step_line (indent := indent) (strict := strict) ha (by simp) hi
      simp only [DecodeStream.initialLine, hh] at h1
      refine Observes.cons (DecodeStream.poll_error h1) rfl (hr _ ?_)
      exact ⟨rfl, rfl, ha.queue, ha.state, ha.start, ha.object, ha.buffer, ha.flat, ha.exhausted⟩
    · obtain ⟨d, h1⟩ := step_line (indent := indent) (strict := strict) ha (by simp) hi
      have hc := closeTo_zero { st with lines := rest, lineNumber := num + 1 } (ha.object rfl) ha.queue d
      simp only [DecodeStream.objectLine, hc, hh] at h1
      refine Observes.cons (DecodeStream.poll_error h1) rfl (hr _ ?_)
      exact ⟨rfl, rfl, ha.queue, ha.state, ha.start, ha.object, ha.buffer, ha.flat, ha.exhausted⟩
  | first hi hn hk hy =>
    have hh := asyncHeader_false.mpr hn
    have hkept := ha.flat (by simp)
    subst hkept
    obtain ⟨d, h1⟩ := step_line (indent := indent) (strict := strict) ha (by simp) hi
    simp only [DecodeStream.initialLine, hh, entryLike_iff.mpr hk, if_true] at h1
    have hc := ha.start rfl
    exact entry_shows (q := [.startObj]) hy (by
      refine ⟨rfl, rfl, rfl, rfl, by simp, ?_, ha.buffer, by simp, ha.exhausted⟩
      intro _; simp only [hc]) (by simp only [ha.queue, List.nil_append]) h1 hr
  | next hi hn hy =>
    have hh := asyncHeader_false.mpr hn
    have hkept := ha.flat (by simp)
    subst hkept
    obtain ⟨d, h1⟩ := step_line (indent := indent) (strict := strict) ha (by simp) hi
    have hc := closeTo_zero { st with lines := rest, lineNumber := num + 1 } (ha.object rfl) ha.queue d
    simp only [DecodeStream.objectLine, hc, hh] at h1
    exact entry_shows (q := []) (st₀ := { st with lines := rest, lineNumber := num + 1 }) hy
      ⟨rfl, rfl, rfl, ha.state, by simp, ha.object, ha.buffer, by simp, ha.exhausted⟩ ha.queue h1 hr
  | @root _ content p hi hn hk hp =>
    have hh := asyncHeader_false.mpr hn
    have hkf : asyncIsKeyValueLine content = false := by
      cases h : asyncIsKeyValueLine content with
      | false => rfl
      | true => exact absurd (entryLike_iff.mp h) hk
    obtain ⟨d, h1⟩ := step_line (indent := indent) (strict := strict) ha (by simp) hi
    have hpp := (parsePrimitiveToken_iff (F := F) _ _).mpr ((trim_trim _).symm ▸ hp)
    simp only [DecodeStream.initialLine, hh, hkf, Bool.false_eq_true, if_false, hpp] at h1
    rw [List.append_nil] at hr
    refine Observes.cons (DecodeStream.poll_event h1) rfl (hr _ ?_)
    exact ⟨rfl, rfl, ha.queue, rfl, by simp, by simp, ha.buffer, fun _ => ha.flat (by simp), ha.exhausted⟩
  | @rootFault _ content e hi hn hk hp =>
    have hh := asyncHeader_false.mpr hn
    have hkf : asyncIsKeyValueLine content = false := by
      cases h : asyncIsKeyValueLine content with
      | false => rfl
      | true => exact absurd (entryLike_iff.mp h) hk
    obtain ⟨d, h1⟩ := step_line (indent := indent) (strict := strict) ha (by simp) hi
    have hpp := (primitive_error (F := F) _ _).mpr ((trim_trim _).symm ▸ hp)
    simp only [DecodeStream.initialLine, hh, hkf, Bool.false_eq_true, if_false, hpp] at h1
    rw [List.append_nil] at hr
    refine Observes.cons (DecodeStream.poll_error h1) rfl (hr _ ?_)
    exact ⟨rfl, rfl, ha.queue, rfl, by simp, by simp, ha.buffer, fun _ => ha.flat (by simp), ha.exhausted⟩

/-- The end of the lines. -/
theorem end_shows [LawfulF64 F] {evs : List (Ev F)} {fault : Option Err} (he : Ends F indent strict stage kept evs fault) :
    StageShows F indent strict stage kept num [] (evs.map (.ok ·, 0)) (fault.map .error, 0) := by
  intro st ha
  have hpn : stage ≠ .finished → st.processNext indent strict = DecodeStream.finalize indent strict { st with exhausted := true } := by
    intro hs
    unfold DecodeStream.processNext
    rw [ha.queue]
    simp only [ha.state, ha.exhausted, ha.lines]
    cases stage <;> simp_all [Stage.dstate]
  have fin : ∀ st' : DecodeStream F, st'.state = .finished → st'.queue = evs → st'.lines = [] → fault = none →
      st.processNext indent strict = st'.pop →
      Observes (DecodeStream.poll indent strict) DecodeStream.unread st (evs.map (.ok ·, 0)) (fault.map .error, 0) := by
    intro st' h1 h2 h3 h4 h5
    subst h4
    refine Observes.congr (DecodeStream.poll_pop h5) ?_
    have := DecodeStream.observes_queue (indent := indent) (strict := strict) evs st' [] (none, 0) h2 (by
      refine Observes.forever (DecodeStream.poll_done ?_ ?_) (by simp [DecodeStream.unread, h3])
      · unfold DecodeStream.processNext; simp only [h1, if_true]
      · simp [h1])
    simpa [h3] using this
  have hl := ha.lines
  cases he with
  | empty =>
    have hb := ha.flat (by simp)
    refine fin { st with exhausted := true, contexts := [], queue := [.startObj, .endObj], state := .finished } rfl rfl hl rfl ?_
    rw [hpn (by simp)]
    unfold DecodeStream.finalize
    simp [ha.buffer, hb, ha.state, Stage.dstate, ha.queue, ha.start rfl]
  | object =>
    have hb := ha.flat (by simp)
    refine fin { st with exhausted := true, contexts := [], queue := [.endObj], state := .finished } rfl rfl hl rfl ?_
    rw [hpn (by simp)]
    unfold DecodeStream.finalize
    simp [ha.buffer, hb, ha.state, Stage.dstate, ha.queue, ha.object rfl]
  | @decoded _ t ht =>
    have hd : decodeStream indent strict kept = .ok t.events := by
      obtain ⟨ls, bs, r, h1, h2⟩ := ht
      exact (decodeStream_iff _ _ _ _).mpr ⟨ls, bs, t, r, h1, h2, rfl⟩
    refine fin { st with lines := [], exhausted := true, contexts := [], buffer := [], queue := t.events, state := .finished } rfl rfl rfl rfl ?_
    rw [hpn (by simp)]
    unfold DecodeStream.finalize DecodeStream.batch
    simp [ha.buffer, ha.state, Stage.dstate, ha.queue, hl, DecodeStream.drain, hd]
  | @rejected _ e ht =>
    have hd := (decodeStream_error (F := F) _ _ _ _).mpr ht
    have step : ∀ st' : DecodeStream F, st'.state = .arrayMode → st'.lines = [] → st'.buffer = kept →
        DecodeStream.finalize indent strict st' = (.error e, st') := by
      intro st' h1 h2 h3
      unfold DecodeStream.finalize DecodeStream.batch
      simp [h1, h2, h3, DecodeStream.drain, hd]
      cases st'; simp_all
    refine Observes.tail (st' := { st with exhausted := true }) ?_ (by simp [DecodeStream.unread, hl]) ?_
    · apply DecodeStream.poll_error
      rw [hpn (by simp)]
      exact step _ ha.state hl ha.buffer
    · refine Observes.forever (DecodeStream.poll_error ?_) (by simp [DecodeStream.unread, hl])
      unfold DecodeStream.processNext
      split
      · rename_i hq; exact absurd (ha.queue.symm.trans hq) (by simp)
      · rw [if_neg (by rw [ha.state]; simp [Stage.dstate]), if_pos rfl]
        exact step _ ha.state hl ha.buffer

theorem finished_shows {lines : List Str} : StageShows F indent strict .finished kept num lines [] (none, lines.length) := by
  intro st ha
  refine Observes.forever (DecodeStream.poll_done ?_ ?_) (by simp [DecodeStream.unread, ha.lines])
  · unfold DecodeStream.processNext; simp only [ha.queue, ha.state, Stage.dstate, if_true]
  · simp [ha.queue, ha.state, Stage.dstate]

theorem takes_shows {pre : List Str} {kept' : List Str} {items items' : List (Except Err (Ev F) × Nat)}
    {tail : Option (Except Err (Ev F)) × Nat} (ht : TakesLines F indent strict rest.length stage kept num pre items stage' kept')
    (hr : StageShows F indent strict stage' kept' (num + pre.length) rest items' tail) :
    StageShows F indent strict stage kept num (pre ++ rest) (items ++ items') tail := by
  induction ht with
  | nil stage kept num => exact hr
  | cons hy _ ih =>
    have := ih (by
      rw [List.length_cons] at hr
      rw [Nat.add_assoc, Nat.add_comm 1]; exact hr)
    have := line_shows hy this
    simpa [List.append_assoc] using this

/-! ## Every document -/

theorem lineYields_total (indent : Nat) (strict : Bool) (num : Nat) (hs : stage ≠ .finished) (raw : Str) :
    ∃ xs stage' kept, LineYields F indent strict num stage raw xs stage' kept := by
  rcases line_cases indent strict num raw with hb | ⟨h1, e, hf⟩ | ⟨content, hi⟩
  · exact ⟨_, _, _, .blank hs hb⟩
  · exact ⟨_, _, _, .indentation hs h1 hf⟩
  · by_cases hbuf : stage = .buffering
    · subst hbuf; exact ⟨_, _, _, .buffered hi⟩
    · have h2 : stage = .start ∨ stage = .object := by cases stage <;> simp_all
      rcases hh : asyncHeader content with e | _ | _
      · obtain ⟨hb, hf⟩ := asyncHeader_error.mp hh
        exact ⟨_, _, _, .headerFault h2 hi hb hf⟩
      · have hn := asyncHeader_false.mp hh
        rcases h2 with rfl | rfl
        · by_cases hk : EntryLike content
          · obtain ⟨f, evs, s, hy⟩ := entryYields_total (F := F) content
            exact ⟨_, _, _, .first hi hn hk hy⟩
          · cases hp : parsePrimitiveToken (F := F) content with
            | error e => exact ⟨_, _, _, .rootFault hi hn hk ((primitive_error _ _).mp hp)⟩
            | ok p => exact ⟨_, _, _, .root hi hn hk ((parsePrimitiveToken_iff _ _).mp hp)⟩
        · obtain ⟨f, evs, s, hy⟩ := entryYields_total (F := F) content
          exact ⟨_, _, _, .next hi hn hy⟩
      · obtain ⟨hb, h, hm⟩ := asyncHeader_true.mp hh
        exact ⟨_, _, _, .header h2 hi hb hm⟩

/-- The lines are read to the end, or up to a line after which the reader is done. -/
theorem takesLines_total (indent : Nat) (strict : Bool) (lines : List Str) : ∀ (stage : Stage) (kept : List Str) (num : Nat),
    stage ≠ .finished →
    (∃ items stage' kept', stage' ≠ .finished ∧ TakesLines F indent strict 0 stage kept num lines items stage' kept') ∨
    ∃ pre rest items kept', lines = pre ++ rest ∧ TakesLines F indent strict rest.length stage kept num pre items .finished kept' := by
  induction lines with
  | nil => intro stage kept num hs; exact Or.inl ⟨_, _, _, hs, .nil _ _ _⟩
  | cons raw rest ih =>
    intro stage kept num hs
    obtain ⟨xs, s1, k1, hy⟩ := lineYields_total (F := F) indent strict (num + 1) hs raw
    by_cases hf : s1 = .finished
    · subst hf
      exact Or.inr ⟨[raw], rest, _, _, rfl, .cons hy (.nil _ _ _)⟩
    · rcases ih s1 (kept ++ k1) (num + 1) hf with ⟨items, s2, k2, h2, ht⟩ | ⟨pre, rest', items, k2, rfl, ht⟩
      · exact Or.inl ⟨_, _, _, h2, .cons hy ht⟩
      · exact Or.inr ⟨raw :: pre, rest', _, _, rfl, .cons hy ht⟩

theorem ends_total [LawfulF64 F] (indent : Nat) (strict : Bool) (hs : stage ≠ .finished) (kept : List Str) :
    ∃ evs fault, Ends F indent strict stage kept evs fault := by
  cases stage with
  | start => exact ⟨_, _, .empty⟩
  | object => exact ⟨_, _, .object⟩
  | buffering =>
    cases hd : decodeStream (F := F) indent strict kept with
    | error e => exact ⟨_, _, .rejected ((decodeStream_error _ _ _ _).mp hd)⟩
    | ok evs =>
      obtain ⟨ls, bs, t, r, h1, h2, _⟩ := (decodeStream_iff _ _ _ _).mp hd
      exact ⟨_, _, .decoded ⟨ls, bs, r, h1, h2⟩⟩
  | finished => exact absurd rfl hs

theorem streams_total [LawfulF64 F] (indent : Nat) (strict : Bool) (lines : List Str) :
    ∃ items tail, Streams F indent strict lines items tail := by
  rcases takesLines_total (F := F) indent strict lines .start [] 0 (by simp) with ⟨items, s, k, hs, ht⟩ | ⟨pre, rest, items, k, rfl, ht⟩
  · obtain ⟨evs, fault, he⟩ := ends_total (F := F) indent strict hs k
    exact ⟨_, _, .all ht he⟩
  · exact ⟨_, _, .stops ht⟩

omit [F64 F] in
theorem new_atStage (lines : List Str) : AtStage .start [] 0 lines (DecodeStream.new (F := F) lines) :=
  ⟨rfl, rfl, rfl, rfl, fun _ => rfl, by simp, rfl, fun _ => rfl, rfl⟩

theorem streams_observes [LawfulF64 F] {lines : List Str} {items : List (Except Err (Ev F) × Nat)}
    {tail : Option (Except Err (Ev F)) × Nat} (h : Streams F indent strict lines items tail) :
    Observes (DecodeStream.poll indent strict) DecodeStream.unread (DecodeStream.new lines) items tail := by
  cases h with
  | all ht he =>
    have := takes_shows (rest := []) ht (end_shows he)
    rw [List.append_nil] at this
    exact this _ (new_atStage _)
  | stops ht =>
    have := takes_shows ht finished_shows
    rw [List.append_nil] at this
    exact this _ (new_atStage _)

/-! ## Prefixes -/

/-- The lines that follow change only the count of unread lines. -/
theorem takesLines_shift {pre kept' : List Str} {items : List (Except Err (Ev F) × Nat)} {after : Nat}
    (h : TakesLines F indent strict after stage kept num pre items stage' kept') (more : Nat) :
    TakesLines F indent strict (after + more) stage kept num pre (items.map fun x => (x.1, x.2 + more)) stage' kept' := by
  induction h with
  | nil => exact .nil _ _ _
  | cons hy _ ih =>
    have := TakesLines.cons hy ih
    simpa [Nat.add_assoc, Function.comp_def] using this

theorem takesLines_append {pre post kept₁ kept₂ : List Str} {stage₁ stage₂ : Stage} {items items' : List (Except Err (Ev F) × Nat)}
    {after : Nat} (h : TakesLines F indent strict (post.length + after) stage kept num pre items stage₁ kept₁)
    (h' : TakesLines F indent strict after stage₁ kept₁ (num + pre.length) post items' stage₂ kept₂) :
    TakesLines F indent strict after stage kept num (pre ++ post) (items ++ items') stage₂ kept₂ := by
  induction h with
  | nil => exact h'
  | cons hy _ ih =>
    have := TakesLines.cons hy (ih (by rw [List.length_cons] at h'; rw [Nat.add_assoc, Nat.add_comm 1]; exact h'))
    simpa [Nat.add_assoc] using this

/-- A document whose first lines leave the reader at a stage. -/
theorem streams_prefix [LawfulF64 F] {pre : List Str} {items : List (Except Err (Ev F) × Nat)}
    (h : TakesLines F indent strict 0 .start [] 0 pre items stage kept) (post : List Str) :
    ∃ items' tail, Streams F indent strict (pre ++ post) ((items.map fun x => (x.1, x.2 + post.length)) ++ items') tail ∧
      (stage = .buffering → ∀ x ∈ items', (∃ e, x.1 = .error e) ∨ x.2 = 0) ∧ (stage = .buffering → tail.2 = 0) := by
  have hs := takesLines_shift h post.length
  rw [Nat.zero_add] at hs
  by_cases hf : stage = .finished
  · subst hf
    exact ⟨[], _, by rw [List.append_nil]; exact .stops hs, by simp, by simp⟩
  · have hbuf : ∀ {after : Nat} {k : List Str} {n : Nat} {ls : List Str} {its : List (Except Err (Ev F) × Nat)} {s s₀ : Stage} {k' : List Str},
        TakesLines F indent strict after s₀ k n ls its s k' → s₀ = .buffering → s = .buffering ∧ ∀ x ∈ its, ∃ e, x.1 = .error e := by
      intro after k n ls its s s₀ k' ht
      induction ht with
      | nil => intro hg; exact ⟨hg, by simp⟩
      | cons hy _ ih =>
        rintro rfl
        cases hy with
        | blank => simpa using ih rfl
        | indentation => simpa using ih rfl
        | buffered => simpa using ih rfl
        | header h => simp at h
        | headerFault h => simp at h
    rcases takesLines_total (F := F) indent strict post stage kept (0 + pre.length) hf with
      ⟨its, s, k, hs', ht⟩ | ⟨p, rest, its, k, rfl, ht⟩
    · obtain ⟨evs, fault, he⟩ := ends_total (F := F) indent strict hs' k
      refine ⟨its ++ evs.map (.ok ·, 0), (fault.map .error, 0), ?_, ?_, fun _ => rfl⟩
      · rw [← List.append_assoc]
        exact .all (takesLines_append (after := 0) hs ht) he
      · rintro rfl x hx
        rcases List.mem_append.mp hx with hx | hx
        · exact Or.inl ((hbuf ht rfl).2 x hx)
        · obtain ⟨ev, _, rfl⟩ := List.mem_map.mp hx
          exact Or.inr rfl
    · refine ⟨its, (none, rest.length), ?_, ?_, ?_⟩
      · rw [← List.append_assoc]
        refine .stops (takesLines_append ?_ ht)
        rw [← List.length_append]
        exact hs
      · rintro rfl
        exact absurd (hbuf ht rfl).1 (by simp)
      · rintro rfl
        exact absurd (hbuf ht rfl).1 (by simp)

end

end Toon
