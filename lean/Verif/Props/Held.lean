import Verif.Lemmas.Held
import Verif.Lemmas.HeldDecode
import Verif.Lemmas.Float64
import Verif.Lemmas.Dec

/-!
# C81: what the streams hold between two polls

`EventStream.held` is the number of values that the event stream of the encoder has not handed out yet, `stack` are the
arrays and objects it has open.  Of the decode stream `lines` are those still in the source, `buffer` the lines that are
kept and `queue` the events that are ready.
-/

namespace Toon

variable {F : Type} [F64 F]

/-- **C81 (event stream).**  After any number of polls the values already told and those still held are together the values
of the document: none is held twice.  The open arrays and objects are those that were begun and not closed, never more
than the document is deep. -/
theorem C81_events (v : Json F) (n : Nat) :
    (afterN EventStream.poll n (EventStream.new v)).held + ((encodeStreamEvents v).take n).countP Ev.begins = nodes v ∧
    (afterN EventStream.poll n (EventStream.new v)).stack.length + ((encodeStreamEvents v).take n).countP Ev.closes =
      ((encodeStreamEvents v).take n).countP Ev.opens ∧
    (afterN EventStream.poll n (EventStream.new v)).stack.length ≤ height v := by
  have hs : (EventStream.new v).Steady (height (normalize v)) := EventStream.start_steady (normalize v)
  obtain ⟨⟨_, _, m, h1, _⟩, h2, h3⟩ := EventStream.after_balanced _ n _ hs
  rw [EventStream.new_rest] at h2 h3
  have hn : (EventStream.new v).held = nodes v := by
    simp [EventStream.held, EventStream.new, framesHeld, nodes_normalize]
  have h0 : (EventStream.new v).stack.length = 0 := rfl
  have := h1.length
  rw [height_normalize] at this
  exact ⟨by omega, by omega, by omega⟩

/-- **C81 (event stream, at the end).**  When all events are told, nothing is held. -/
theorem C81_events_end (v : Json F) (n : Nat) (hn : (encodeStreamEvents v).length ≤ n) :
    (afterN EventStream.poll n (EventStream.new v)).stack = [] ∧ (afterN EventStream.poll n (EventStream.new v)).root = none := by
  have hs : (EventStream.new v).Steady (height (normalize v)) := EventStream.start_steady (normalize v)
  have key : ∀ (n : Nat) (st : EventStream F), st.Inv → (afterN EventStream.poll n st).Inv ∧
      (afterN EventStream.poll n st).rest = st.rest.drop n := by
    intro n
    induction n with
    | zero => intro st h; exact ⟨h, by simp [afterN]⟩
    | succ n ih =>
      intro st h
      obtain ⟨_, h2, h3⟩ := EventStream.step st h
      obtain ⟨i1, i2⟩ := ih _ h3
      rw [afterN]
      exact ⟨i1, by rw [i2, h2]; cases st.rest <;> simp⟩
  obtain ⟨h1, h2⟩ := key n _ hs.inv
  rw [EventStream.new_rest, List.drop_eq_nil_of_le hn] at h2
  generalize afterN EventStream.poll n (EventStream.new v) = st at h1 h2
  obtain ⟨stack, started, root⟩ := st
  rcases h1 with ⟨ha, hb⟩ | ⟨ha, hb, w, hc⟩
  · simp only at ha hb
    subst ha hb
    refine ⟨?_, rfl⟩
    cases stack with
    | nil => rfl
    | cons f fs =>
      exfalso
      simp only [EventStream.rest, List.flatMap_cons, List.nil_append] at h2
      rcases f with ⟨es, _ | p⟩ | ⟨vs, l, _ | _⟩ <;> simp [EncFrame.rest] at h2
  · simp only at ha hb hc
    subst ha hb hc
    exfalso
    simp only [EventStream.rest, List.flatMap_nil, List.append_nil] at h2
    cases w <;> simp [emitEvents] at h2

/-- **C81 (line stream).**  The stream of lines holds all lines of the text from its creation on, those already told too. -/
theorem C81_lines (opts : EncOpts) (v : Json F) (n : Nat) :
    (afterN LineStream.poll n (LineStream.new opts v)).lines = encodeLines opts v := by
  rw [LineStream.afterN_lines]
  rfl

/-- **C81 (decode stream).**  The lines that are kept and those not yet taken are never more than the lines of the
document; and as long as events may still follow from lines, at most two are ready. -/
theorem C81_decode (indent : Nat) (strict : Bool) (lines : List Str) (n : Nat) :
    let st := afterN (DecodeStream.poll indent strict) n (DecodeStream.new (F := F) lines)
    st.buffer.length + st.lines.length ≤ lines.length ∧ (st.queue.length ≤ 2 ∨ st.state = .finished) := by
  have h := afterN_inv (P := Frugal lines.length) (poll_inv (indent := indent) (strict := strict) processNext_frugal) n _
    (new_frugal (F := F) lines)
  refine ⟨h.lines, ?_⟩
  by_cases hf : (afterN (DecodeStream.poll indent strict) n (DecodeStream.new (F := F) lines)).state = .finished
  · exact Or.inr hf
  · exact Or.inl (h.queue hf)

/-- **C81 (decode stream, blank lines).**  For every blank line taken a record is held from then on, in every document.
Nothing reads the records. -/
theorem C81_blanks (indent : Nat) (strict : Bool) (lines : List Str) (n : Nat) :
    let st := afterN (DecodeStream.poll indent strict) n (DecodeStream.new (F := F) lines)
    ∃ taken, lines = taken ++ st.lines ∧ st.blanks = blankNumbers 1 taken := by
  obtain ⟨t, a, _, c⟩ := (afterN_inv (P := Recorded lines) (poll_inv (indent := indent) (strict := strict) processNext_records) n _
    (new_records (F := F) lines)).taken
  exact ⟨t, a, c⟩

/-- **C81 (flat objects).**  Over blank lines and plain entries no line is ever kept, and never more than two events are
ready, however many lines there are: only the records of blank lines grow. -/
theorem C81_flat (indent : Nat) (strict : Bool) (lines : List Str) (hp : ∀ raw ∈ lines, PlainLine F indent strict raw) (n : Nat) :
    let st := afterN (DecodeStream.poll indent strict) n (DecodeStream.new (F := F) lines)
    st.buffer = [] ∧ st.queue.length ≤ 2 := by
  have h := afterN_inv (P := fun st => Frugal lines.length st ∧ Streaming indent strict st)
    (poll_inv (indent := indent) (strict := strict) processNext_streaming) n _
    ⟨new_frugal (F := F) lines, ⟨by simpa [DecodeStream.new] using hp, by simp [DecodeStream.new], by simp [DecodeStream.new]⟩⟩
  refine ⟨h.1.kept h.2.state, ?_⟩
  by_cases hf : (afterN (DecodeStream.poll indent strict) n (DecodeStream.new (F := F) lines)).state = .finished
  · exact h.2.ended hf
  · exact h.1.queue hf

section
variable (indent : Nat) (strict : Bool) (blanks : List Str) (hb : ∀ l ∈ blanks, BlankLine l) (raw content : Str)
  (h : Header) (hi : Indented indent strict raw content) (hc : Bracketed content) (hh : HeaderMeans content h) (post : List Str)
  (hg : ∀ l ∈ post, BlankLine l ∨ ∃ content, Indented indent strict l content)
include hb hi hc hh hg

private theorem first_poll : ∃ (st : DecodeStream F) (num : Nat),
    (DecodeStream.new (F := F) (blanks ++ raw :: post)).poll indent strict = st.poll indent strict ∧
    AtStage .buffering (raw :: deleteBlank post) num [] st := by
  have key : ∀ (bs : List Str) (num : Nat) (st : DecodeStream F), (∀ l ∈ bs, BlankLine l) → AtStage .start [] num (bs ++ raw :: post) st →
      ∃ (st' : DecodeStream F) (num' : Nat), st.poll indent strict = st'.poll indent strict ∧ AtStage .start [] num' (raw :: post) st' := by
    intro bs
    induction bs with
    | nil => intro num st _ ha; exact ⟨st, num, rfl, ha⟩
    | cons b bs ih =>
      intro num st hb ha
      have h1 := step_blank (indent := indent) (strict := strict) ha (by simp) (hb b (by simp))
      obtain ⟨st', num', h2, h3⟩ := ih (num + 1) { st with lines := bs ++ raw :: post, lineNumber := num + 1, blanks := st.blanks ++ [num + 1] } (fun l hl => hb l (by simp [hl]))
        ⟨rfl, rfl, ha.queue, ha.state, ha.start, by simp, ha.buffer, by simp, ha.exhausted⟩
      refine ⟨st', num', ?_, h3⟩
      rw [← h2]
      exact DecodeStream.poll_skip h1 (by simp only [ha.state]; rfl)
  obtain ⟨st, num, h1, ha⟩ := key blanks 0 _ hb (new_atStage (F := F) (blanks ++ raw :: post))
  obtain ⟨d, h2⟩ := step_line (indent := indent) (strict := strict) ha (by simp) hi
  simp only [DecodeStream.initialLine, asyncHeader_true.mpr ⟨hc, _, hh⟩] at h2
  obtain ⟨st', num', h3, h4⟩ := buffering_rest (F := F) (kept := [raw]) (num := num + 1) (indent := indent) (strict := strict)
    (st := { st with lines := post, lineNumber := num + 1, state := .arrayMode, buffer := st.buffer ++ [raw] })
    ⟨rfl, rfl, ha.queue, rfl, by simp, by simp, by simp [ha.buffer], by simp, ha.exhausted⟩ hg
  refine ⟨st', num', ?_, h4⟩
  rw [h1, ← h3]
  exact DecodeStream.poll_skip h2 rfl

/-- **C81 (arrays are held whole).**  If the first line with text is the header of an array, the first poll takes all lines,
and after it all events of the document but the first are held. -/
theorem C81_array (e : Ev F) (evs : List (Ev F)) (hd : decodeStream indent strict (raw :: deleteBlank post) = .ok (e :: evs)) :
    let res := DecodeStream.poll indent strict (DecodeStream.new (F := F) (blanks ++ raw :: post))
    res.1 = some (.ok e) ∧ res.2.queue = evs ∧ res.2.buffer = [] ∧ res.2.lines = [] := by
  obtain ⟨st, num, h1, ha⟩ := first_poll (F := F) indent strict blanks hb raw content h hi hc hh post hg
  simp only [h1]
  exact buffering_decoded ha hd

/-- **C81 (a faulty array is held for ever).**  If these lines are no document, they are kept, however often the stream is
polled, and every poll reads all of them again to give the same error. -/
theorem C81_array_rejected (e : Err) (hd : decodeStream (F := F) indent strict (raw :: deleteBlank post) = .error e) (n : Nat) :
    let st := afterN (DecodeStream.poll indent strict) (n + 1) (DecodeStream.new (F := F) (blanks ++ raw :: post))
    st.buffer = raw :: deleteBlank post ∧ (st.poll indent strict).1 = some (.error e) := by
  obtain ⟨st, num, h1, ha⟩ := first_poll (F := F) indent strict blanks hb raw content h hi hc hh post hg
  have key : ∀ (n : Nat) (st : DecodeStream F), st.state = .arrayMode → st.lines = [] → st.buffer = raw :: deleteBlank post →
      st.queue = [] → let st' := afterN (DecodeStream.poll indent strict) n st
      st'.buffer = raw :: deleteBlank post ∧ (st'.poll indent strict).1 = some (.error e) := by
    intro n
    induction n with
    | zero => intro st a b c d; exact ⟨c, by rw [afterN, buffering_rejected a b c d hd]⟩
    | succ n ih =>
      intro st a b c d
      rw [afterN, buffering_rejected a b c d hd]
      exact ih _ a b c d
  rw [afterN, h1]
  have := key (n + 1) st ha.state ha.lines ha.buffer ha.queue
  rw [afterN] at this
  exact this

end

/-! ## Cases -/

/-- A document of six values: after four polls two are told as containers and one as a primitive; three are held. -/
example : let st := afterN EventStream.poll 4 (EventStream.new (F := B64) (.obj [("a".toList, .arr [.prim .null, .arr [.prim .null]]), ("b".toList, .prim .null)]))
    st.held = 3 ∧ st.stack.length = 2 := by decide +kernel

/-- Three lines, three events ready after the first one is told. -/
example : let st := (DecodeStream.poll (F := B64) 2 true (DecodeStream.new (["[2]:", "  - x", "  - y"].map String.toList))).2
    st.queue = [.prim (.str "x".toList), .prim (.str "y".toList), .endArr] ∧ st.buffer = [] := by decide +kernel

/-- The same with a wrong count: the lines stay. -/
example : let st := afterN (DecodeStream.poll (F := B64) 2 true) 5 (DecodeStream.new (["[3]:", "  - x", "  - y"].map String.toList))
    st.queue = [] ∧ st.buffer = ["[3]:", "  - x", "  - y"].map String.toList := by decide +kernel

/-- Two events are ready after the start of an object. -/
example : let st := (DecodeStream.poll (F := B64) 2 true (DecodeStream.new (["a: x", "b: y"].map String.toList))).2
    st.queue = [.key "a".toList false, .prim (.str "x".toList)] ∧ st.lines = ["b: y".toList] := by decide +kernel

/-- A nested object is kept with all lines after it, and read when the lines are at an end. -/
example : let st := DecodeStream.new (F := B64) (["a:", "  b: x", "c: y"].map String.toList)
    (afterN (DecodeStream.poll 2 true) 1 st).buffer = ["a:".toList] ∧
    (afterN (DecodeStream.poll 2 true) 2 st).lines = [] ∧ (afterN (DecodeStream.poll 2 true) 2 st).queue.length = 8 := by
  decide +kernel

/-- Three blank lines of four leave three records. -/
example : let st := afterN (DecodeStream.poll (F := B64) 2 true) 5 (DecodeStream.new (["", "a: x", " ", "\t"].map String.toList))
    st.blanks = [1, 3, 4] ∧ st.queue = [] ∧ st.buffer = [] := by decide +kernel

/-- However many such lines there are, they meet the hypothesis of `C81_flat`. -/
example (k : Nat) : ∀ raw ∈ List.replicate k "a: x".toList ++ ["".toList], PlainLine B64 2 true raw := by
  intro raw hr
  simp only [List.mem_append, List.mem_replicate, List.mem_singleton] at hr
  rcases hr with ⟨_, rfl⟩ | rfl
  · right
    refine ⟨("a".toList, false, .str "x".toList), "a: x".toList, " x".toList, ⟨0, rfl, by decide, by decide, by decide⟩, fun h => ?_, ?_, ?_,
      by decide, ?_⟩
    · exact (noHeader_iff _).mp (by decide +kernel)
    · rw [← hyphenSpace_iff]; decide
    · exact .bare (a := "a".toList) (by decide) (by decide)
    · exact (parsePrimitiveToken_iff " x".toList _).mp (by decide +kernel)
  · left; decide

/-- An array under a blank line meets those of `C81_array`. -/
example : let res := DecodeStream.poll (F := B64) 2 true (DecodeStream.new (["".toList] ++ "[2]:".toList :: ["  - x".toList, "".toList, "  - y".toList]))
    res.1 = some (.ok (.startArr 2)) ∧ res.2.queue = [.prim (.str "x".toList), .prim (.str "y".toList), .endArr] ∧ res.2.buffer = [] ∧
      res.2.lines = [] := by
  refine C81_array 2 true _ (by decide) _ "[2]:".toList ⟨none, false, 2, ',', none, none⟩ ⟨0, rfl, by decide, by decide, by decide⟩
    ((isArrayHeaderContent_iff _).mp (by decide +kernel)) ((headerMeans_iff _ _).mp (by decide +kernel)) _ ?_ _ _ (by decide +kernel)
  intro l hl
  simp only [List.mem_cons, List.not_mem_nil, or_false] at hl
  rcases hl with rfl | rfl | rfl
  · exact Or.inr ⟨"- x".toList, 2, rfl, by decide, by decide, by decide⟩
  · left; decide
  · exact Or.inr ⟨"- y".toList, 2, rfl, by decide, by decide, by decide⟩

end Toon
