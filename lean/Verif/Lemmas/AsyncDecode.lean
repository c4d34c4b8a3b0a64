import Verif.Model.AsyncDecode
import Verif.Spec.Flat
import Verif.Lemmas.Decode
import Verif.Lemmas.DecodeAll
import Verif.Lemmas.ScanSim
import Verif.Lemmas.RoundTrip

namespace Toon

variable {F : Type} [F64 F]

/-! ## Sequences of polls -/

omit [F64 F] in
theorem Polls.cons {St Item : Type} {poll : St → Option Item × St} {st st' : St} {x : Item} {xs}
    (h : poll st = (some x, st')) (hr : Polls poll st' xs) : Polls poll st (x :: xs) := by
  intro n
  cases n with
  | zero => rfl
  | succ n => rw [pollN, h, hr n, List.range_succ_eq_map]; simp

omit [F64 F] in
theorem Polls.nil {St Item : Type} {poll : St → Option Item × St} {st : St}
    (h : poll st = (none, st)) : Polls poll st [] := by
  intro n
  induction n with
  | zero => rfl
  | succ n ih => rw [pollN, h, ih, List.range_succ_eq_map]; simp

omit [F64 F] in
theorem Polls.congr {St Item : Type} {poll : St → Option Item × St} {st st' : St} {xs}
    (h : poll st = poll st') (hr : Polls poll st' xs) : Polls poll st xs := by
  intro n
  have := hr n
  cases n with
  | zero => rfl
  | succ n => rw [pollN, h]; exact this

/-! ## One poll -/

variable {indent : Nat} {strict : Bool}

omit [F64 F] in
theorem DecodeStream.pop_none {st st' : DecodeStream F} {o} (h : st.pop = (.ok o, st')) :
    (o = none → st' = st ∧ st.queue = []) ∧ st'.lines = st.lines ∧ st'.state = st.state := by
  unfold DecodeStream.pop at h
  split at h <;> simp only [Prod.mk.injEq, Except.ok.injEq] at h <;> obtain ⟨rfl, rfl⟩ := h
  · rename_i hq; exact ⟨fun _ => ⟨rfl, hq⟩, rfl, rfl⟩
  · exact ⟨by simp, rfl, rfl⟩

theorem DecodeStream.keyValueLine_lines (st : DecodeStream F) (line : Line) (raw : Str) :
    (st.keyValueLine line raw).2.lines = st.lines := by
  unfold DecodeStream.keyValueLine
  simp only
  split
  · rfl
  · split
    · rfl
    · split
      · rfl
      · split <;> rfl

omit [F64 F] in
theorem DecodeStream.closeTo_lines (st : DecodeStream F) (depth base : Nat) :
    (st.closeTo depth base).lines = st.lines := by
  unfold DecodeStream.closeTo
  split
  · rfl
  · split <;> rfl

theorem DecodeStream.finalize_done {st st' : DecodeStream F}
    (h : st.finalize indent strict = (.ok none, st')) : st'.state = .finished ∧ st'.queue = [] := by
  unfold DecodeStream.finalize at h
  split at h
  · unfold DecodeStream.batch at h
    split at h
    · simp at h
    · split at h
      · simp at h
      · obtain ⟨h1, _, h3⟩ := DecodeStream.pop_none h
        obtain ⟨rfl, hq⟩ := h1 rfl
        exact ⟨h3, hq⟩
  · obtain ⟨h1, _, h3⟩ := DecodeStream.pop_none h
    obtain ⟨rfl, hq⟩ := h1 rfl
    exact ⟨h3, hq⟩

/-- A step without an event ends the stream or consumes a line. -/
theorem DecodeStream.processNext_none {st st' : DecodeStream F}
    (h : st.processNext indent strict = (.ok none, st')) :
    (st'.state = .finished ∧ st'.queue = []) ∨ st'.lines.length + 1 = st.lines.length := by
  unfold DecodeStream.processNext at h
  split at h
  · simp at h
  · rename_i hq
    split at h
    · rename_i hf
      simp only [Prod.mk.injEq, Except.ok.injEq, true_and] at h
      subst h; exact Or.inl ⟨hf, hq⟩
    · split at h
      · exact Or.inl (DecodeStream.finalize_done h)
      · split at h
        · exact Or.inl (DecodeStream.finalize_done h)
        · rename_i raw rest hl
          refine Or.inr ?_
          rw [hl, List.length_cons]
          simp only at h
          split at h
          · simp at h
          · simp only [Prod.mk.injEq, Except.ok.injEq, true_and] at h
            subst h; rfl
          · split at h
            · unfold DecodeStream.initialLine at h
              split at h
              · simp at h
              · simp only [Prod.mk.injEq, true_and] at h; subst h; rfl
              · split at h
                · simp only at h
                  split at h
                  · simp at h
                  · rename_i st2 hk
                    have := (DecodeStream.pop_none h).2.1
                    rw [this]
                    have hl2 := congrArg (fun x => x.2.lines.length) hk
                    simp only [DecodeStream.keyValueLine_lines] at hl2
                    exact hl2 ▸ rfl
                · simp only at h
                  split at h <;> simp at h
            · unfold DecodeStream.objectLine at h
              simp only at h
              split at h
              · simp at h
              · rw [(DecodeStream.pop_none h).2.1]
                simp only [DecodeStream.closeTo_lines]
              · split at h
                · simp at h
                · rename_i st2 hk
                  rw [(DecodeStream.pop_none h).2.1]
                  have hl2 := congrArg (fun x => x.2.lines.length) hk
                  simp only [DecodeStream.keyValueLine_lines, DecodeStream.closeTo_lines] at hl2
                  exact hl2 ▸ rfl
            · simp only [Prod.mk.injEq, true_and] at h; subst h; rfl
            · simp only [Prod.mk.injEq, true_and] at h; subst h; rfl

/-! ## The poll loop -/

theorem DecodeStream.pollLoop_some : ∀ fuel (st : DecodeStream F), st.lines.length + 2 ≤ fuel →
    ∃ x, DecodeStream.pollLoop indent strict fuel st = some x
  | fuel + 1, st, hf => by
    rw [DecodeStream.pollLoop]
    rcases hp : st.processNext indent strict with ⟨e | _ | e, st'⟩
    · exact ⟨_, rfl⟩
    · simp only
      split
      · exact ⟨_, rfl⟩
      · rename_i hn
        rcases DecodeStream.processNext_none hp with ⟨h1, h2⟩ | h
        · simp [h1, h2] at hn
        · exact DecodeStream.pollLoop_some fuel st' (by omega)
    · exact ⟨_, rfl⟩

theorem DecodeStream.pollLoop_succ : ∀ fuel (st : DecodeStream F) x,
    DecodeStream.pollLoop indent strict fuel st = some x →
    DecodeStream.pollLoop indent strict (fuel + 1) st = some x
  | 0, _, _, h => by simp [DecodeStream.pollLoop] at h
  | fuel + 1, st, x, h => by
    rw [DecodeStream.pollLoop] at h ⊢
    rcases hp : st.processNext indent strict with ⟨e | _ | e, st'⟩ <;> simp only [hp] at h ⊢
    · exact h
    · split
      · rename_i hn; rw [if_pos hn] at h; exact h
      · rename_i hn; rw [if_neg hn] at h; exact DecodeStream.pollLoop_succ fuel st' x h
    · exact h

theorem DecodeStream.pollLoop_eq {fuel : Nat} {st : DecodeStream F} {x}
    (h : DecodeStream.pollLoop indent strict fuel st = some x) : st.poll indent strict = x := by
  obtain ⟨y, hy⟩ := DecodeStream.pollLoop_some (indent := indent) (strict := strict)
    (st.lines.length + 3) st (by omega)
  have mono : ∀ k n x, DecodeStream.pollLoop indent strict n st = some x →
      DecodeStream.pollLoop indent strict (n + k) st = some x := by
    intro k
    induction k with
    | zero => exact fun n x h => h
    | succ k ih => exact fun n x h => DecodeStream.pollLoop_succ _ _ _ (ih n x h)
  have h1 := mono (st.lines.length + 3) _ _ h
  have h2 := mono fuel _ _ hy
  rw [Nat.add_comm fuel] at h1
  rw [h1] at h2
  unfold DecodeStream.poll
  rw [hy]
  exact (Option.some.inj h2).symm ▸ rfl

theorem DecodeStream.poll_event {st st' : DecodeStream F} {e}
    (h : st.processNext indent strict = (.ok (some e), st')) :
    st.poll indent strict = (some (.ok e), st') :=
  DecodeStream.pollLoop_eq (fuel := 1) (by rw [DecodeStream.pollLoop]; simp only [h])

theorem DecodeStream.poll_error {st st' : DecodeStream F} {e}
    (h : st.processNext indent strict = (.error e, st')) :
    st.poll indent strict = (some (.error e), st') :=
  DecodeStream.pollLoop_eq (fuel := 1) (by rw [DecodeStream.pollLoop]; simp only [h])

theorem DecodeStream.poll_skip {st st' : DecodeStream F}
    (h : st.processNext indent strict = (.ok none, st'))
    (hn : (st'.state == .finished && st'.queue.isEmpty) = false) :
    st.poll indent strict = st'.poll indent strict := by
  obtain ⟨y, hy⟩ := DecodeStream.pollLoop_some (indent := indent) (strict := strict)
    (st'.lines.length + 3) st' (by omega)
  rw [DecodeStream.pollLoop_eq hy]
  refine DecodeStream.pollLoop_eq (fuel := st'.lines.length + 4) ?_
  rw [DecodeStream.pollLoop]
  simp only [h, hn]
  exact hy

theorem DecodeStream.poll_done {st st' : DecodeStream F}
    (h : st.processNext indent strict = (.ok none, st'))
    (hn : (st'.state == .finished && st'.queue.isEmpty) = true) :
    st.poll indent strict = (none, st') :=
  DecodeStream.pollLoop_eq (fuel := 1) (by rw [DecodeStream.pollLoop]; simp only [h, hn, if_true])

/-- A finished stream gives its queue and then nothing. -/
theorem DecodeStream.polls_finished : ∀ (q : List (Ev F)) (st : DecodeStream F), st.state = .finished →
    st.queue = q → Polls (DecodeStream.poll indent strict) st (q.map .ok)
  | [], st, hf, hq => by
    refine Polls.nil (DecodeStream.poll_done ?_ ?_)
    · unfold DecodeStream.processNext; simp only [hq, hf, if_true]
    · simp [hf, hq]
  | e :: q, st, hf, hq => by
    refine Polls.cons (st' := { st with queue := q }) (DecodeStream.poll_event ?_)
      (DecodeStream.polls_finished q _ hf rfl)
    unfold DecodeStream.processNext; simp only [hq]

/-- Queued events come first. -/
theorem DecodeStream.polls_queue : ∀ (q : List (Ev F)) (st : DecodeStream F) (xs), st.queue = q →
    Polls (DecodeStream.poll indent strict) { st with queue := [] } xs →
    Polls (DecodeStream.poll indent strict) st (q.map .ok ++ xs)
  | [], st, xs, hq, h => by
    have : { st with queue := [] } = st := by cases st; simp_all
    rw [this] at h; exact h
  | e :: q, st, xs, hq, h => by
    refine Polls.cons (st' := { st with queue := q }) (DecodeStream.poll_event ?_)
      (DecodeStream.polls_queue q _ xs rfl h)
    unfold DecodeStream.processNext; simp only [hq]

/-! ## Flat lines -/

/-- What both decoders need to know about a flat line. -/
structure FlatInfo (indent : Nat) (strict : Bool) (l : Str) (key : Str) (q : Bool) (p : Prim F) : Prop where
  scan : ∀ n, parseLine l n indent strict = .ok (.line ⟨0, l, n⟩)
  keyLine : KeyLine l
  kv : ∀ ctx fuel cur base, decodeKV (F := F) ctx (fuel + 1) l cur base = .ok ([.key key q, .prim p], cur)
  async : ∀ (st : DecodeStream F) (d n : Nat) (raw : Str), st.keyValueLine ⟨d, l, n⟩ raw =
    (.ok (), { st with queue := st.queue ++ [.key key q] ++ [.prim p] })

theorem parseLine_key (key text : Str) (n indent : Nat) (strict : Bool) :
    parseLine (encodeKey key ++ ':' :: text) n indent strict =
      .ok (.line ⟨0, encodeKey key ++ ':' :: text, n⟩) := by
  have hk := keyLine_colon key text
  obtain ⟨c, r, hc, hw, _, _, hs⟩ := encodeKey_head_cases key
  have ht : c ≠ '\t' := by rintro rfl; revert hw; decide
  have h1 : (encodeKey key ++ ':' :: text).takeWhile (· == ' ') = [] := by
    rw [hc]; simp [hs]
  have h2 : (encodeKey key ++ ':' :: text).takeWhile (fun c => c == ' ' || c == '\t') = [] := by
    rw [hc]; simp [hs, ht]
  unfold parseLine
  simp only [h1, h2, List.length_nil, List.drop_zero, hk.ne, computeDepth]
  simp

/-- The events of an array start with its start event. -/
theorem decodeArray_head {ctx : Ctx} {fuel : Nat} {h : Header} {cur cur' : Cur} {base : Nat} {evs : List (Ev F)}
    (ha : decodeArray ctx fuel h cur base = .ok (evs, cur')) : ∃ n r, evs = .startArr n :: r := by
  cases fuel with
  | zero => rw [decodeArray] at ha; simp at ha
  | succ f =>
    rw [decodeArray] at ha
    split at ha
    · obtain ⟨x, _, hx⟩ := bind_ok.mp ha
      cases hx; exact ⟨_, _, rfl⟩
    · split at ha
      · obtain ⟨x, _, hx⟩ := bind_ok.mp ha
        obtain ⟨_, _, hx⟩ := bind_ok.mp hx
        obtain ⟨_, _, hx⟩ := bind_ok.mp hx
        obtain ⟨_, _, hx⟩ := bind_ok.mp hx
        cases hx; exact ⟨_, _, rfl⟩
      · obtain ⟨x, _, hx⟩ := bind_ok.mp ha
        cases hx; exact ⟨_, _, rfl⟩

theorem flatInfo {l : Str} (h : FlatLine F indent strict l) :
    ∃ key q p, FlatInfo (F := F) indent strict l key q p := by
  obtain ⟨key, text, rfl, q, p, hd⟩ := h
  have hk := keyLine_colon key text
  have hscan := fun n => parseLine_key key text n indent strict
  unfold decodeStream at hd
  simp only [parseLines, hscan, bind, Except.bind, decodeLines, rootHeader, hk.arr, Bool.false_eq_true,
    if_false, List.isEmpty_nil, hk.kvl, Bool.not_true, Bool.and_false, List.length_cons, List.length_nil] at hd
  generalize hf : 5 * (0 + 1) + 5 = f at hd
  cases f with
  | zero => omega
  | succ f =>
    rw [decodeKV] at hd
    cases hh : parseArrayHeaderLine (encodeKey key ++ ':' :: text) ',' with
    | error e => simp [hh, bind, Except.bind] at hd
    | ok hdr =>
      simp only [hh, bind, Except.bind] at hd
      cases hkd : keyedHeader hdr with
      | some kh =>
        obtain ⟨k, h⟩ := kh
        simp only [hkd] at hd
        exfalso
        cases f with
        | zero => omega
        | succ f =>
          rcases ha : decodeArray (F := F) ⟨strict, []⟩ (f + 1) h
            ⟨[], some ⟨0, encodeKey key ++ ':' :: text, 0 + 1⟩⟩ 0 with e | ⟨evs, cur⟩
          · simp [ha] at hd
          · obtain ⟨n, r, rfl⟩ := decodeArray_head ha
            simp only [ha, pure, Except.pure] at hd
            split at hd
            · simp at hd
            · simp at hd
      | none =>
        simp only [hkd, parseKeyToken_encode, drop_keyColon] at hd
        by_cases hr : (trim text).isEmpty = true
        · simp only [hr, if_true, pure, Except.pure] at hd
          split at hd <;> simp at hd
        · rw [if_neg hr] at hd
          cases hp : parsePrimitiveToken (F := F) (trim text) with
          | error e => simp [hp] at hd
          | ok p' =>
            refine ⟨key, !isValidUnquotedKey key, p', hscan, hk, ?_, ?_⟩
            · intro ctx fuel cur base
              rw [decodeKV]
              simp only [hh, bind, Except.bind, hkd, parseKeyToken_encode, drop_keyColon, if_neg hr, hp]
              rfl
            · intro st d n raw
              unfold DecodeStream.keyValueLine
              simp only [hk.dash, Bool.false_eq_true, if_false, parseKeyToken_encode, drop_keyColon, if_neg hr, hp]

/-! ## Flat documents -/

/-- The events of the flat lines of a document. -/
inductive FlatDoc (indent : Nat) (strict : Bool) : List Str → List (Ev F) → Prop
  | nil : FlatDoc indent strict [] []
  | blank {l ls evs} : BlankLine l → FlatDoc indent strict ls evs → FlatDoc indent strict (l :: ls) evs
  | line {l ls evs key q p} : FlatInfo indent strict l key q p → FlatDoc indent strict ls evs →
      FlatDoc indent strict (l :: ls) (.key key q :: .prim p :: evs)

theorem flatDoc_of {lines : List Str} (h : ∀ l ∈ lines, BlankLine l ∨ FlatLine F indent strict l) :
    ∃ evs, FlatDoc (F := F) indent strict lines evs := by
  induction lines with
  | nil => exact ⟨_, .nil⟩
  | cons l ls ih =>
    obtain ⟨evs, he⟩ := ih (fun l hl => h l (List.mem_cons_of_mem _ hl))
    rcases h l (List.mem_cons_self ..) with hb | hf
    · exact ⟨_, .blank hb he⟩
    · obtain ⟨_, _, _, hi⟩ := flatInfo hf
      exact ⟨_, .line hi he⟩

/-- Scanned flat lines. -/
inductive FlatLines : List Line → List (Ev F) → Prop
  | nil : FlatLines [] []
  | cons {l : Line} {ls evs key q p} : l.depth = 0 → KeyLine l.content →
      (∀ ctx fuel cur base, decodeKV (F := F) ctx (fuel + 1) l.content cur base = .ok ([.key key q, .prim p], cur)) →
      FlatLines ls evs → FlatLines (l :: ls) (.key key q :: .prim p :: evs)

theorem parseLines_flat {lines : List Str} {evs : List (Ev F)} (h : FlatDoc indent strict lines evs) :
    ∀ n, ∃ ls bs, parseLines indent strict lines n = .ok (ls, bs) ∧ FlatLines ls evs := by
  induction h with
  | nil => intro n; exact ⟨[], [], rfl, .nil⟩
  | blank hb _ ih =>
    intro n
    obtain ⟨ls, bs, h1, h2⟩ := ih (n + 1)
    refine ⟨ls, (n + 1) :: bs, ?_, h2⟩
    rw [parseLines, parseLine_blank hb]
    simp only [h1]
  | @line l _ _ _ _ _ hi _ ih =>
    intro n
    obtain ⟨ls, bs, h1, h2⟩ := ih (n + 1)
    refine ⟨⟨0, l, n + 1⟩ :: ls, bs, ?_, .cons rfl hi.keyLine hi.kv h2⟩
    rw [parseLines, hi.scan]
    simp only [h1]
  
theorem rootLoop_flat {ctx : Ctx} {ls : List Line} {evs : List (Ev F)} (h : FlatLines ls evs) :
    ∀ fuel last, ls.length + 2 ≤ fuel → ∃ last', rootLoop ctx fuel ⟨ls, last⟩ = .ok (evs, ⟨[], last'⟩) := by
  induction h with
  | nil =>
    intro fuel last hf
    cases fuel with
    | zero => omega
    | succ f => exact ⟨last, rfl⟩
  | @cons l ls evs key q p hd _ hkv _ ih =>
    intro fuel last hf
    rcases fuel with _ | _ | f
    · simp at hf
    · simp at hf
    · obtain ⟨last', h'⟩ := ih (f + 1) (some l) (by simp at hf; omega)
      refine ⟨last', ?_⟩
      rw [rootLoop]
      simp only [hd, ne_eq, not_true_eq_false, if_false, hkv, bind, Except.bind, h']
      rfl

theorem decodeStream_flat {lines : List Str} {evs : List (Ev F)} (h : FlatDoc indent strict lines evs) :
    decodeStream (F := F) indent strict lines = .ok (.startObj :: evs ++ [.endObj]) := by
  obtain ⟨ls, bs, h1, h2⟩ := parseLines_flat h 0
  unfold decodeStream
  simp only [h1, bind, Except.bind]
  cases h2 with
  | nil => rfl
  | @cons l ls evs key q p hd hk hkv hrest =>
    obtain ⟨last', h'⟩ := rootLoop_flat (ctx := ⟨strict, bs⟩) hrest (5 * (ls.length + 1) + 5) (some l) (by omega)
    simp only [decodeLines, rootHeader, hk.arr, Bool.false_eq_true, if_false, bind, Except.bind, hk.kvl,
      Bool.not_true, Bool.and_false, hkv, List.length_cons, h']
    rfl

theorem asyncIsKeyValueLine_of {c : Str} (h : KeyLine c) : asyncIsKeyValueLine c = true := by
  have := h.kvl
  unfold isKeyValueLine at this
  unfold asyncIsKeyValueLine
  rw [if_neg (by simp [h.dash])]
  split
  · rename_i hq; rw [if_pos hq] at this; exact this
  · rename_i hq; rw [if_neg hq] at this; rw [this, h.kv]; rfl

theorem asyncHeader_of {c : Str} (h : KeyLine c) : asyncHeader c = .ok false := by
  unfold asyncHeader; simp [h.arr]

/-- The state inside a flat object. -/
def flatState (lines : List Str) (n : Nat) (bl : List Nat) : DecodeStream F :=
  { lines, lineNumber := n, queue := [], state := .simpleObject 0, contexts := [0], buffer := [],
    exhausted := false, lastDepth := some 0, blanks := bl }

theorem polls_flatState {lines : List Str} {evs : List (Ev F)} (h : FlatDoc indent strict lines evs) :
    ∀ n bl, Polls (DecodeStream.poll indent strict) (flatState lines n bl) ((evs ++ [Ev.endObj]).map Except.ok) := by
  induction h with
  | nil =>
    intro n bl
    refine Polls.cons (DecodeStream.poll_event (e := .endObj) (st' := ?_) ?_) (DecodeStream.polls_finished [] _ ?_ ?_)
    rotate_left
    · rfl
    · rfl
    · rfl
  | blank hb _ ih =>
    intro n bl
    refine Polls.congr (DecodeStream.poll_skip (st' := flatState _ (n + 1) (bl ++ [n + 1])) ?_ ?_) (ih (n + 1) _)
    · simp [DecodeStream.processNext, flatState, parseLine_blank hb]
    · rfl
  | @line l ls evs key q p hi _ ih =>
    intro n bl
    refine Polls.cons (DecodeStream.poll_event (e := .key key q)
      (st' := { flatState (F := F) ls (n + 1) bl with queue := [.prim p] }) ?_) ?_
    · simp [DecodeStream.processNext, flatState, hi.scan, DecodeStream.objectLine,
        DecodeStream.closeTo, asyncHeader_of hi.keyLine, hi.async, DecodeStream.pop]
    · exact DecodeStream.polls_queue [.prim p] _ _ rfl (ih (n + 1) _)

/-- The state before the first content line. -/
def initState (lines : List Str) (n : Nat) (bl : List Nat) : DecodeStream F :=
  { lines, lineNumber := n, queue := [], state := .initial, contexts := [], buffer := [],
    exhausted := false, lastDepth := none, blanks := bl }

theorem polls_initState {lines : List Str} {evs : List (Ev F)} (h : FlatDoc indent strict lines evs) :
    ∀ n bl, Polls (DecodeStream.poll indent strict) (initState lines n bl) ((Ev.startObj :: evs ++ [Ev.endObj]).map Except.ok) := by
  induction h with
  | nil =>
    intro n bl
    refine Polls.cons (DecodeStream.poll_event (e := .startObj) (st' := ?_) ?_)
      (DecodeStream.polls_finished [.endObj] _ ?_ ?_)
    rotate_left
    · rfl
    · rfl
    · rfl
  | blank hb _ ih =>
    intro n bl
    refine Polls.congr (DecodeStream.poll_skip (st' := initState _ (n + 1) (bl ++ [n + 1])) ?_ ?_) (ih (n + 1) _)
    · simp [DecodeStream.processNext, initState, parseLine_blank hb]
    · rfl
  | @line l ls evs key q p hi hrest _ =>
    intro n bl
    refine Polls.cons (DecodeStream.poll_event (e := .startObj)
      (st' := { flatState (F := F) ls (n + 1) bl with queue := [.key key q, .prim p] }) ?_) ?_
    · simp [DecodeStream.processNext, initState, flatState, hi.scan, DecodeStream.initialLine,
        asyncHeader_of hi.keyLine, asyncIsKeyValueLine_of hi.keyLine, hi.async, DecodeStream.pop]
    · exact DecodeStream.polls_queue [.key key q, .prim p] _ _ rfl (polls_flatState hrest (n + 1) bl)

/-! ## Buffered documents -/

/-- The line scans without an error. -/
def ScanOk (indent : Nat) (strict : Bool) (l : Str) : Prop := ∀ n, ∃ sc, parseLine l n indent strict = .ok sc

theorem parseLines_scanOk {lines : List Str} : ∀ {n out}, parseLines indent strict lines n = .ok out →
    ∀ l ∈ lines, ScanOk indent strict l := by
  induction lines with
  | nil => intro n out _ l hl; simp at hl
  | cons raw rest ih =>
    intro n out h l hl
    rw [parseLines] at h
    rcases hp : parseLine raw (n + 1) indent strict with e | sc
    · simp [hp] at h
    · simp only [hp] at h
      rcases hq : parseLines indent strict rest (n + 1) with e | out'
      · simp [hq] at h
      · rcases List.mem_cons.mp hl with rfl | hl
        · intro m
          by_cases hb : BlankLine l
          · exact ⟨_, parseLine_blank hb ..⟩
          · rcases parseLine_content hb indent strict with ⟨d, c, hc⟩ | ⟨_, hc⟩
            · exact ⟨_, hc m⟩
            · obtain ⟨e, he⟩ := hc (n + 1); rw [he] at hp; simp at hp
        · exact ih hq l hl

theorem decodeStream_scanOk {lines : List Str} {evs : List (Ev F)} (h : decodeStream indent strict lines = .ok evs) :
    ∀ l ∈ lines, ScanOk indent strict l := by
  unfold decodeStream at h
  obtain ⟨⟨ls, bs⟩, h1, _⟩ := bind_ok.mp h
  exact parseLines_scanOk h1

omit [F64 F] in
theorem Polls.nil' {St Item : Type} {poll : St → Option Item × St} {st st' : St}
    (h : poll st = (none, st')) (hr : Polls poll st' []) : Polls poll st [] := by
  intro n
  cases n with
  | zero => rfl
  | succ n => rw [pollN, h, hr n, List.range_succ_eq_map]; simp

/-- The state while lines are collected. -/
def bufState (buffer : List Str) (ctx : List Nat) (last : Option Nat) (lines : List Str) (n : Nat) (bl : List Nat) : DecodeStream F :=
  { lines, lineNumber := n, queue := [], state := .arrayMode, contexts := ctx, buffer,
    exhausted := false, lastDepth := last, blanks := bl }

theorem scanOk_line {l : Str} (hs : ScanOk indent strict l) (hb : ¬ BlankLine l) (n : Nat) :
    ∃ d c, parseLine l n indent strict = .ok (.line ⟨d, c, n⟩) := by
  rcases parseLine_content hb indent strict with ⟨d, c, hc⟩ | ⟨_, hc⟩
  · exact ⟨d, c, hc n⟩
  · obtain ⟨e, he⟩ := hc n
    obtain ⟨sc, h⟩ := hs n
    rw [he] at h; simp at h

theorem polls_bufState {lines : List Str} (hs : ∀ l ∈ lines, ScanOk indent strict l) :
    ∀ buffer ctx last n bl (evs : List (Ev F)), decodeStream indent strict (buffer ++ deleteBlank lines) = .ok evs →
      Polls (DecodeStream.poll indent strict) (bufState buffer ctx last lines n bl) (evs.map Except.ok) := by
  induction lines with
  | nil =>
    intro buffer ctx last n bl evs h
    simp only [deleteBlank, List.filter_nil, List.append_nil] at h
    cases evs with
    | nil =>
      refine Polls.nil' (DecodeStream.poll_done (st' := ?_) ?_ ?_) (DecodeStream.polls_finished [] _ ?_ ?_)
      rotate_left
      · simp [DecodeStream.processNext, bufState, DecodeStream.finalize, DecodeStream.batch,
          DecodeStream.drain, h, DecodeStream.pop]
        rfl
      · rfl
      · rfl
      · rfl
    | cons e evs =>
      refine Polls.cons (DecodeStream.poll_event (st' := ?_) ?_) (DecodeStream.polls_finished evs _ ?_ ?_)
      rotate_left
      · simp [DecodeStream.processNext, bufState, DecodeStream.finalize, DecodeStream.batch,
          DecodeStream.drain, h, DecodeStream.pop]
        rfl
      · rfl
      · rfl
  | cons raw rest ih =>
    intro buffer ctx last n bl evs h
    have hs' := fun l hl => hs l (List.mem_cons_of_mem _ hl)
    by_cases hb : BlankLine raw
    · have hd : deleteBlank (raw :: rest) = deleteBlank rest := by simp [deleteBlank, hb]
      rw [hd] at h
      refine Polls.congr (DecodeStream.poll_skip (st' := bufState buffer ctx last rest (n + 1) (bl ++ [n + 1])) ?_ rfl)
        (ih hs' _ _ _ _ _ _ h)
      simp [DecodeStream.processNext, bufState, parseLine_blank hb]
    · have hd : deleteBlank (raw :: rest) = raw :: deleteBlank rest := by simp [deleteBlank, hb]
      rw [hd, List.append_cons] at h
      obtain ⟨d, c, hc⟩ := scanOk_line (hs raw (List.mem_cons_self ..)) hb (n + 1)
      refine Polls.congr (DecodeStream.poll_skip (st' := bufState (buffer ++ [raw]) ctx last rest (n + 1) bl) ?_ rfl)
        (ih hs' _ _ _ _ _ _ h)
      simp [DecodeStream.processNext, bufState, hc]

/-- Every poll gives the same error. -/
def ErrorForever (poll : DecodeStream F → Option (Except Err (Ev F)) × DecodeStream F) (st : DecodeStream F) (e : Err) :
    Prop := ∀ n, pollN poll n st = List.replicate n (some (.error e))

theorem errorForever_bufState {lines : List Str} (hs : ∀ l ∈ lines, ScanOk indent strict l) :
    ∀ buffer ctx last n bl (e : Err), decodeStream (F := F) indent strict (buffer ++ deleteBlank lines) = .error e →
      ErrorForever (F := F) (DecodeStream.poll indent strict) (bufState buffer ctx last lines n bl) e := by
  induction lines with
  | nil =>
    intro buffer ctx last n bl e h
    simp only [deleteBlank, List.filter_nil, List.append_nil] at h
    have h1 : (bufState (F := F) buffer ctx last [] n bl).poll indent strict =
        (some (.error e), { bufState buffer ctx last [] n bl with exhausted := true }) := by
      refine DecodeStream.poll_error ?_
      simp [DecodeStream.processNext, bufState, DecodeStream.finalize, DecodeStream.batch,
          DecodeStream.drain, h]
    have h2 : DecodeStream.poll indent strict ({ bufState (F := F) buffer ctx last [] n bl with exhausted := true }) =
        (some (.error e), { bufState buffer ctx last [] n bl with exhausted := true }) := by
      refine DecodeStream.poll_error ?_
      simp [DecodeStream.processNext, bufState, DecodeStream.finalize, DecodeStream.batch,
          DecodeStream.drain, h]
    have h3 : ErrorForever (F := F) (DecodeStream.poll indent strict) ({ bufState buffer ctx last [] n bl with exhausted := true }) e := by
      intro m
      induction m with
      | zero => rfl
      | succ m ih => rw [pollN, h2, ih]; rfl
    intro m
    cases m with
    | zero => rfl
    | succ m => rw [pollN, h1, h3 m]; rfl
  | cons raw rest ih =>
    intro buffer ctx last n bl e h
    have hs' := fun l hl => hs l (List.mem_cons_of_mem _ hl)
    have congr : ∀ {st st' : DecodeStream F}, st.poll indent strict = st'.poll indent strict →
        ErrorForever (F := F) (DecodeStream.poll indent strict) st' e →
        ErrorForever (DecodeStream.poll indent strict) st e := by
      intro st st' h1 h2 m
      have := h2 m
      cases m with
      | zero => rfl
      | succ m => rw [pollN, h1]; exact this
    by_cases hb : BlankLine raw
    · have hd : deleteBlank (raw :: rest) = deleteBlank rest := by simp [deleteBlank, hb]
      rw [hd] at h
      refine congr (DecodeStream.poll_skip (st' := bufState buffer ctx last rest (n + 1) (bl ++ [n + 1])) ?_ rfl)
        (ih hs' _ _ _ _ _ _ h)
      simp [DecodeStream.processNext, bufState, parseLine_blank hb]
    · have hd : deleteBlank (raw :: rest) = raw :: deleteBlank rest := by simp [deleteBlank, hb]
      rw [hd, List.append_cons] at h
      obtain ⟨d, c, hc⟩ := scanOk_line (hs raw (List.mem_cons_self ..)) hb (n + 1)
      refine congr (DecodeStream.poll_skip (st' := bufState (buffer ++ [raw]) ctx last rest (n + 1) bl) ?_ rfl)
        (ih hs' _ _ _ _ _ _ h)
      simp [DecodeStream.processNext, bufState, hc]

/-! ## Root arrays and root primitives -/

/-- Leading blank lines. -/
theorem poll_initState_blank {raw : Str} (hb : BlankLine raw) (rest : List Str) (n : Nat) (bl : List Nat) :
    (initState (F := F) (raw :: rest) n bl).poll indent strict = (initState rest (n + 1) (bl ++ [n + 1])).poll indent strict := by
  refine DecodeStream.poll_skip ?_ rfl
  simp [DecodeStream.processNext, initState, parseLine_blank hb]

/-- A root array header switches to collecting lines. -/
theorem poll_initState_header {raw c : Str} {d : Nat} (hp : parseLine raw (n + 1) indent strict = .ok (.line ⟨d, c, n + 1⟩))
    (hh : asyncHeader c = .ok true) (rest : List Str) (bl : List Nat) :
    (initState (F := F) (raw :: rest) n bl).poll indent strict = (bufState [raw] [] none rest (n + 1) bl).poll indent strict := by
  refine DecodeStream.poll_skip ?_ rfl
  simp [DecodeStream.processNext, initState, bufState, hp, DecodeStream.initialLine, hh]

/-- What the first event tells about the first line. -/
theorem decodeStream_first {l : Str} {ls : List Str} (hb : ¬ BlankLine l) {evs : List (Ev F)}
    (h : decodeStream indent strict (l :: ls) = .ok evs) :
    ∃ d c, (∀ n, parseLine l n indent strict = .ok (.line ⟨d, c, n⟩)) ∧
      ((∃ k, evs.head? = some (.startArr k)) → asyncHeader c = .ok true) ∧
      (∀ p, evs = [.prim p] → asyncHeader c = .ok false ∧ isKeyValueLine c = false ∧
        parsePrimitiveToken (F := F) (trim c) = .ok p) := by
  have hs := decodeStream_scanOk h l (List.mem_cons_self ..)
  rcases parseLine_content hb indent strict with ⟨d, c, hc⟩ | ⟨_, hc⟩
  · refine ⟨d, c, hc, ?_⟩
    unfold decodeStream at h
    rw [parseLines, hc] at h
    obtain ⟨⟨ls', bs⟩, h1, h⟩ := bind_ok.mp h
    rcases hq : parseLines indent strict ls (0 + 1) with e | ⟨ls1, bs1⟩
    · simp [hq] at h1
    · simp only [hq, Except.ok.injEq, Prod.mk.injEq] at h1
      obtain ⟨rfl, rfl⟩ := h1
      simp only [decodeLines] at h
      obtain ⟨hdr, hh, h⟩ := bind_ok.mp h
      cases hdr with
      | some hd =>
        obtain ⟨⟨evs', cur⟩, ha, h⟩ := bind_ok.mp h
        cases h
        obtain ⟨k, r, rfl⟩ := decodeArray_head ha
        refine ⟨fun _ => ?_, fun p hp => by simp at hp⟩
        unfold rootHeader at hh
        unfold asyncHeader
        split at hh
        · rename_i hi; rw [if_pos hi, hh]; rfl
        · simp at hh
      | none =>
        have hah : asyncHeader c = .ok false := by
          unfold rootHeader at hh
          unfold asyncHeader
          split at hh
          · rename_i hi; rw [if_pos hi, hh]; rfl
          · rename_i hi; rw [if_neg hi]
        simp only at h
        split at h
        · rename_i hc
          obtain ⟨p, hp, h⟩ := bind_ok.mp h
          cases h
          refine ⟨fun ⟨k, hk⟩ => by simp at hk, fun p' hp' => ?_⟩
          simp only [List.cons.injEq, Ev.prim.injEq, and_true] at hp'
          subst hp'
          exact ⟨hah, by simp only [Bool.and_eq_true, Bool.not_eq_true'] at hc; exact hc.2, hp⟩
        · obtain ⟨x, _, h⟩ := bind_ok.mp h
          obtain ⟨y, _, h⟩ := bind_ok.mp h
          cases h
          exact ⟨fun ⟨k, hk⟩ => by simp at hk, fun p' hp' => by simp at hp'⟩
  · obtain ⟨e, he⟩ := hc 0
    obtain ⟨sc, h'⟩ := hs 0
    rw [he] at h'; simp at h'

theorem polls_root_array {lines : List Str} {evs : List (Ev F)} :
    ∀ n bl, decodeStream indent strict (deleteBlank lines) = .ok evs → (∀ l ∈ lines, ScanOk indent strict l) →
      (∃ k, evs.head? = some (.startArr k)) →
      Polls (DecodeStream.poll indent strict) (initState lines n bl) (evs.map Except.ok) := by
  induction lines with
  | nil =>
    intro n bl h _ hk
    cases h
    obtain ⟨k, hk⟩ := hk; simp at hk
  | cons raw rest ih =>
    intro n bl h hs hk
    have hs' := fun l hl => hs l (List.mem_cons_of_mem _ hl)
    by_cases hb : BlankLine raw
    · rw [show deleteBlank (raw :: rest) = deleteBlank rest by simp [deleteBlank, hb]] at h
      exact Polls.congr (poll_initState_blank hb rest n bl) (ih (n + 1) _ h hs' hk)
    · rw [show deleteBlank (raw :: rest) = raw :: deleteBlank rest by simp [deleteBlank, hb]] at h
      obtain ⟨d, c, hp, hh, _⟩ := decodeStream_first hb h
      exact Polls.congr (poll_initState_header (hp _) (hh hk) rest _) (polls_bufState hs' [raw] _ _ _ _ _ h)

theorem error_root_array {lines : List Str} {e : Err} {first : Str} (hf : (deleteBlank lines).head? = some first)
    (ha : ∃ c, (∀ n, ∃ d, parseLine first n indent strict = .ok (.line ⟨d, c, n⟩)) ∧ asyncHeader c = .ok true) :
    ∀ n bl, decodeStream (F := F) indent strict (deleteBlank lines) = .error e → (∀ l ∈ lines, ScanOk indent strict l) →
      ErrorForever (F := F) (DecodeStream.poll indent strict) (initState lines n bl) e := by
  have congr : ∀ {st st' : DecodeStream F}, st.poll indent strict = st'.poll indent strict →
      ErrorForever (F := F) (DecodeStream.poll indent strict) st' e →
      ErrorForever (DecodeStream.poll indent strict) st e := by
    intro st st' h1 h2 m
    have := h2 m
    cases m with
    | zero => rfl
    | succ m => rw [pollN, h1]; exact this
  induction lines with
  | nil => simp [deleteBlank] at hf
  | cons raw rest ih =>
    intro n bl h hs
    have hs' := fun l hl => hs l (List.mem_cons_of_mem _ hl)
    by_cases hb : BlankLine raw
    · rw [show deleteBlank (raw :: rest) = deleteBlank rest by simp [deleteBlank, hb]] at h hf
      exact congr (poll_initState_blank hb rest n bl) (ih hf (n + 1) _ h hs')
    · rw [show deleteBlank (raw :: rest) = raw :: deleteBlank rest by simp [deleteBlank, hb]] at h hf
      simp only [List.head?_cons, Option.some.injEq] at hf
      subst hf
      obtain ⟨c, hp, hh⟩ := ha
      obtain ⟨d, hp⟩ := hp (n + 1)
      exact congr (poll_initState_header hp hh rest _) (errorForever_bufState hs' [raw] _ _ _ _ _ h)

theorem asyncIsKeyValueLine_false {c : Str} (h : isKeyValueLine c = false) : asyncIsKeyValueLine c = false := by
  unfold isKeyValueLine at h
  unfold asyncIsKeyValueLine
  split
  · rfl
  · split
    · rename_i hq; rw [if_pos hq] at h; exact h
    · rename_i hq; rw [if_neg hq] at h; rw [h]; rfl

theorem polls_root_prim {lines : List Str} {p : Prim F} :
    ∀ n bl, decodeStream indent strict (deleteBlank lines) = .ok [.prim p] →
      Polls (DecodeStream.poll indent strict) (initState lines n bl) [.ok (.prim p)] := by
  induction lines with
  | nil => intro n bl h; cases h
  | cons raw rest ih =>
    intro n bl h
    by_cases hb : BlankLine raw
    · rw [show deleteBlank (raw :: rest) = deleteBlank rest by simp [deleteBlank, hb]] at h
      exact Polls.congr (poll_initState_blank hb rest n bl) (ih (n + 1) _ h)
    · rw [show deleteBlank (raw :: rest) = raw :: deleteBlank rest by simp [deleteBlank, hb]] at h
      obtain ⟨d, c, hp, _, hh⟩ := decodeStream_first hb h
      obtain ⟨h1, h2, h3⟩ := hh p rfl
      refine Polls.cons (DecodeStream.poll_event (st' := ?_) ?_) (DecodeStream.polls_finished [] _ ?_ ?_)
      rotate_left
      · simp [DecodeStream.processNext, initState, hp, DecodeStream.initialLine, h1,
          asyncIsKeyValueLine_false h2, h3]
        rfl
      · rfl
      · rfl

/-! ## Nested objects -/

theorem polls_flatState_nested {pre post : List Str} {k ws : Str} (hw : trim ws = []) {evs evs1 : List (Ev F)}
    (h : FlatDoc indent strict pre evs) (hs : ∀ l ∈ post, ScanOk indent strict l)
    (h1 : decodeStream indent strict ((encodeKey k ++ ':' :: ws) :: deleteBlank post) = .ok evs1) :
    ∀ n bl, Polls (DecodeStream.poll indent strict) (flatState (pre ++ (encodeKey k ++ ':' :: ws) :: post) n bl)
      ((evs ++ evs1).map Except.ok) := by
  have hk := keyLine_colon k ws
  induction h with
  | nil =>
    intro n bl
    refine Polls.congr (DecodeStream.poll_skip
      (st' := bufState [encodeKey k ++ ':' :: ws] [0] (some 0) post (n + 1) bl) ?_ rfl)
      (polls_bufState hs [_] _ _ _ _ _ h1)
    simp [DecodeStream.processNext, flatState, bufState, parseLine_key, DecodeStream.objectLine,
      DecodeStream.closeTo, asyncHeader_of hk, DecodeStream.keyValueLine, hk.dash, parseKeyToken_encode, drop_keyColon,
      hw, DecodeStream.pop]
  | blank hb _ ih =>
    intro n bl
    refine Polls.congr (DecodeStream.poll_skip (st' := flatState _ (n + 1) (bl ++ [n + 1])) ?_ ?_) (ih (n + 1) _)
    · simp [DecodeStream.processNext, flatState, parseLine_blank hb]
    · rfl
  | @line l ls evs key q p hi _ ih =>
    intro n bl
    refine Polls.cons (DecodeStream.poll_event (e := .key key q)
      (st' := { flatState (F := F) (ls ++ (encodeKey k ++ ':' :: ws) :: post) (n + 1) bl with queue := [.prim p] }) ?_) ?_
    · simp [DecodeStream.processNext, flatState, hi.scan, DecodeStream.objectLine,
        DecodeStream.closeTo, asyncHeader_of hi.keyLine, hi.async, DecodeStream.pop]
    · exact DecodeStream.polls_queue [.prim p] _ _ rfl (ih (n + 1) _)

theorem polls_nested {pre post : List Str} {k ws : Str} (hw : trim ws = []) {evs evs1 : List (Ev F)}
    (h : FlatDoc indent strict pre evs) (hs : ∀ l ∈ post, ScanOk indent strict l)
    (h1 : decodeStream indent strict ((encodeKey k ++ ':' :: ws) :: deleteBlank post) = .ok evs1) :
    ∀ n bl, Polls (DecodeStream.poll indent strict) (initState (pre ++ (encodeKey k ++ ':' :: ws) :: post) n bl)
      ((Ev.startObj :: evs ++ evs1).map Except.ok) := by
  have hk := keyLine_colon k ws
  induction h with
  | nil =>
    intro n bl
    refine Polls.cons (DecodeStream.poll_event (e := .startObj)
      (st' := bufState [encodeKey k ++ ':' :: ws] [0] (some 0) post (n + 1) bl) ?_)
      (polls_bufState hs [_] _ _ _ _ _ h1)
    simp [DecodeStream.processNext, initState, bufState, parseLine_key, DecodeStream.initialLine,
      asyncHeader_of hk, asyncIsKeyValueLine_of hk, DecodeStream.keyValueLine, hk.dash, parseKeyToken_encode, drop_keyColon,
      hw, DecodeStream.pop]
  | blank hb _ ih =>
    intro n bl
    exact Polls.congr (poll_initState_blank hb _ n bl) (ih (n + 1) _)
  | @line l ls evs key q p hi hrest _ =>
    intro n bl
    refine Polls.cons (DecodeStream.poll_event (e := .startObj)
      (st' := { flatState (F := F) (ls ++ (encodeKey k ++ ':' :: ws) :: post) (n + 1) bl with queue := [.key key q, .prim p] }) ?_) ?_
    · simp [DecodeStream.processNext, initState, flatState, hi.scan, DecodeStream.initialLine,
        asyncHeader_of hi.keyLine, asyncIsKeyValueLine_of hi.keyLine, hi.async, DecodeStream.pop]
    · exact DecodeStream.polls_queue [.key key q, .prim p] _ _ rfl (polls_flatState_nested hw hrest hs h1 (n + 1) bl)

omit [F64 F] in
/-- The items of a stream are determined by its polls. -/
theorem polls_unique {St Item : Type} {poll : St → Option Item × St} {st : St} {xs ys : List Item}
    (hx : Polls poll st xs) (hy : Polls poll st ys) : xs = ys := by
  apply List.ext_getElem?
  intro i
  have := (hx (i + 1)).symm.trans (hy (i + 1))
  have := congrArg (fun l : List (Option Item) => l[i]?) this
  simpa using this

theorem encodeEntries_flat (opts : EncOpts) (siblings : List Str) (rlk : Option (List Str)) (pp : Option Str) (fd : Nat) :
    ∀ (es : List (Str × Json F)), (∀ e ∈ es, ∃ p, e.2 = .prim p) →
      ∀ o ∈ encodeEntries opts siblings rlk pp fd (normalizeEntries es) 0,
        ∃ k p, (k, Json.prim p) ∈ es ∧ o = ⟨0, encodeKey k ++ ':' :: ' ' :: encodePrimitive (normPrim p) opts.delim⟩
  | [], _, o, ho => by rw [normalizeEntries, encodeEntries] at ho; simp at ho
  | (k, v) :: es, h, o, ho => by
    obtain ⟨p, hp⟩ := h _ (List.mem_cons_self ..)
    simp only at hp
    subst hp
    rw [normalizeEntries, encodeEntries] at ho
    rcases List.mem_append.mp ho with ho | ho
    · simp only [normalize] at ho
      rw [encodeKeyValue_eq] at ho
      simp only [tryFold_prim] at ho
      simp [writeEntry] at ho
      exact ⟨k, p, List.mem_cons_self .., ho⟩
    · obtain ⟨k', p', h1, h2⟩ := encodeEntries_flat opts siblings rlk pp fd es
        (fun e he => h e (List.mem_cons_of_mem _ he)) o ho
      exact ⟨k', p', List.mem_cons_of_mem _ h1, h2⟩

theorem flatLine_encoded [LawfulF64 F] {opts : EncOpts} (hd : GoodDelim opts.delim) {es : List (Str × Json F)}
    (hw : WritableEntries es) (hv : ∀ e ∈ es, ∃ p, e.2 = .prim p) {l : Str} (hl : l ∈ encodeLines opts (.obj es)) :
    FlatLine F indent strict l := by
  unfold encodeLines encodeJsonValue at hl
  rw [normalize, encodeValue, encodeObject] at hl
  obtain ⟨o, ho, rfl⟩ := List.mem_map.mp hl
  obtain ⟨k, p, hm, rfl⟩ := encodeEntries_flat opts _ _ _ _ es hv o ho
  have hh : ∀ s, p = .str s → bareKey k = true → headerLike s = false := by
    clear hl ho hv
    induction es with
    | nil => simp at hm
    | cons e es ih =>
      obtain ⟨k', v'⟩ := e
      rw [WritableEntries] at hw
      rcases List.mem_cons.mp hm with hm | hm
      · cases hm
        intro s hs; exact hw.1 s (by rw [hs])
      · exact ih hw.2.2 hm
  have hspec := kvSpec_prim (ctx := ⟨strict, []⟩) (depth := 0) hd (k := k) (p := normPrim p) (normPrim_idem p)
    (fun s hs hk => hh s (normPrim_str.mp hs) (by rw [bareKey_eq]; exact hk))
  refine ⟨k, ' ' :: encodePrimitive (normPrim p) opts.delim, by simp [renderLine], !isValidUnquotedKey k, normPrim p, ?_⟩
  have hr : renderLine opts.indent ⟨0, encodeKey k ++ ':' :: ' ' :: encodePrimitive (normPrim p) opts.delim⟩ =
    encodeKey k ++ ':' :: ' ' :: encodePrimitive (normPrim p) opts.delim := by simp [renderLine]
  rw [hr]
  obtain ⟨hkl, hkv⟩ := hspec
  obtain ⟨last', hkv⟩ := hkv [] [] (some ⟨0, _, 0 + 1⟩) (5 * (0 + 1) + 5) rfl (by simp [RestLe]) (by simp)
  unfold decodeStream
  simp only [parseLines, parseLine_key, bind, Except.bind, decodeLines, rootHeader, hkl.arr, Bool.false_eq_true,
    if_false, List.isEmpty_nil, hkl.kvl, Bool.not_true, Bool.and_false, List.length_cons, List.length_nil]
  simp only [List.append_nil] at hkv
  rw [hkv]
  simp [rootLoop, emitEvents, pure, Except.pure]

/-! ## Balance -/

/-- Starts minus ends. -/
def evBalance : List (Ev F) → Int
  | [] => 0
  | .startObj :: r => evBalance r + 1
  | .startArr _ :: r => evBalance r + 1
  | .endObj :: r => evBalance r - 1
  | .endArr :: r => evBalance r - 1
  | _ :: r => evBalance r

omit [F64 F] in
theorem evBalance_append (a b : List (Ev F)) : evBalance (a ++ b) = evBalance a + evBalance b := by
  induction a with
  | nil => simp [evBalance]
  | cons e r ih => cases e <;> simp [evBalance, ih] <;> omega

omit [F64 F] in
mutual
theorem evBalance_tree : (t : ETree F) → evBalance t.events = 0
  | .prim p => by simp [ETree.events, evBalance]
  | .arr n items => by simp [ETree.events, evBalance, evBalance_append, evBalance_items items]
  | .obj es => by simp [ETree.events, evBalance, evBalance_append, evBalance_entries es]
theorem evBalance_items : (ts : List (ETree F)) → evBalance (ETree.eventsItems ts) = 0
  | [] => rfl
  | t :: ts => by simp [ETree.eventsItems, evBalance_append, evBalance_tree t, evBalance_items ts]
theorem evBalance_entries : (ts : List (Str × Bool × ETree F)) → evBalance (ETree.eventsEntries ts) = 0
  | [] => rfl
  | (k, q, t) :: ts => by
    simp [ETree.eventsEntries, evBalance, evBalance_append, evBalance_tree t, evBalance_entries ts]
end

theorem evBalance_flat {lines : List Str} {evs : List (Ev F)} (h : FlatDoc indent strict lines evs) : evBalance evs = 0 := by
  induction h with
  | nil => rfl
  | blank _ _ ih => exact ih
  | line _ _ ih => simpa [evBalance] using ih

end Toon
