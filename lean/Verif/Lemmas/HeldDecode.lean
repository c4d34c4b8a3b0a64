import Verif.Lemmas.IncrementalAgree
import Verif.Spec.Held

namespace Toon

variable {F : Type} [F64 F] {indent : Nat} {strict : Bool}

/-! ## Sequences of polls -/

omit [F64 F] in
theorem afterN_inv {St Item : Type} {poll : St → Option Item × St} {P : St → Prop} (hs : ∀ st, P st → P (poll st).2) :
    ∀ n st, P st → P (afterN poll n st)
  | 0, _, h => h
  | n + 1, st, h => afterN_inv hs n _ (hs st h)

theorem pollLoop_inv {P : DecodeStream F → Prop} (hs : ∀ st, P st → P (st.processNext indent strict).2) :
    ∀ fuel st r, P st → DecodeStream.pollLoop indent strict fuel st = some r → P r.2
  | 0, _, _, _, h => by simp [DecodeStream.pollLoop] at h
  | fuel + 1, st, r, hp, h => by
    have h1 := hs st hp
    rw [DecodeStream.pollLoop] at h
    split at h
    · rename_i e st' heq
      rw [heq] at h1
      obtain rfl := Option.some.inj h
      exact h1
    · rename_i st' heq
      rw [heq] at h1
      split at h
      · obtain rfl := Option.some.inj h
        exact h1
      · exact pollLoop_inv hs fuel _ _ h1 h
    · rename_i e st' heq
      rw [heq] at h1
      obtain rfl := Option.some.inj h
      exact h1

theorem poll_inv {P : DecodeStream F → Prop} (hs : ∀ st, P st → P (st.processNext indent strict).2) (st : DecodeStream F)
    (h : P st) : P (st.poll indent strict).2 := by
  unfold DecodeStream.poll
  cases hl : DecodeStream.pollLoop indent strict (st.lines.length + 3) st with
  | none => simpa using h
  | some r => simpa using pollLoop_inv hs _ _ _ h hl

/-! ## What is kept -/

/-- What a stream over `total` lines keeps between two steps. -/
structure Frugal (total : Nat) (st : DecodeStream F) : Prop where
  contexts : st.contexts = [] ∨ st.contexts = [0]
  base : ∀ b, st.state = .simpleObject b → b = 0 ∧ st.contexts = [0]
  start : st.state = .initial → st.contexts = [] ∧ st.queue = []
  kept : st.state ≠ .arrayMode → st.buffer = []
  lines : st.buffer.length + st.lines.length ≤ total
  queue : st.state ≠ .finished → st.queue.length ≤ 2

theorem entryYields_length {content : Str} {fault : Option Err} {evs : List (Ev F)} {stage : Stage}
    (h : EntryYields F content fault evs stage) : evs.length ≤ 2 ∧ (∀ e, fault = some e → evs.length ≤ 1) ∧
      (stage = .buffering → evs = [] ∧ fault = none) := by
  cases h <;> simp

omit [F64 F] in
theorem Frugal.pop {total : Nat} {st : DecodeStream F} (h : Frugal (F := F) total { st with queue := [] })
    (hi : st.state ≠ .initial) (hq : st.state ≠ .finished → st.queue.length ≤ 3) : Frugal total st.pop.2 := by
  unfold DecodeStream.pop
  split
  · rename_i hq'
    exact ⟨h.contexts, h.base, fun h0 => absurd h0 hi, h.kept, h.lines, fun _ => by simp [hq']⟩
  · rename_i e q hq'
    refine ⟨h.contexts, h.base, fun h0 => absurd h0 hi, h.kept, h.lines, fun hf => ?_⟩
    have := hq hf
    rw [hq'] at this
    simpa using this

theorem keyValue_frugal {total : Nat} {st : DecodeStream F} {line : Line} {raw : Str} {q : List (Ev F)}
    (h : Frugal (F := F) (total + 1) { st with queue := [] }) (hl : st.lines.length + 1 ≤ total + 1) (hs : st.state = .simpleObject 0)
    (hc : st.contexts = [0]) (hq : st.queue = q) (hq1 : q.length ≤ 1) :
    Frugal (total + 1) (match st.keyValueLine line raw with
      | (.error e, st) => ((.error e : Except Err (Option (Ev F))), st)
      | (.ok (), st) => DecodeStream.pop { st with lastDepth := some line.depth }).2 := by
  obtain ⟨fault, evs, stage, hy⟩ := entryYields_total (F := F) line.content
  obtain ⟨h1, h2, h3⟩ := entryYields_length hy
  have hb : st.buffer = [] := h.kept (by simp [hs])
  have hkv := keyValueLine_yields hy st line.depth line.num raw
  rw [show (⟨line.depth, line.content, line.num⟩ : Line) = line from rfl] at hkv
  rw [hkv]
  cases fault with
  | some e =>
    have hne : stage ≠ .buffering := fun hb => by have := (h3 hb).2; simp at this
    have h4 := h2 e rfl
    simp only [faultResult, hne, if_false]
    exact ⟨h.contexts, h.base, by simp [hs], h.kept, h.lines, fun _ => by simp [hq]; omega⟩
  | none =>
    simp only [faultResult]
    split
    · obtain ⟨rfl, _⟩ := h3 (by assumption)
      refine Frugal.pop ⟨h.contexts, by simp, by simp, by simp, ?_, by simp⟩ (by simp) (fun _ => by simp [hq]; omega)
      simp only [hb, List.nil_append, List.length_cons, List.length_nil]; omega
    · exact Frugal.pop ⟨h.contexts, h.base, by simp [hs], h.kept, h.lines, by simp⟩ (by simp [hs]) (fun _ => by simp [hq]; omega)

theorem drain_frugal {total : Nat} : ∀ (ls : List Str) (st : DecodeStream F), st.buffer.length + ls.length ≤ total →
    (st.drain indent strict ls).2.buffer.length + (st.drain indent strict ls).2.lines.length ≤ total ∧
    (st.drain indent strict ls).2.contexts = st.contexts ∧ (st.drain indent strict ls).2.state = st.state ∧
    (st.drain indent strict ls).2.queue = st.queue
  | [], st, h => by simpa [DecodeStream.drain] using h
  | raw :: rest, st, h => by
    simp only [List.length_cons] at h
    rw [DecodeStream.drain]
    split
    · exact ⟨by simp; omega, rfl, rfl, rfl⟩
    · exact drain_frugal rest _ (by simp; omega)
    · exact drain_frugal rest _ (by simp; omega)

theorem finalize_frugal {total : Nat} {st : DecodeStream F} (h : Frugal total st) (hq : st.queue = []) :
    Frugal total (st.finalize indent strict).2 := by
  unfold DecodeStream.finalize
  split
  · rename_i hc
    have hs : st.state = .arrayMode := by
      apply Classical.byContradiction
      intro hn
      simp [hn, h.kept hn] at hc
    obtain ⟨h1, h2, h3, h4⟩ := drain_frugal (indent := indent) (strict := strict) st.lines st h.lines
    have hd : Frugal total (st.drain indent strict st.lines).2 :=
      ⟨h2 ▸ h.contexts, by rw [h3, hs]; simp, by rw [h3, hs]; simp, by rw [h3, hs]; simp, h1, by rw [h4, hq]; simp⟩
    unfold DecodeStream.batch
    rcases hdr : st.drain indent strict st.lines with ⟨r, st'⟩
    rw [hdr] at hd
    cases r with
    | error e => exact hd
    | ok u =>
      simp only
      split
      · exact hd
      · have hl := hd.lines
        refine Frugal.pop ⟨Or.inl rfl, by simp, by simp, by simp, ?_, by simp⟩ (by simp) (by simp)
        simp only [List.length_nil] at hl ⊢; omega
  · rename_i hc
    have hl := h.lines
    have hb : st.buffer = [] := by
      simp only [Bool.or_eq_true, not_or] at hc
      simpa using hc.1
    refine Frugal.pop ⟨Or.inl rfl, by simp, by simp, fun _ => hb, hl, by simp⟩ (by simp) (by simp)

theorem processNext_frugal {total : Nat} (st : DecodeStream F) (h : Frugal total st) :
    Frugal total (st.processNext indent strict).2 := by
  unfold DecodeStream.processNext
  split
  · rename_i e q hq
    refine ⟨h.contexts, h.base, fun hi => ?_, h.kept, h.lines, fun hf => ?_⟩
    · rw [(h.start hi).2] at hq; simp at hq
    · have := h.queue hf
      rw [hq] at this
      simp at this ⊢; omega
  · rename_i hq
    split
    · exact h
    · rename_i hnf
      split
      · exact finalize_frugal h hq
      · split
        · rename_i hl
          exact finalize_frugal ⟨h.contexts, h.base, h.start, h.kept, h.lines, h.queue⟩ hq
        · rename_i raw rest hl
          have hlines := h.lines
          rw [hl, List.length_cons] at hlines
          have hbase : Frugal total { st with lines := rest, lineNumber := st.lineNumber + 1 } :=
            ⟨h.contexts, h.base, h.start, h.kept, by simp only; omega, h.queue⟩
          simp only
          split
          · exact hbase
          · exact ⟨hbase.contexts, hbase.base, hbase.start, hbase.kept, hbase.lines, hbase.queue⟩
          · rename_i line hp
            split
            · rename_i hs
              have hb : st.buffer = [] := h.kept (by simp [hs])
              unfold DecodeStream.initialLine
              split
              · exact hbase
              · refine ⟨h.contexts, by simp, by simp, by simp, ?_, fun _ => by simp [hq]⟩
                simp only [hb, List.nil_append, List.length_cons, List.length_nil]; omega
              · split
                · have hc := (h.start hs).1
                  obtain ⟨t, rfl⟩ : ∃ t, total = t + 1 := ⟨total - 1, by omega⟩
                  refine keyValue_frugal (total := t) (q := [.startObj])
                    ⟨by simp [hc], by simp [hc], by simp, fun _ => hb, by simp [hb]; omega, by simp⟩
                    (by simp only; omega) rfl (by simp [hc]) (by simp [hq]) (by simp)
                · simp only
                  have : Frugal total { st with lines := rest, lineNumber := st.lineNumber + 1, state := .finished } :=
                    ⟨h.contexts, by simp, by simp, fun _ => hb, by simp [hb]; omega, by simp⟩
                  split
                  · exact this
                  · exact this
            · rename_i base hs
              obtain ⟨rfl, hc⟩ := h.base base hs
              have hb : st.buffer = [] := h.kept (by simp [hs])
              unfold DecodeStream.objectLine
              rw [closeTo_zero { st with lines := rest, lineNumber := st.lineNumber + 1 } hc hq]
              simp only
              split
              · exact hbase
              · refine Frugal.pop ⟨h.contexts, by simp, by simp, by simp, ?_, by simp⟩ (by simp) (by simp [hq])
                simp only [hb, List.nil_append, List.length_cons, List.length_nil]; omega
              · obtain ⟨t, rfl⟩ : ∃ t, total = t + 1 := ⟨total - 1, by omega⟩
                exact keyValue_frugal (total := t) (q := [])
                  ⟨by simp [hc], by simp [hs, hc], by simp [hs], fun _ => hb, by simp [hb]; omega, by simp⟩
                  (by simp only; omega) hs hc hq (by simp)
            · rename_i hs
              refine ⟨h.contexts, by simp [hs], by simp [hs], by simp [hs], ?_, fun _ => by simp [hq]⟩
              simp only [List.length_append, List.length_cons, List.length_nil]; omega
            · exact hbase

omit [F64 F] in
theorem new_frugal (lines : List Str) : Frugal lines.length (DecodeStream.new (F := F) lines) :=
  ⟨Or.inl rfl, by simp [DecodeStream.new], by simp [DecodeStream.new], by simp [DecodeStream.new], by simp [DecodeStream.new],
    by simp [DecodeStream.new]⟩

/-! ## Flat objects -/

structure Streaming (indent : Nat) (strict : Bool) (st : DecodeStream F) : Prop where
  plain : ∀ raw ∈ st.lines, PlainLine F indent strict raw
  state : st.state ≠ .arrayMode
  ended : st.state = .finished → st.queue.length ≤ 2

omit [F64 F] in
theorem pop_fields (st : DecodeStream F) : st.pop.2.lines = st.lines ∧ st.pop.2.state = st.state ∧
    st.pop.2.queue.length ≤ st.queue.length := by
  unfold DecodeStream.pop
  split
  · exact ⟨rfl, rfl, Nat.le_refl _⟩
  · rename_i hq; exact ⟨rfl, rfl, by simp [hq]⟩

theorem finalize_streaming {total : Nat} {st : DecodeStream F} (h : Frugal total st) (hs : Streaming indent strict st)
    (hq : st.queue = []) : Streaming indent strict (st.finalize indent strict).2 := by
  have hb := h.kept hs.state
  unfold DecodeStream.finalize
  split
  · rename_i hc
    simp [hb, hs.state] at hc
  · simp only [hq, List.nil_append]
    obtain ⟨h1, h2, h3⟩ := pop_fields { st with
      contexts := [], queue := if (st.state == .initial) = true then (st.contexts.map fun _ => Ev.endObj) ++ [.startObj, .endObj]
        else st.contexts.map fun _ => (Ev.endObj : Ev F), state := .finished }
    refine ⟨by rw [h1]; exact hs.plain, by rw [h2]; simp, fun _ => Nat.le_trans h3 ?_⟩
    simp only
    split
    · rename_i hi
      have hi' : st.state = .initial := by simpa using hi
      simp [(h.start hi').1]
    · rcases h.contexts with hc | hc <;> simp [hc]

theorem processNext_streaming {total : Nat} (st : DecodeStream F) (h : Frugal total st ∧ Streaming indent strict st) :
    Frugal total (st.processNext indent strict).2 ∧ Streaming indent strict (st.processNext indent strict).2 := by
  refine ⟨processNext_frugal st h.1, ?_⟩
  obtain ⟨h, hst⟩ := h
  unfold DecodeStream.processNext
  split
  · rename_i e q hq
    refine ⟨hst.plain, hst.state, fun hf => ?_⟩
    have := hst.ended hf
    rw [hq] at this
    simp at this ⊢; omega
  · rename_i hq
    split
    · exact hst
    · rename_i hnf
      split
      · exact finalize_streaming h hst hq
      · split
        · rename_i hl
          exact finalize_streaming ⟨h.contexts, h.base, h.start, h.kept, h.lines, h.queue⟩ ⟨hst.plain, hst.state, hst.ended⟩ hq
        · rename_i raw rest hl
          have hplain : ∀ raw ∈ rest, PlainLine F indent strict raw := fun r hr => hst.plain r (by rw [hl]; simp [hr])
          have hbase : Streaming indent strict { st with lines := rest, lineNumber := st.lineNumber + 1 } :=
            ⟨hplain, hst.state, hst.ended⟩
          simp only
          split
          · exact hbase
          · exact ⟨hbase.plain, hbase.state, hbase.ended⟩
          · rename_i line hp
            rcases hst.plain raw (by rw [hl]; simp) with hblank | ⟨⟨k, q, p⟩, content, after, hi, hn, hd, hk, hb, ht⟩
            · rw [scanLine_blank hblank] at hp; simp at hp
            · obtain ⟨d, hd'⟩ := indented_parse hi (st.lineNumber + 1)
              rw [hd'] at hp
              obtain rfl : (⟨d, content, st.lineNumber + 1⟩ : Line) = line := by simpa using hp
              have hh := asyncHeader_false.mpr hn
              have hy : EntryYields F content none [.key k q, .prim p] .object := .entry hd hk hb ht
              split
              · rename_i hs
                unfold DecodeStream.initialLine
                simp only [hh]
                split
                · rw [keyValueLine_yields hy, if_neg (by decide : ¬ Stage.object = Stage.buffering)]
                  simp only [faultResult]
                  obtain ⟨h1, h2, h3⟩ := pop_fields (F := F) { st with
                    lines := rest, lineNumber := st.lineNumber + 1, state := .simpleObject 0, contexts := 0 :: st.contexts,
                    queue := st.queue ++ [Ev.startObj] ++ [.key k q, .prim p], lastDepth := some d }
                  exact ⟨by rw [h1]; exact hplain, by rw [h2]; simp, by rw [h2]; simp⟩
                · split
                  · exact ⟨hplain, by simp, fun _ => by simp [hq]⟩
                  · exact ⟨hplain, by simp, fun _ => by simp [hq]⟩
              · rename_i base hs
                obtain ⟨rfl, hc⟩ := h.base base hs
                unfold DecodeStream.objectLine
                rw [closeTo_zero { st with lines := rest, lineNumber := st.lineNumber + 1 } hc hq]
                simp only [hh]
                rw [keyValueLine_yields hy, if_neg (by decide : ¬ Stage.object = Stage.buffering)]
                simp only [faultResult]
                obtain ⟨h1, h2, h3⟩ := pop_fields (F := F) { st with
                  lines := rest, lineNumber := st.lineNumber + 1,
                  queue := st.queue ++ [.key k q, .prim p], lastDepth := some d }
                exact ⟨by rw [h1]; exact hplain, by rw [h2]; simp [hs], by rw [h2]; simp [hs]⟩
              · rename_i hs; exact absurd hs hst.state
              · exact hbase

/-! ## Records of blank lines -/

/-- The stream has taken some lines, and has a record of each blank one. -/
structure Recorded (lines : List Str) (st : DecodeStream F) : Prop where
  taken : ∃ taken, lines = taken ++ st.lines ∧ st.lineNumber = taken.length ∧ st.blanks = blankNumbers 1 taken

theorem blankNumbers_append (n : Nat) (xs ys : List Str) :
    blankNumbers n (xs ++ ys) = blankNumbers n xs ++ blankNumbers (n + xs.length) ys := by
  induction xs generalizing n with
  | nil => simp [blankNumbers]
  | cons x xs ih =>
    simp only [List.cons_append, blankNumbers, List.length_cons, ih]
    split <;> simp [Nat.add_comm, Nat.add_left_comm]

omit [F64 F] in
theorem Recorded.same {lines : List Str} {st st' : DecodeStream F} (h : Recorded lines st) (h1 : st'.lines = st.lines)
    (h2 : st'.lineNumber = st.lineNumber) (h3 : st'.blanks = st.blanks) : Recorded lines st' := by
  obtain ⟨t, a, b, c⟩ := h.taken
  exact ⟨t, by rw [h1]; exact a, by rw [h2]; exact b, by rw [h3]; exact c⟩

omit [F64 F] in
theorem Recorded.blank {lines rest : List Str} {raw : Str} {st : DecodeStream F} (h : Recorded lines st) (hl : st.lines = raw :: rest)
    (hb : BlankLine raw) : Recorded (F := F) lines
      { st with lines := rest, lineNumber := st.lineNumber + 1, blanks := st.blanks ++ [st.lineNumber + 1] } := by
  obtain ⟨t, a, b, c⟩ := h.taken
  refine ⟨t ++ [raw], by simp [a, hl], by simp [b], ?_⟩
  simp [blankNumbers_append, blankNumbers, hb, b, c, Nat.add_comm]

omit [F64 F] in
theorem Recorded.line {lines rest : List Str} {raw : Str} {st : DecodeStream F} (h : Recorded lines st) (hl : st.lines = raw :: rest)
    (hb : ¬ BlankLine raw) : Recorded (F := F) lines { st with lines := rest, lineNumber := st.lineNumber + 1 } := by
  obtain ⟨t, a, b, c⟩ := h.taken
  refine ⟨t ++ [raw], by simp [a, hl], by simp [b], ?_⟩
  simp [blankNumbers_append, blankNumbers, hb, c]

omit [F64 F] in
theorem Recorded.pop {lines : List Str} {st : DecodeStream F} (h : Recorded lines st) : Recorded lines st.pop.2 := by
  unfold DecodeStream.pop
  split
  · exact h
  · exact h.same rfl rfl rfl

theorem keyValueLine_records (st : DecodeStream F) (line : Line) (raw : Str) :
    (st.keyValueLine line raw).2.lines = st.lines ∧ (st.keyValueLine line raw).2.lineNumber = st.lineNumber ∧
      (st.keyValueLine line raw).2.blanks = st.blanks := by
  unfold DecodeStream.keyValueLine
  simp only
  split
  · exact ⟨rfl, rfl, rfl⟩
  · split
    · exact ⟨rfl, rfl, rfl⟩
    · split
      · exact ⟨rfl, rfl, rfl⟩
      · split
        · exact ⟨rfl, rfl, rfl⟩
        · exact ⟨rfl, rfl, rfl⟩

theorem keyValue_records {lines : List Str} {st : DecodeStream F} {line : Line} {raw : Str} (h : Recorded lines st) :
    Recorded lines (match st.keyValueLine line raw with
      | (.error e, st) => ((.error e : Except Err (Option (Ev F))), st)
      | (.ok (), st) => DecodeStream.pop { st with lastDepth := some line.depth }).2 := by
  obtain ⟨h1, h2, h3⟩ := keyValueLine_records st line raw
  rcases hk : st.keyValueLine line raw with ⟨_ | _, st'⟩
  · rw [hk] at h1 h2 h3
    exact h.same h1 h2 h3
  · rw [hk] at h1 h2 h3
    exact Recorded.pop (h.same h1 h2 h3)

theorem notBlank_of_parse {raw : Str} {n : Nat} {sc : Except Err Scanned} (h : parseLine raw n indent strict = sc) (hs : sc ≠ .ok .blank) :
    ¬ BlankLine raw := fun hb => hs (by rw [← h, parseLine_blank hb])

theorem blank_of_parse {raw : Str} {n : Nat} (h : parseLine raw n indent strict = .ok .blank) : BlankLine raw := by
  apply Classical.byContradiction
  intro hb
  rcases parseLine_content hb indent strict with ⟨d, c, hc⟩ | ⟨_, hc⟩
  · rw [hc] at h; simp at h
  · obtain ⟨e, he⟩ := hc n; rw [he] at h; simp at h

theorem drain_records {lines : List Str} : ∀ (ls : List Str) (st : DecodeStream F),
    Recorded (F := F) lines { st with lines := ls } → Recorded lines (st.drain indent strict ls).2
  | [], st, h => h
  | raw :: rest, st, h => by
    rw [DecodeStream.drain]
    split
    · rename_i hp
      exact h.line rfl (notBlank_of_parse hp (by simp))
    · rename_i hp
      exact drain_records rest _ (h.blank rfl (blank_of_parse hp))
    · rename_i hp
      exact drain_records rest _ ((h.line rfl (notBlank_of_parse hp (by simp))).same rfl rfl rfl)

theorem finalize_records {lines : List Str} {st : DecodeStream F} (h : Recorded lines st) :
    Recorded lines (st.finalize indent strict).2 := by
  unfold DecodeStream.finalize
  split
  · have hd := drain_records (indent := indent) (strict := strict) st.lines st h
    unfold DecodeStream.batch
    rcases hdr : st.drain indent strict st.lines with ⟨r, st'⟩
    rw [hdr] at hd
    cases r with
    | error e => exact hd
    | ok u =>
      simp only
      split
      · exact hd
      · exact Recorded.pop (hd.same rfl rfl rfl)
  · exact Recorded.pop (h.same rfl rfl rfl)

omit [F64 F] in
theorem closeTo_records (st : DecodeStream F) (d b : Nat) :
    (st.closeTo d b).lines = st.lines ∧ (st.closeTo d b).lineNumber = st.lineNumber ∧ (st.closeTo d b).blanks = st.blanks := by
  unfold DecodeStream.closeTo
  split
  · exact ⟨rfl, rfl, rfl⟩
  · split <;> exact ⟨rfl, rfl, rfl⟩

theorem processNext_records {lines : List Str} (st : DecodeStream F) (h : Recorded lines st) :
    Recorded lines (st.processNext indent strict).2 := by
  unfold DecodeStream.processNext
  split
  · exact h.same rfl rfl rfl
  · split
    · exact h
    · split
      · exact finalize_records h
      · split
        · exact finalize_records (h.same rfl rfl rfl)
        · rename_i raw rest hl
          simp only
          split
          · rename_i hp
            exact h.line hl (notBlank_of_parse hp (by simp))
          · rename_i hp
            exact h.blank hl (blank_of_parse hp)
          · rename_i line hp
            have hr := h.line hl (notBlank_of_parse hp (by simp))
            split
            · unfold DecodeStream.initialLine
              split
              · exact hr
              · exact hr.same rfl rfl rfl
              · split
                · exact keyValue_records (hr.same rfl rfl rfl)
                · simp only
                  split <;> exact hr.same rfl rfl rfl
            · rename_i base hs
              unfold DecodeStream.objectLine
              obtain ⟨h1, h2, h3⟩ := closeTo_records { st with lines := rest, lineNumber := st.lineNumber + 1 } line.depth base
              have hc := hr.same h1 h2 h3
              simp only
              split
              · exact hc
              · exact Recorded.pop (hc.same rfl rfl rfl)
              · exact keyValue_records hc
            · exact hr.same rfl rfl rfl
            · exact hr

omit [F64 F] in
theorem new_records (lines : List Str) : Recorded lines (DecodeStream.new (F := F) lines) := ⟨[], rfl, rfl, rfl⟩

/-! ## Kept lines -/

/-- While lines are kept, a poll takes all of them. -/
theorem buffering_rest : ∀ {lines : List Str} {kept : List Str} {num : Nat} {st : DecodeStream F},
    AtStage .buffering kept num lines st →
    (∀ raw ∈ lines, BlankLine raw ∨ ∃ content, Indented indent strict raw content) →
    ∃ st' num', st.poll indent strict = st'.poll indent strict ∧ AtStage .buffering (kept ++ deleteBlank lines) num' [] st'
  | [], kept, num, st, ha, _ => ⟨st, num, rfl, by simpa [deleteBlank] using ha⟩
  | raw :: rest, kept, num, st, ha, hg => by
    have hg' : ∀ raw ∈ rest, BlankLine raw ∨ ∃ content, Indented indent strict raw content := fun r hr => hg r (by simp [hr])
    rcases hg raw (by simp) with hb | ⟨content, hi⟩
    · have h1 := step_blank (indent := indent) (strict := strict) ha (by simp) hb
      obtain ⟨st', num', h2, h3⟩ := buffering_rest
        (st := { st with lines := rest, lineNumber := num + 1, blanks := st.blanks ++ [num + 1] })
        ⟨rfl, rfl, ha.queue, ha.state, by simp, by simp, ha.buffer, by simp, ha.exhausted⟩ hg'
      refine ⟨st', num', ?_, by rw [deleteBlank_blank hb]; exact h3⟩
      rw [← h2]
      exact DecodeStream.poll_skip h1 (by simp only [ha.state]; rfl)
    · obtain ⟨d, h1⟩ := step_line (indent := indent) (strict := strict) ha (by simp) hi
      obtain ⟨st', num', h2, h3⟩ := buffering_rest
        (st := { st with lines := rest, lineNumber := num + 1, buffer := kept ++ [raw] })
        ⟨rfl, rfl, ha.queue, ha.state, by simp, by simp, rfl, by simp, ha.exhausted⟩ hg'
      refine ⟨st', num', ?_, by rw [deleteBlank_line hi]; simpa using h3⟩
      rw [← h2]
      exact DecodeStream.poll_skip h1 (by simp only [ha.state]; rfl)

/-- When the kept lines are a document, all its events are queued at once. -/
theorem buffering_decoded {kept : List Str} {num : Nat} {st : DecodeStream F} (ha : AtStage .buffering kept num [] st)
    {e : Ev F} {evs : List (Ev F)} (hd : decodeStream indent strict kept = .ok (e :: evs)) :
    (st.poll indent strict).1 = some (.ok e) ∧ (st.poll indent strict).2.queue = evs ∧
      (st.poll indent strict).2.buffer = [] ∧ (st.poll indent strict).2.lines = [] := by
  have h1 : st.processNext indent strict = (.ok (some e), { st with
      lines := [], exhausted := true, contexts := [], buffer := [], queue := evs, state := .finished }) := by
    unfold DecodeStream.processNext
    rw [ha.queue]
    simp only [ha.state, ha.exhausted, ha.lines]
    unfold DecodeStream.finalize DecodeStream.batch
    simp [ha.buffer, Stage.dstate, DecodeStream.drain, hd, DecodeStream.pop]
  rw [DecodeStream.poll_event h1]
  exact ⟨rfl, rfl, rfl, rfl⟩

/-- When they are none, they are kept for ever. -/
theorem buffering_rejected {kept : List Str} {st : DecodeStream F} (hs : st.state = .arrayMode) (hl : st.lines = [])
    (hb : st.buffer = kept) (hq : st.queue = []) {e : Err} (hd : decodeStream (F := F) indent strict kept = .error e) :
    st.poll indent strict = (some (.error e), { st with exhausted := true }) := by
  apply DecodeStream.poll_error
  unfold DecodeStream.processNext
  rw [hq]
  obtain ⟨l, n, q, s, c, b, x, ld, bl⟩ := st
  dsimp only at hs hl hb hq
  subst hs hl hb hq
  cases x <;> simp [DecodeStream.finalize, DecodeStream.batch, DecodeStream.drain, hd]

end Toon
