import Verif.Lemmas.GrammarLeaves
import Verif.Lemmas.Arrays

/-! Inline arrays and tables against the grammar. -/

namespace Toon

/-- The last line read. -/
def lastOf (body : List Line) (last : Option Line) : Option Line := body.getLast?.or last

theorem lastOf_nil (last : Option Line) : lastOf [] last = last := rfl

theorem lastOf_append (a b : List Line) (last : Option Line) : lastOf (a ++ b) last = lastOf b (lastOf a last) := by
  unfold lastOf
  rw [List.getLast?_append, Option.or_assoc]

theorem lastOf_cons (line : Line) (b : List Line) (last : Option Line) : lastOf (line :: b) last = lastOf b (some line) :=
  lastOf_append [line] b last

theorem getLast?_cons_or (line : Line) (b : List Line) (last : Option Nat) :
    ((line :: b).getLast?.map (·.num)).or last = (b.getLast?.map (·.num)).or (some line.num) := by
  rw [show line :: b = [line] ++ b from rfl, List.getLast?_append]
  cases b.getLast? <;> simp

/-- The headers the parser returns. -/
structure GoodHeader (h : Header) : Prop where
  delim : h.delim = ',' ∨ h.delim = '|' ∨ h.delim = '\t'
  inline : ∀ text, h.inline = some text → trim text ≠ []

theorem headerMeans_good {content : Str} {h : Header} (hm : HeaderMeans content h) : GoodHeader h := by
  obtain ⟨pre, seg, cols, after, _, _, hl, _, _, hi⟩ := hm
  refine ⟨lengthMeans_delim hl, ?_⟩
  intro text ht
  rcases hi with ⟨_, hi⟩ | ⟨hb, hi⟩
  · rw [hi] at ht; simp at ht
  · rw [hi] at ht
    simp only [Option.some.injEq] at ht
    subst ht
    rw [trim_trim]
    exact fun hh => hb (blank_trim.mpr hh)

section
variable {F : Type} [F64 F]

theorem mapRow_cells {cells : List Str} (h : ∀ c ∈ cells, trim c = c) (ps : List (Prim F)) :
    mapRowValues cells = .ok ps ↔ Pointwise TokenMeans cells ps := by
  rw [mapRowValues_iff, pointwise_trim h]

theorem decodeInline_iff {h : Header} (hg : GoodHeader h) {text : Str} (ht : trim text ≠ []) (strict : Bool) (evs : List (Ev F)) :
    decodeInline h text strict = .ok evs ↔ ∃ (cells : List Str) (prims : List (Prim F)), Cells h.delim text cells ∧
      Pointwise TokenMeans cells prims ∧ (strict = true → cells.length = h.length) ∧ evs = prims.map .prim := by
  have hcells := parseDelimited_cells (delim_ne_quote hg.delim) text
  unfold decodeInline
  rw [if_neg (by simpa using ht)]
  constructor
  · intro hd
    obtain ⟨ps, h1, h2⟩ := bind_ok.mp hd
    obtain ⟨u, h3, h4⟩ := bind_ok.mp h2
    rw [pure_ok] at h4
    subst h4
    have hc := (hcells _).mp rfl
    have hp := (mapRow_cells (cells_trimmed hc) _).mp h1
    exact ⟨_, ps, hc, hp, fun hs => by rw [hp.length_eq]; exact assertCount_ok h3 hs, rfl⟩
  · rintro ⟨cells, prims, hc, hp, hl, rfl⟩
    rw [(hcells _).mpr hc, (mapRow_cells (cells_trimmed hc) _).mpr hp]
    have := (assertCount_iff prims.length h.length .inlineItems strict).1 (fun hs => by rw [← hp.length_eq]; exact hl hs)
    simp only [bind, Except.bind, this]
    rfl

omit [F64 F] in
theorem fieldEvents_pad (fs : List FieldName) (ps : List (Prim F)) : fieldEvents fs ps = ETree.eventsEntries (padFields fs ps) := by
  induction fs generalizing ps with
  | nil => cases ps <;> rfl
  | cons f fs ih => cases ps <;> simp [fieldEvents, padFields, ETree.eventsEntries, ETree.events, ih]

/-- The row loop reads rows of the grammar. -/
theorem tabularLoop_sound (ctx : Ctx) (fields : List FieldName) {d : Char} (hd : d ≠ '"') (n D : Nat) (rest : List Line) :
    ∀ (last : Option Line) (count : Nat) (s e : Option Nat) (out : LoopOut F), count ≤ n →
    tabularLoop ctx fields d n D rest last count s e = .ok out →
    ∃ (body rest' : List Line) (ts : List (ETree F)), rest = body ++ rest' ∧ (∀ line ∈ body, line.depth = D) ∧
      Pointwise (TableRow ctx.strict fields d) body ts ∧ count + body.length ≤ n ∧
      (count + body.length < n → ¬ NextIs D (fun _ => True) rest') ∧
      out = ⟨ETree.eventsItems ts, ⟨rest', lastOf body last⟩, count + body.length, s.or (body.head?.map (·.num)),
        (body.getLast?.map (·.num)).or e⟩ := by
  induction rest with
  | nil =>
    intro last count s e out hc h
    rw [tabularLoop] at h
    simp only [Except.ok.injEq] at h
    subst h
    refine ⟨[], [], [], rfl, by simp, .nil, by simpa using hc, ?_, by simp [lastOf, ETree.eventsItems]⟩
    rintro _ ⟨l, m, h, _⟩
    simp at h
  | cons line rest ih =>
    intro last count s e out hc h
    have stop : (count < n → line.depth ≠ D) → Except.ok (ε := Err) (LoopOut.mk [] ⟨line :: rest, last⟩ count s e) = .ok out →
        ∃ (body rest' : List Line) (ts : List (ETree F)), line :: rest = body ++ rest' ∧ (∀ line ∈ body, line.depth = D) ∧
          Pointwise (TableRow ctx.strict fields d) body ts ∧ count + body.length ≤ n ∧
          (count + body.length < n → ¬ NextIs D (fun _ => True) rest') ∧
          out = ⟨ETree.eventsItems ts, ⟨rest', lastOf body last⟩, count + body.length, s.or (body.head?.map (·.num)),
            (body.getLast?.map (·.num)).or e⟩ := by
      intro hn h
      simp only [Except.ok.injEq] at h
      subst h
      refine ⟨[], line :: rest, [], rfl, by simp, .nil, by simpa using hc, ?_, by simp [lastOf, ETree.eventsItems]⟩
      rintro hlt ⟨l, m, h, h2, _⟩
      simp only [List.cons.injEq] at h
      obtain ⟨rfl, rfl⟩ := h
      exact hn (by simpa using hlt) h2
    rw [tabularLoop.eq_def] at h
    simp only at h
    split at h
    · rename_i hlt
      split at h
      · rename_i hdep; exact stop (fun _ => by omega) h
      · split at h
        · rename_i hdep
          obtain ⟨u, h1, h⟩ := bind_ok.mp h
          obtain ⟨ps, hps, h⟩ := bind_ok.mp h
          obtain ⟨out', ho, h⟩ := bind_ok.mp h
          rw [pure_ok] at h
          subst h
          obtain ⟨body, rest', ts, rfl, e2, e3, e4, e5, e6⟩ := ih _ _ _ _ _ (by omega) ho
          have hcl := (parseDelimited_cells hd line.content _).mp rfl
          refine ⟨line :: body, rest', .obj (padFields fields ps) :: ts, rfl, ?_, .cons ?_ e3, by simp; omega, ?_, ?_⟩
          · intro l hl
            rcases List.mem_cons.mp hl with rfl | hl
            · exact hdep
            · exact e2 l hl
          · exact ⟨_, ps, hcl, (mapRow_cells (cells_trimmed hcl) _).mp hps, fun hs => assertCount_ok h1 hs, rfl⟩
          · intro hh; exact e5 (by simp at hh; omega)
          · rw [e6]
            simp only [LoopOut.mk.injEq, Cur.mk.injEq, true_and]
            refine ⟨?_, ?_, ?_, ?_, ?_⟩
            · simp [ETree.eventsItems, ETree.events, fieldEvents_pad]
            · rw [lastOf_cons]
            · simp; omega
            · cases s <;> simp
            · rw [getLast?_cons_or]
        · rename_i hdep; exact stop (fun _ => hdep) h
    · rename_i hlt; exact stop (fun hh => absurd hh hlt) h

/-- Rows of the grammar are read by the row loop. -/
theorem tabularLoop_complete (ctx : Ctx) (fields : List FieldName) {d : Char} (hd : d ≠ '"') (n D : Nat)
    (body rest' : List Line) (ts : List (ETree F)) (hr : Pointwise (TableRow ctx.strict fields d) body ts) :
    ∀ (last : Option Line) (count : Nat) (s e : Option Nat), (∀ line ∈ body, line.depth = D) → count + body.length ≤ n →
    (count + body.length < n → ¬ NextIs D (fun _ => True) rest') →
    tabularLoop ctx fields d n D (body ++ rest') last count s e =
      .ok ⟨ETree.eventsItems ts, ⟨rest', lastOf body last⟩, count + body.length, s.or (body.head?.map (·.num)),
        (body.getLast?.map (·.num)).or e⟩ := by
  induction hr with
  | nil =>
    intro last count s e _ hc hn
    have : tabularLoop (F := F) ctx fields d n D rest' last count s e = .ok ⟨[], ⟨rest', last⟩, count, s, e⟩ := by
      cases rest' with
      | nil => rw [tabularLoop]
      | cons line rest =>
        rw [tabularLoop.eq_def]
        simp only
        split
        · rename_i hlt
          have hne : line.depth ≠ D := fun hh => hn (by simpa using hlt) ⟨line, rest, rfl, hh, trivial⟩
          split
          · rfl
          · first | rfl | rw [if_neg hne]
        · rfl
    rw [List.nil_append, this]
    simp [lastOf, ETree.eventsItems]
  | @cons line t body ts hrow hrest ih =>
    intro last count s e hdep hc hn
    have hd1 := hdep line (by simp)
    rw [List.cons_append, tabularLoop.eq_def]
    simp only
    rw [if_pos (by simp at hc; omega), if_neg (by omega), if_pos hd1]
    obtain ⟨cells, prims, hcl, hp, hl, rfl⟩ := hrow
    rw [(parseDelimited_cells hd line.content _).mpr hcl, (assertCount_iff cells.length fields.length .rowValues ctx.strict).1 hl,
      (mapRow_cells (cells_trimmed hcl) _).mpr hp]
    have := fun s' => ih (some line) (count + 1) s' (some line.num)
      (fun l hl => hdep l (by simp [hl])) (by simp at hc; omega) (fun hh => hn (by simp; omega))
    simp only [bind, Except.bind, pure, Except.pure, this]
    simp only [Except.ok.injEq, LoopOut.mk.injEq, Cur.mk.injEq, true_and]
    refine ⟨?_, ?_, ?_, ?_, ?_⟩
    · simp [ETree.eventsItems, ETree.events, fieldEvents_pad]
    · rw [lastOf_cons]
    · simp; omega
    · cases s <;> simp
    · rw [getLast?_cons_or]

end

end Toon
