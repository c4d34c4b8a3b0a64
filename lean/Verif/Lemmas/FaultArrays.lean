import Verif.Lemmas.FaultLeaves

/-! The errors of the checks, rows and lines against the faults. -/

namespace Toon

/-! ## Checks -/

theorem assertCount_error (a n : Nat) (what : Counted) (strict : Bool) (e : Err) :
    assertCount a n what strict = .error e ↔ strict = true ∧ a ≠ n ∧ e = .countMismatch n what a := by
  unfold assertCount
  by_cases h : (strict && a != n) = true
  · rw [if_pos h]
    simp only [Bool.and_eq_true, bne_iff_ne] at h
    simp only [Except.error.injEq]
    exact ⟨fun hh => ⟨h.1, h.2, hh.symm⟩, fun hh => hh.2.2.symm⟩
  · rw [if_neg h]
    simp only [reduceCtorEq, false_iff]
    rintro ⟨h1, h2, _⟩
    exact h (by simp [h1, h2])

theorem noExtraItems_error (rest : List Line) (d n : Nat) (strict : Bool) (e : Err) :
    noExtraItems rest.head? d n strict = .error e ↔ strict = true ∧ NextIs d HyphenSpace rest ∧ e = .extraItems n := by
  have h := noExtraItems_iff rest d n strict ()
  cases hr : noExtraItems rest.head? d n strict with
  | ok u =>
    have := h.mp hr
    simp only [reduceCtorEq, false_iff]
    rintro ⟨h1, h2, _⟩
    exact this h1 h2
  | error e' =>
    have h2 : strict = true ∧ NextIs d HyphenSpace rest := by
      apply Classical.byContradiction
      intro hn
      rw [h.mpr (fun hs hh => hn ⟨hs, hh⟩)] at hr
      simp at hr
    have h3 : e' = .extraItems n := by
      unfold noExtraItems at hr
      split at hr
      · simp at hr
      · split at hr
        · simpa using hr.symm
        · simp at hr
    subst h3
    simp only [Except.error.injEq]
    exact ⟨fun hh => ⟨h2.1, h2.2, hh.symm⟩, fun hh => hh.2.2.symm⟩

theorem noExtraRows_error {c : Char} (hc : c = ',' ∨ c = '|' ∨ c = '\t') (rest : List Line) (d n : Nat) (strict : Bool) (e : Err) :
    noExtraRows rest.head? d n c strict = .error e ↔
      strict = true ∧ NextIs d (fun content => ¬ HyphenSpace content ∧ LooksLikeRow c content) rest ∧ e = .extraRows n := by
  have h := noExtraRows_iff hc rest d n strict ()
  cases hr : noExtraRows rest.head? d n c strict with
  | ok u =>
    have := h.mp hr
    simp only [reduceCtorEq, false_iff]
    rintro ⟨h1, h2, _⟩
    exact this h1 h2
  | error e' =>
    have h2 : strict = true ∧ NextIs d (fun content => ¬ HyphenSpace content ∧ LooksLikeRow c content) rest := by
      apply Classical.byContradiction
      intro hn
      rw [h.mpr (fun hs hh => hn ⟨hs, hh⟩)] at hr
      simp at hr
    have h3 : e' = .extraRows n := by
      unfold noExtraRows at hr
      split at hr
      · simp at hr
      · split at hr
        · simpa using hr.symm
        · simp at hr
    subst h3
    simp only [Except.error.injEq]
    exact ⟨fun hh => ⟨h2.1, h2.2, hh.symm⟩, fun hh => hh.2.2.symm⟩

theorem checkBlanks_error (ctx : Ctx) (table : Bool) (body : List Line) (e : Err) :
    checkBlanks ctx table (body.head?.map (·.num)) (body.getLast?.map (·.num)) = .error e ↔
      ctx.strict = true ∧ ∃ b, FirstBlankWithin ctx.blanks body b ∧ e = .blankLine b table := by
  unfold checkBlanks FirstBlankWithin
  cases body with
  | nil => simp
  | cons line body =>
    simp only [List.head?_cons, Option.map_some]
    cases hl : (line :: body).getLast? with
    | none => simp at hl
    | some l =>
      simp only [Option.map_some]
      unfold noBlankInRange
      cases hs : ctx.strict with
      | false => simp
      | true =>
        simp only [if_true, true_and]
        cases hf : ctx.blanks.find? (fun b => decide (line.num < b) && decide (b < l.num)) with
        | none =>
          simp only [reduceCtorEq, false_iff]
          rintro ⟨b, ⟨f, l', before, after, h1, h2, h3, h4, h5, _⟩, _⟩
          simp only [Option.some.injEq] at h1 h2
          subst h1 h2
          rw [List.find?_eq_none] at hf
          exact hf b (by rw [h3]; simp) (by simp [h4, h5])
        | some b =>
          simp only [Except.error.injEq]
          obtain ⟨hp, as, bs, hab, hno⟩ := List.find?_eq_some_iff_append.mp hf
          simp only [Bool.and_eq_true, decide_eq_true_eq] at hp
          constructor
          · rintro rfl
            refine ⟨b, ⟨line, l, as, bs, rfl, rfl, hab, hp.1, hp.2, ?_⟩, rfl⟩
            intro x hx hxx
            have := hno x hx
            simp [hxx.1, hxx.2] at this
          · rintro ⟨b', ⟨f, l', before, after, h1, h2, h3, h4, h5, h6⟩, rfl⟩
            simp only [Option.some.injEq] at h1 h2
            subst h1 h2
            have : ctx.blanks.find? (fun b => decide (line.num < b) && decide (b < l.num)) = some b' := by
              rw [List.find?_eq_some_iff_append]
              refine ⟨by simp [h4, h5], before, after, h3, fun x hx => ?_⟩
              have := h6 x hx
              simp only [Bool.not_eq_true', Bool.and_eq_false_iff, decide_eq_false_iff_not]
              omega
            rw [hf] at this
            simp only [Option.some.injEq] at this
            rw [this]

/-! ## Inline arrays and tables -/

section
variable {F : Type} [F64 F]

theorem decodeInline_error {h : Header} (hg : GoodHeader h) {text : Str} (ht : trim text ≠ []) (strict : Bool) (e : Err) :
    decodeInline (F := F) h text strict = .error e ↔ ∃ cells, Cells h.delim text cells ∧
      (TokenFault F cells e ∨ ∃ prims : List (Prim F), Pointwise TokenMeans cells prims ∧ strict = true ∧
        cells.length ≠ h.length ∧ e = .countMismatch h.length .inlineItems cells.length) := by
  have hcells := parseDelimited_cells (delim_ne_quote hg.delim) text
  have hc := (hcells _).mp rfl
  unfold decodeInline
  rw [if_neg (by simpa using ht), bind_error, row_error _ (cells_trimmed hc)]
  constructor
  · rintro (h1 | ⟨ps, h1, h2⟩)
    · exact ⟨_, hc, Or.inl h1⟩
    · rw [mapRow_cells (cells_trimmed hc)] at h1
      rcases bind_error.mp h2 with h2 | ⟨u, h2, h3⟩
      · obtain ⟨h3, h4, h5⟩ := (assertCount_error _ _ _ _ _).mp h2
        rw [← h1.length_eq] at h4 h5
        exact ⟨_, hc, Or.inr ⟨ps, h1, h3, h4, h5⟩⟩
      · simp [pure, Except.pure] at h3
  · rintro ⟨cells, hcl, h⟩
    rw [(hcells _).mpr hcl]
    rcases h with h | ⟨ps, h1, h2, h3, h4⟩
    · exact Or.inl h
    · refine Or.inr ⟨ps, (mapRow_cells (cells_trimmed hcl) _).mpr h1, bind_error.mpr (Or.inl ?_)⟩
      rw [assertCount_error, ← h1.length_eq]
      exact ⟨h2, h3, h4⟩

theorem rowFault_iff (ctx : Ctx) (fields : List FieldName) {d : Char} (hd : d ≠ '"') (content : Str) (e : Err) :
    (assertCount (parseDelimitedValues content d).length fields.length .rowValues ctx.strict = .error e ∨
      (assertCount (parseDelimitedValues content d).length fields.length .rowValues ctx.strict = .ok () ∧
        mapRowValues (F := F) (parseDelimitedValues content d) = .error e)) ↔ RowFault F ctx.strict fields d content e := by
  have hcells := parseDelimited_cells hd content
  have hc := (hcells _).mp rfl
  rw [assertCount_error, row_error _ (cells_trimmed hc)]
  constructor
  · rintro (⟨h1, h2, rfl⟩ | ⟨h1, h2⟩)
    · exact .count hc h1 h2
    · exact .token hc (fun hs => assertCount_ok h1 hs) h2
  · intro h
    cases h with
    | count hcl h1 h2 => rw [(hcells _).mpr hcl]; exact Or.inl ⟨h1, h2, rfl⟩
    | token hcl h1 h2 => rw [(hcells _).mpr hcl]; exact Or.inr ⟨(assertCount_iff _ _ _ _).1 h1, h2⟩

theorem tabularLoop_error_sound (ctx : Ctx) (fields : List FieldName) {d : Char} (hd : d ≠ '"') (n D : Nat) (rest : List Line) :
    ∀ (last : Option Line) (count : Nat) (s e : Option Nat) (err : Err),
    tabularLoop (F := F) ctx fields d n D rest last count s e = .error err →
    ∃ (body : List Line) (line : Line) (rest' : List Line) (ts : List (ETree F)), rest = body ++ line :: rest' ∧
      (∀ line ∈ body, line.depth = D) ∧ Pointwise (TableRow ctx.strict fields d) body ts ∧ count + body.length < n ∧
      line.depth = D ∧ RowFault F ctx.strict fields d line.content err := by
  induction rest with
  | nil =>
    intro last count s e err h
    rw [tabularLoop] at h
    simp at h
  | cons line rest ih =>
    intro last count s e err h
    rw [tabularLoop.eq_def] at h
    simp only at h
    split at h
    · rename_i hlt
      split at h
      · simp at h
      · split at h
        · rename_i hdep
          have here : RowFault F ctx.strict fields d line.content err → ∃ (body : List Line) (l : Line) (rest' : List Line) (ts : List (ETree F)),
              line :: rest = body ++ l :: rest' ∧ (∀ line ∈ body, line.depth = D) ∧ Pointwise (TableRow ctx.strict fields d) body ts ∧
              count + body.length < n ∧ l.depth = D ∧ RowFault F ctx.strict fields d l.content err :=
            fun hf => ⟨[], line, rest, [], rfl, by simp, .nil, by simpa using hlt, hdep, hf⟩
          rcases bind_error.mp h with h1 | ⟨u, h1, h⟩
          · exact here ((rowFault_iff ctx fields hd _ _).mp (Or.inl h1))
          · rcases bind_error.mp h with h2 | ⟨ps, h2, h⟩
            · exact here ((rowFault_iff ctx fields hd _ _).mp (Or.inr ⟨h1, h2⟩))
            · rcases bind_error.mp h with h3 | ⟨out, h3, h⟩
              · obtain ⟨body, l, rest', ts, rfl, e2, e3, e4, e5, e6⟩ := ih _ _ _ _ _ h3
                have hcl := (parseDelimited_cells hd line.content _).mp rfl
                refine ⟨line :: body, l, rest', .obj (padFields fields ps) :: ts, rfl, ?_, .cons ?_ e3, by simp; omega, e5, e6⟩
                · intro l hl
                  rcases List.mem_cons.mp hl with rfl | hl
                  · exact hdep
                  · exact e2 l hl
                · exact ⟨_, ps, hcl, (mapRow_cells (cells_trimmed hcl) _).mp h2, fun hs => assertCount_ok h1 hs, rfl⟩
              · simp [pure, Except.pure] at h
        · simp at h
    · simp at h

theorem tabularLoop_error_complete (ctx : Ctx) (fields : List FieldName) {d : Char} (hd : d ≠ '"') (n D : Nat)
    (body : List Line) (line : Line) (rest' : List Line) (ts : List (ETree F)) (err : Err)
    (hr : Pointwise (TableRow ctx.strict fields d) body ts) (hl : line.depth = D) (hf : RowFault F ctx.strict fields d line.content err) :
    ∀ (last : Option Line) (count : Nat) (s e : Option Nat), (∀ line ∈ body, line.depth = D) → count + body.length < n →
    tabularLoop (F := F) ctx fields d n D (body ++ line :: rest') last count s e = .error err := by
  induction hr with
  | nil =>
    intro last count s e _ hc
    rw [List.nil_append, tabularLoop.eq_def]
    simp only
    rw [if_pos (by simpa using hc), if_neg (by omega), if_pos hl, bind_error]
    rcases (rowFault_iff ctx fields hd _ _).mpr hf with h | ⟨h1, h2⟩
    · exact Or.inl h
    · exact Or.inr ⟨(), h1, bind_error.mpr (Or.inl h2)⟩
  | @cons l t body ts hrow hrest ih =>
    intro last count s e hdep hc
    rw [List.cons_append, tabularLoop.eq_def]
    simp only
    rw [if_pos (by simp at hc; omega), if_neg (by have := hdep l (by simp); omega), if_pos (hdep l (by simp))]
    obtain ⟨cells, prims, hcl, hp, hlen, rfl⟩ := hrow
    rw [(parseDelimited_cells hd l.content _).mpr hcl, (assertCount_iff cells.length fields.length .rowValues ctx.strict).1 hlen,
      (mapRow_cells (cells_trimmed hcl) _).mpr hp]
    have := fun s' => ih (some l) (count + 1) s' (some l.num) (fun x hx => hdep x (by simp [hx])) (by simp at hc; omega)
    simp only [bind, Except.bind, this]

end

/-! ## Lines -/

theorem scanLine_error {indent k n : Nat} {strict : Bool} {content : Str} (hb : ¬ BlankLine content)
    (hh : content.head? ≠ some ' ') (e : Err) :
    parseLine (List.replicate k ' ' ++ content) n indent strict = .error e ↔
      strict = true ∧ (content.head? = some '\t' ∧ e = .tabsInIndent n ∨
        content.head? ≠ some '\t' ∧ k % indent ≠ 0 ∧ e = .badIndent n indent k) := by
  have e1 : ((List.replicate k ' ' ++ content).takeWhile (· == ' ')).length = k := by
    rw [takeWhile_replicate_append hh]; simp
  have e2 : (List.replicate k ' ' ++ content).drop k = content := by rw [List.drop_append]; simp
  unfold parseLine
  simp only [e1, e2]
  rw [if_neg (by simpa using fun hh => hb (trim_eq_nil.mp hh))]
  cases strict with
  | false => simp
  | true =>
    simp only [if_true, true_and]
    by_cases ht : content.head? = some '\t'
    · rw [if_pos ((tab_in_indent hh).mpr ht)]
      simp only [Except.error.injEq, ht, true_and, ne_eq, not_true, false_and, or_false]
      exact eq_comm
    · rw [if_neg (fun h => ht ((tab_in_indent hh).mp h))]
      simp only [ht, false_and, ne_eq, not_false_iff, true_and, false_or]
      by_cases h0 : indent = 0
      · subst h0
        simp only [if_true, Nat.mod_zero]
        by_cases hk : k > 0
        · rw [if_pos hk]
          simp only [Except.error.injEq]
          exact ⟨fun h => ⟨by omega, h.symm⟩, fun h => h.2.symm⟩
        · rw [if_neg hk]
          simp only [reduceCtorEq, false_iff]
          rintro ⟨h, _⟩
          omega
      · rw [if_neg h0]
        by_cases hm : k % indent = 0
        · rw [if_neg (by simp [hm])]
          simp [hm]
        · have : k > 0 := by
            rcases Nat.eq_zero_or_pos k with rfl | h
            · simp at hm
            · exact h
          rw [if_pos (by simp [hm, this])]
          simp only [Except.error.injEq]
          exact ⟨fun h => ⟨hm, h.symm⟩, fun h => h.2.symm⟩

/-- A fault of the line `n`. -/
def LineFault (indent n : Nat) (raw : Str) (e : Err) : Prop :=
  ∃ k content, raw = List.replicate k ' ' ++ content ∧ ¬ BlankLine content ∧
    (content.head? = some '\t' ∧ e = .tabsInIndent n ∨
      content.head? ≠ some ' ' ∧ content.head? ≠ some '\t' ∧ k % indent ≠ 0 ∧ e = .badIndent n indent k)

theorem parseLine_error (indent n : Nat) (strict : Bool) (raw : Str) (e : Err) :
    parseLine raw n indent strict = .error e ↔ strict = true ∧ LineFault indent n raw e := by
  constructor
  · intro h
    by_cases hb : BlankLine raw
    · rw [scanLine_blank hb] at h; simp at h
    · obtain ⟨k, content, rfl, hh⟩ := raw_split raw
      have hbc : ¬ BlankLine content := fun h => hb (blank_replicate.mpr h)
      obtain ⟨hs, h⟩ := (scanLine_error hbc hh e).mp h
      refine ⟨hs, k, content, rfl, hbc, ?_⟩
      rcases h with h | h
      · exact Or.inl h
      · exact Or.inr ⟨hh, h⟩
  · rintro ⟨hs, k, content, rfl, hbc, h⟩
    have hh : content.head? ≠ some ' ' := by
      rcases h with h | h
      · rw [h.1]; decide
      · exact h.1
    refine (scanLine_error hbc hh e).mpr ⟨hs, ?_⟩
    rcases h with h | h
    · exact Or.inl h
    · exact Or.inr h.2

theorem parseLines_error (indent : Nat) (strict : Bool) (source : List Str) (n : Nat) (e : Err) :
    parseLines indent strict source n = .error e ↔ strict = true ∧ ∃ before raw after ls bs,
      source = before ++ raw :: after ∧ ScansTo indent true n before ls bs ∧ LineFault indent (n + before.length + 1) raw e := by
  induction source generalizing n with
  | nil => simp [parseLines]
  | cons raw rest ih =>
    rw [parseLines]
    constructor
    · intro h
      split at h
      · rename_i e' h1
        simp only [Except.error.injEq] at h
        subst h
        obtain ⟨hs, hf⟩ := (parseLine_error _ _ _ _ _).mp h1
        exact ⟨hs, [], raw, rest, [], [], rfl, .nil n, hf⟩
      · rename_i sc h1
        split at h
        · rename_i e' h2
          simp only [Except.error.injEq] at h
          subst h
          obtain ⟨hs, before, raw', after, ls, bs, rfl, h3, h4⟩ := (ih _).mp h2
          subst hs
          have h5 : ∃ ls bs, ScansTo indent true n (raw :: before) ls bs := by
            have h6 := (scansTo_iff _ _ _ _ _ _).mpr h3
            cases hp : parseLines indent true (raw :: before) n with
            | error e2 =>
              rw [parseLines, h1] at hp
              simp only [h6] at hp
              cases sc <;> simp at hp
            | ok r => exact ⟨r.1, r.2, (scansTo_iff _ _ _ _ _ _).mp hp⟩
          obtain ⟨ls', bs', h5⟩ := h5
          refine ⟨rfl, raw :: before, raw', after, ls', bs', rfl, h5, ?_⟩
          have : n + (raw :: before).length + 1 = n + 1 + before.length + 1 := by simp; omega
          rw [this]; exact h4
        · split at h <;> simp at h
    · rintro ⟨hs, before, raw', after, ls, bs, hab, h1, h2⟩
      subst hs
      cases before with
      | nil =>
        simp only [List.nil_append, List.cons.injEq] at hab
        obtain ⟨rfl, rfl⟩ := hab
        rw [(parseLine_error indent (n + 1) true raw e).mpr ⟨rfl, h2⟩]
      | cons r before =>
        simp only [List.cons_append, List.cons.injEq] at hab
        obtain ⟨rfl, rfl⟩ := hab
        have h3 := (scansTo_iff _ _ _ _ _ _).mpr h1
        rw [parseLines] at h3
        cases hp : parseLine raw (n + 1) indent true with
        | error e' => rw [hp] at h3; simp at h3
        | ok sc =>
          rw [hp] at h3
          simp only at h3 ⊢
          have h4 : parseLines indent true (before ++ raw' :: after) (n + 1) = .error e := by
            rw [ih]
            cases hq : parseLines indent true before (n + 1) with
            | error e' => rw [hq] at h3; simp at h3
            | ok r =>
              refine ⟨rfl, before, raw', after, r.1, r.2, rfl, (scansTo_iff _ _ _ _ _ _).mp hq, ?_⟩
              have : n + (raw :: before).length + 1 = n + 1 + before.length + 1 := by simp; omega
              rw [this] at h2; exact h2
          rw [h4]

theorem scanFails_iff (indent : Nat) (strict : Bool) (source : List Str) (e : Err) :
    parseLines indent strict source 0 = .error e ↔ strict = true ∧ ScanFails indent source e := by
  rw [parseLines_error]
  refine and_congr_right fun _ => ?_
  constructor
  · rintro ⟨before, raw, after, ls, bs, rfl, h1, k, content, rfl, hb, h⟩
    rw [Nat.zero_add] at h
    rcases h with ⟨h2, rfl⟩ | ⟨h2, h3, h4, rfl⟩
    · exact .tab h1 hb h2
    · exact .spaces h1 hb h2 h3 h4
  · intro h
    cases h with
    | tab h1 hb h2 => exact ⟨_, _, _, _, _, rfl, h1, _, _, rfl, hb, Or.inl ⟨h2, by rw [Nat.zero_add]⟩⟩
    | spaces h1 hb h2 h3 h4 => exact ⟨_, _, _, _, _, rfl, h1, _, _, rfl, hb, Or.inr ⟨h2, h3, h4, by rw [Nat.zero_add]⟩⟩

end Toon
