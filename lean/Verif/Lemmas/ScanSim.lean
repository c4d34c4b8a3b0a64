import Verif.Lemmas.Sim
import Verif.Lemmas.Scan

/-! Scanning with and without blank lines, strictly and laxly. -/

namespace Toon

theorem blankLine_iff (raw : Str) : (trim (raw.drop (raw.takeWhile (· == ' ')).length)).isEmpty = true ↔ BlankLine raw := by
  rw [List.isEmpty_iff, trim_eq_nil, drop_takeWhile_length]
  constructor
  · intro h c hc
    rw [← List.takeWhile_append_dropWhile (p := (· == ' ')) (l := raw)] at hc
    rcases List.mem_append.mp hc with hc | hc
    · have := mem_takeWhile hc
      simp only [beq_iff_eq] at this
      subst this; decide
    · exact h c hc
  · intro h c hc
    exact h c (((List.dropWhile_suffix _).subset hc))

theorem parseLine_blank {raw : Str} (h : BlankLine raw) (num indent : Nat) (strict : Bool) :
    parseLine raw num indent strict = .ok .blank := by
  unfold parseLine
  simp only [(blankLine_iff raw).mpr h, if_true]

/-- A line that is not blank: its number only shows in the number of the result. -/
theorem parseLine_content {raw : Str} (h : ¬ BlankLine raw) (indent : Nat) (strict : Bool) :
    (∃ d c, ∀ num, parseLine raw num indent strict = .ok (.line ⟨d, c, num⟩)) ∨
      (strict = true ∧ ∀ num, ∃ e, parseLine raw num indent strict = .error e) := by
  have hb : ¬ (trim (raw.drop (raw.takeWhile (· == ' ')).length)).isEmpty = true := fun hh => h ((blankLine_iff raw).mp hh)
  unfold parseLine
  simp only [if_neg hb]
  cases strict with
  | false => exact .inl ⟨_, _, fun num => rfl⟩
  | true =>
    simp only [if_true]
    split
    · exact .inr ⟨trivial, fun num => ⟨_, rfl⟩⟩
    · split
      · split
        · exact .inr ⟨trivial, fun num => ⟨_, rfl⟩⟩
        · exact .inl ⟨_, _, fun num => rfl⟩
      · split
        · exact .inr ⟨trivial, fun num => ⟨_, rfl⟩⟩
        · exact .inl ⟨_, _, fun num => rfl⟩

theorem parseLine_lax {raw : Str} {num indent : Nat} {sc : Scanned} (h : parseLine raw num indent true = .ok sc) :
    parseLine raw num indent false = .ok sc := by
  unfold parseLine at h ⊢
  simp only [if_true, Bool.false_eq_true, if_false] at h ⊢
  split
  · rename_i hb; rw [if_pos hb] at h; exact h
  · rename_i hb
    rw [if_neg hb] at h
    split at h
    · simp at h
    · split at h
      · split at h
        · simp at h
        · exact h
      · split at h
        · simp at h
        · exact h

/-- What strict scanning accepts lax scanning accepts with the same result. -/
theorem parseLines_lax {indent : Nat} {source : List Str} : ∀ {num : Nat} {out : List Line × List Nat},
    parseLines indent true source num = .ok out → parseLines indent false source num = .ok out := by
  induction source with
  | nil => intro num out h; exact h
  | cons raw rest ih =>
    intro num out h
    rw [parseLines] at h ⊢
    split at h
    · simp at h
    · rename_i sc hsc
      rw [parseLine_lax hsc]
      split at h
      · simp at h
      · rename_i ls bs hls
        rw [ih hls]
        exact h

/-- Lax scanning never fails. -/
theorem parseLines_lax_ok (indent : Nat) (source : List Str) : ∀ num, ∃ out, parseLines indent false source num = .ok out := by
  induction source with
  | nil => intro num; exact ⟨_, rfl⟩
  | cons raw rest ih =>
    intro num
    obtain ⟨⟨ls, bs⟩, h⟩ := ih (num + 1)
    rw [parseLines]
    by_cases hb : BlankLine raw
    · rw [parseLine_blank hb, h]; exact ⟨_, rfl⟩
    · rcases parseLine_content hb indent false with ⟨d, c, hl⟩ | ⟨hf, _⟩
      · rw [hl, h]; exact ⟨_, rfl⟩
      · simp at hf

/-- Scanning without the blank lines. -/
theorem parseLines_delete (indent : Nat) (strict : Bool) (source : List Str) : ∀ n m,
    (∃ ls bs ls', parseLines indent strict source n = .ok (ls, bs) ∧
      parseLines indent strict (deleteBlank source) m = .ok (ls', []) ∧ LinesRel (fun _ _ => True) ls ls') ∨
    (∃ e e', parseLines indent strict source n = .error e ∧ parseLines indent strict (deleteBlank source) m = .error e') := by
  induction source with
  | nil => intro n m; exact .inl ⟨[], [], [], rfl, rfl, .nil⟩
  | cons raw rest ih =>
    intro n m
    by_cases hb : BlankLine raw
    · have hd : deleteBlank (raw :: rest) = deleteBlank rest := by simp [deleteBlank, hb]
      rw [hd, parseLines, parseLine_blank hb]
      rcases ih (n + 1) m with ⟨ls, bs, ls', h1, h2, h3⟩ | ⟨e, e', h1, h2⟩
      · exact .inl ⟨ls, (n + 1) :: bs, ls', by simp only [h1], h2, h3⟩
      · exact .inr ⟨e, e', by simp only [h1], h2⟩
    · have hd : deleteBlank (raw :: rest) = raw :: deleteBlank rest := by simp [deleteBlank, hb]
      rw [hd, parseLines, parseLines]
      rcases parseLine_content hb indent strict with ⟨d, c, hl⟩ | ⟨_, hl⟩
      · rw [hl, hl]
        rcases ih (n + 1) (m + 1) with ⟨ls, bs, ls', h1, h2, h3⟩ | ⟨e, e', h1, h2⟩
        · exact .inl ⟨⟨d, c, n + 1⟩ :: ls, bs, ⟨d, c, m + 1⟩ :: ls', by simp only [h1], by simp only [h2],
            .cons ⟨rfl, rfl, trivial⟩ h3⟩
        · exact .inr ⟨e, e', by simp only [h1], by simp only [h2]⟩
      · obtain ⟨e, he⟩ := hl (n + 1)
        obtain ⟨e', he'⟩ := hl (m + 1)
        exact .inr ⟨e, e', by rw [he], by rw [he']⟩

/-- Scanning only blank lines. -/
theorem parseLines_blanks (indent : Nat) (strict : Bool) {source : List Str} (hb : ∀ l ∈ source, BlankLine l) : ∀ n,
    ∃ bs, parseLines indent strict source n = .ok ([], bs) ∧ ∀ b ∈ bs, n < b ∧ b ≤ n + source.length := by
  induction source with
  | nil => intro n; exact ⟨[], rfl, by simp⟩
  | cons raw rest ih =>
    intro n
    obtain ⟨bs, h1, h2⟩ := ih (fun l hl => hb l (by simp [hl])) (n + 1)
    refine ⟨(n + 1) :: bs, ?_, ?_⟩
    · rw [parseLines, parseLine_blank (hb raw (by simp)), h1]
    · intro b hbm
      rcases List.mem_cons.mp hbm with rfl | hbm
      · simp
      · have := h2 b hbm
        simp only [List.length_cons]; omega

/-- Scanning with trailing blank lines. -/
theorem parseLines_trailing (indent : Nat) (strict : Bool) {blanks : List Str} (hb : ∀ l ∈ blanks, BlankLine l)
    (source : List Str) : ∀ n,
    (∃ ls bs more, parseLines indent strict source n = .ok (ls, bs) ∧
      parseLines indent strict (source ++ blanks) n = .ok (ls, bs ++ more) ∧ (∀ l ∈ ls, l.num ≤ n + source.length) ∧
      ∀ b ∈ more, n + source.length < b) ∨
    (∃ e, parseLines indent strict source n = .error e ∧ parseLines indent strict (source ++ blanks) n = .error e) := by
  induction source with
  | nil =>
    intro n
    obtain ⟨bs, h1, h2⟩ := parseLines_blanks indent strict hb n
    exact .inl ⟨[], [], bs, rfl, by simpa using h1, by simp, fun b hb => by simpa using (h2 b hb).1⟩
  | cons raw rest ih =>
    intro n
    rw [List.cons_append, parseLines, parseLines]
    cases hp : parseLine raw (n + 1) indent strict with
    | error e => exact .inr ⟨e, rfl, rfl⟩
    | ok sc =>
      rcases ih (n + 1) with ⟨ls, bs, more, h1, h2, h3, h4⟩ | ⟨e, h1, h2⟩
      · have hlt : ∀ b ∈ more, n + (raw :: rest).length < b := by
          intro b hb; have := h4 b hb; simp only [List.length_cons]; omega
        have hls : ∀ l ∈ ls, l.num ≤ n + (raw :: rest).length := by
          intro b hb; have := h3 b hb; simp only [List.length_cons]; omega
        cases sc with
        | blank =>
          exact .inl ⟨ls, (n + 1) :: bs, more, by simp only [h1], by simp only [h2]; rfl, hls, hlt⟩
        | line l =>
          refine .inl ⟨l :: ls, bs, more, by simp only [h1], by simp only [h2], ?_, hlt⟩
          intro x hx
          rcases List.mem_cons.mp hx with rfl | hx
          · have hnb : ¬ BlankLine raw := by
              intro hbl; rw [parseLine_blank hbl] at hp; simp at hp
            rcases parseLine_content hnb indent strict with ⟨d, c, hl⟩ | ⟨_, hl⟩
            · rw [hl] at hp
              simp only [Except.ok.injEq, Scanned.line.injEq] at hp
              subst hp
              simp only [List.length_cons]; omega
            · obtain ⟨e, he⟩ := hl (n + 1)
              rw [he] at hp; simp at hp
          · exact hls x hx
      · exact .inr ⟨e, by simp only [h1], by simp only [h2]⟩

/-- Scanning with all numbers shifted. -/
theorem parseLines_shift (indent : Nat) (strict : Bool) (k : Nat) (source : List Str) : ∀ n,
    (∃ ls bs ls', parseLines indent strict source n = .ok (ls, bs) ∧
      parseLines indent strict source (n + k) = .ok (ls', bs.map (· + k)) ∧
      LinesRel (fun a b => b = a + k ∧ n < a) ls ls') ∨
    (∃ e e', parseLines indent strict source n = .error e ∧ parseLines indent strict source (n + k) = .error e') := by
  induction source with
  | nil => intro n; exact .inl ⟨[], [], [], rfl, rfl, .nil⟩
  | cons raw rest ih =>
    intro n
    have hn : n + k + 1 = n + 1 + k := by omega
    have hmono : ∀ {ls ls' : List Line}, LinesRel (fun a b => b = a + k ∧ n + 1 < a) ls ls' →
        LinesRel (fun a b => b = a + k ∧ n < a) ls ls' := by
      intro ls ls' h
      induction h with
      | nil => exact .nil
      | cons h _ ih => exact .cons ⟨h.1, h.2.1, h.2.2.1, by have := h.2.2.2; omega⟩ ih
    rw [parseLines, parseLines]
    by_cases hb : BlankLine raw
    · rw [parseLine_blank hb, parseLine_blank hb, hn]
      rcases ih (n + 1) with ⟨ls, bs, ls', h1, h2, h3⟩ | ⟨e, e', h1, h2⟩
      · exact .inl ⟨ls, (n + 1) :: bs, ls', by simp only [h1], by simp only [h2]; rfl, hmono h3⟩
      · exact .inr ⟨e, e', by simp only [h1], by simp only [h2]⟩
    · rcases parseLine_content hb indent strict with ⟨d, c, hl⟩ | ⟨_, hl⟩
      · rw [hl, hl, hn]
        rcases ih (n + 1) with ⟨ls, bs, ls', h1, h2, h3⟩ | ⟨e, e', h1, h2⟩
        · exact .inl ⟨⟨d, c, n + 1⟩ :: ls, bs, ⟨d, c, n + 1 + k⟩ :: ls', by simp only [h1], by simp only [h2],
            .cons ⟨rfl, rfl, rfl, Nat.lt_succ_self n⟩ (hmono h3)⟩
        · exact .inr ⟨e, e', by simp only [h1], by simp only [h2]⟩
      · obtain ⟨e, he⟩ := hl (n + 1)
        obtain ⟨e', he'⟩ := hl (n + k + 1)
        exact .inr ⟨e, e', by rw [he], by rw [he']⟩

/-- Leading blank lines are scanned first. -/
theorem parseLines_leading (indent : Nat) (strict : Bool) {blanks : List Str} (hb : ∀ l ∈ blanks, BlankLine l)
    (source : List Str) : ∀ n, ∃ more, (∀ b ∈ more, b ≤ n + blanks.length) ∧
      parseLines indent strict (blanks ++ source) n =
        (parseLines indent strict source (n + blanks.length)).map fun out => (out.1, more ++ out.2) := by
  induction blanks with
  | nil =>
    intro n
    refine ⟨[], by simp, ?_⟩
    simp only [List.nil_append, List.length_nil, Nat.add_zero]
    cases parseLines indent strict source n <;> rfl
  | cons raw rest ih =>
    intro n
    obtain ⟨more, h1, h2⟩ := ih (fun l hl => hb l (by simp [hl])) (n + 1)
    refine ⟨(n + 1) :: more, ?_, ?_⟩
    · intro b hbm
      simp only [List.length_cons]
      rcases List.mem_cons.mp hbm with rfl | hbm
      · omega
      · have := h1 b hbm; omega
    · rw [List.cons_append, parseLines, parseLine_blank (hb raw (by simp)), h2, List.length_cons,
        show n + (rest.length + 1) = n + 1 + rest.length by omega]
      cases parseLines indent strict source (n + 1 + rest.length) <;> rfl

section
variable {F : Type} [F64 F]

theorem linesRel_refl {Q : Nat → Nat → Prop} : ∀ {ls : List Line}, (∀ l ∈ ls, Q l.num l.num) → LinesRel Q ls ls
  | [], _ => .nil
  | l :: ls, h => .cons ⟨rfl, rfl, h l (by simp)⟩ (linesRel_refl fun x hx => h x (by simp [hx]))

theorem compat_lax (bs1 bs2 : List Nat) : Compat (fun _ => True) (fun _ _ => True) ⟨false, bs1⟩ ⟨false, bs2⟩ :=
  ⟨fun h => h, fun _ _ _ => rfl, fun _ _ _ _ _ _ _ => rfl⟩

theorem compat_strict_lax (bs1 bs2 : List Nat) : Compat (fun _ => False) (fun _ _ => True) ⟨true, bs1⟩ ⟨false, bs2⟩ := by
  refine ⟨fun _ => rfl, fun _ _ h => h.elim, fun s1 s2 e1 e2 _ _ table => ?_⟩
  simp only [noBlankInRange, if_true, Bool.false_eq_true, if_false]
  cases bs1.find? (fun b => decide (s1 < b) && decide (b < e1)) with
  | some b => exact id
  | none => exact rfl

theorem compat_delete (strict : Bool) (bs : List Nat) : Compat (fun _ => False) (fun _ _ => True) ⟨strict, bs⟩ ⟨strict, []⟩ := by
  refine ⟨id, fun _ _ h => h.elim, fun s1 s2 e1 e2 _ _ table => ?_⟩
  unfold noBlankInRange
  simp only [List.find?_nil]
  cases strict with
  | false => exact rfl
  | true =>
    simp only [if_true]
    cases bs.find? (fun b => decide (s1 < b) && decide (b < e1)) with
    | some b => exact id
    | none => exact rfl

theorem compat_trailing (strict : Bool) (bs more : List Nat) (M : Nat) (h : ∀ b ∈ more, M < b) :
    Compat (fun _ => True) (fun a b => a = b ∧ a ≤ M) ⟨strict, bs⟩ ⟨strict, bs ++ more⟩ := by
  refine ⟨id, fun _ _ _ => rfl, ?_⟩
  rintro s _ e _ ⟨rfl, hs⟩ ⟨rfl, he⟩ table
  have : (more.find? fun b => decide (s < b) && decide (b < e)) = none := by
    rw [List.find?_eq_none]
    intro b hb
    have := h b hb
    simp only [Bool.and_eq_true, decide_eq_true_eq]; omega
  unfold noBlankInRange
  simp only [List.find?_append, this, Option.or_none]
  exact Sim.eq _

theorem find_leading {bs more : List Nat} {k : Nat} (h : ∀ b ∈ more, b ≤ k) (s e : Nat) :
    (more ++ bs.map (· + k)).find? (fun b => decide (s + k < b) && decide (b < e + k)) =
      (bs.find? fun b => decide (s < b) && decide (b < e)).map (· + k) := by
  have h1 : (more.find? fun b => decide (s + k < b) && decide (b < e + k)) = none := by
    rw [List.find?_eq_none]
    intro b hb
    have := h b hb
    simp only [Bool.and_eq_true, decide_eq_true_eq]; omega
  rw [List.find?_append, h1, Option.none_or, List.find?_map]
  congr 2
  funext b
  simp

theorem compat_leading (strict : Bool) (bs more : List Nat) (k : Nat) (h : ∀ b ∈ more, b ≤ k) :
    Compat (fun _ => False) (fun a b => b = a + k ∧ 0 < a) ⟨strict, bs⟩ ⟨strict, more ++ bs.map (· + k)⟩ := by
  refine ⟨id, fun _ _ h => h.elim, ?_⟩
  rintro s _ e _ ⟨rfl, hs⟩ ⟨rfl, he⟩ table
  unfold noBlankInRange
  simp only [find_leading h]
  cases strict with
  | false => exact rfl
  | true => cases bs.find? (fun b => decide (s < b) && decide (b < e)) <;> simp [Sim]

theorem compat_leading' (strict : Bool) (bs more : List Nat) (k : Nat) (h : ∀ b ∈ more, b ≤ k) :
    Compat (fun _ => False) (fun b a => b = a + k ∧ 0 < a) ⟨strict, more ++ bs.map (· + k)⟩ ⟨strict, bs⟩ := by
  refine ⟨id, fun _ _ h => h.elim, ?_⟩
  rintro _ s _ e ⟨rfl, hs⟩ ⟨rfl, he⟩ table
  unfold noBlankInRange
  simp only [find_leading h]
  cases strict with
  | false => exact rfl
  | true => cases bs.find? (fun b => decide (s < b) && decide (b < e)) <;> simp [Sim]

/-- Strict success gives lax success with the same events. -/
theorem decodeStream_lax {indent : Nat} {source : List Str} {evs : List (Ev F)}
    (h : decodeStream indent true source = .ok evs) : decodeStream indent false source = .ok evs := by
  unfold decodeStream at h ⊢
  cases hp : parseLines indent true source 0 with
  | error e => rw [hp] at h; simp [bind, Except.bind] at h
  | ok out =>
    obtain ⟨ls, bs⟩ := out
    rw [hp] at h
    rw [parseLines_lax hp]
    simp only [bind, Except.bind] at h ⊢
    obtain ⟨b, hb, rfl⟩ := (sim_lines (compat_strict_lax bs bs) (linesRel_refl (ls := ls) fun _ _ => trivial)).ok h
    exact hb

theorem decodeStream_lax_delete (indent : Nat) (source : List Str) :
    decodeStream (F := F) indent false (deleteBlank source) = decodeStream indent false source := by
  unfold decodeStream
  rcases parseLines_delete indent false source 0 0 with ⟨ls, bs, ls', h1, h2, h3⟩ | ⟨e, e', h1, h2⟩
  · rw [h1, h2]
    simp only [bind, Except.bind]
    have := sim_lines (F := F) (compat_lax bs []) h3
    cases hd : decodeLines (F := F) ⟨false, bs⟩ ls with
    | ok a => obtain ⟨b, hb, rfl⟩ := this.ok hd; exact hb
    | error e => exact this.error trivial hd
  · obtain ⟨out, ho⟩ := parseLines_lax_ok indent source 0
    rw [ho] at h1; simp at h1

theorem decodeStream_delete {indent : Nat} {strict : Bool} {source : List Str} {evs : List (Ev F)}
    (h : decodeStream indent strict source = .ok evs) : decodeStream indent strict (deleteBlank source) = .ok evs := by
  unfold decodeStream at h ⊢
  rcases parseLines_delete indent strict source 0 0 with ⟨ls, bs, ls', h1, h2, h3⟩ | ⟨e, e', h1, h2⟩
  · rw [h1] at h
    rw [h2]
    simp only [bind, Except.bind] at h ⊢
    obtain ⟨b, hb, rfl⟩ := (sim_lines (compat_delete strict bs) h3).ok h
    exact hb
  · rw [h1] at h; simp [bind, Except.bind] at h

theorem decodeStream_trailing (indent : Nat) (strict : Bool) {blanks : List Str} (hb : ∀ l ∈ blanks, BlankLine l)
    (source : List Str) : decodeStream (F := F) indent strict (source ++ blanks) = decodeStream indent strict source := by
  unfold decodeStream
  rcases parseLines_trailing indent strict hb source 0 with ⟨ls, bs, more, h1, h2, h3, h4⟩ | ⟨e, h1, h2⟩
  · rw [h1, h2]
    simp only [bind, Except.bind]
    have := sim_lines (F := F) (compat_trailing strict bs more _ h4) (linesRel_refl fun l hl => ⟨rfl, h3 l hl⟩)
    cases hd : decodeLines (F := F) ⟨strict, bs⟩ ls with
    | ok a => obtain ⟨b, hb, rfl⟩ := this.ok hd; exact hb
    | error e => exact this.error trivial hd
  · rw [h1, h2]

/-- Leading blank lines only shift the line numbers in errors. -/
theorem decodeStream_leading (indent : Nat) (strict : Bool) {blanks : List Str} (hb : ∀ l ∈ blanks, BlankLine l)
    (source : List Str) (evs : List (Ev F)) : decodeStream (F := F) indent strict (blanks ++ source) = .ok evs ↔
      decodeStream indent strict source = .ok evs := by
  unfold decodeStream
  obtain ⟨more, hm, h0⟩ := parseLines_leading indent strict hb source 0
  rw [h0, Nat.zero_add]
  rw [Nat.zero_add] at hm
  have hs := parseLines_shift indent strict blanks.length source 0
  rw [Nat.zero_add] at hs
  rcases hs with ⟨ls, bs, ls', h1, h2, h3⟩ | ⟨e, e', h1, h2⟩
  · rw [h1, h2]
    simp only [bind, Except.bind, Except.map]
    have := sim_lines (F := F) (compat_leading strict bs more _ hm) h3
    cases hd : decodeLines (F := F) ⟨strict, bs⟩ ls with
    | ok a => obtain ⟨b, hb, rfl⟩ := this.ok hd; rw [hb]
    | error e =>
      have back := sim_lines (F := F) (compat_leading' strict bs more _ hm) h3.flip
      cases hd' : decodeLines (F := F) ⟨strict, more ++ bs.map (· + blanks.length)⟩ ls' with
      | error e' => simp
      | ok b =>
        obtain ⟨a, ha, rfl⟩ := back.ok hd'
        rw [hd] at ha
        cases ha
  · rw [h1, h2]
    simp [bind, Except.bind, Except.map]

end

end Toon
