import Verif.Lemmas.PadSim

/-! Scanning lines with white space appended. -/

namespace Toon

theorem pad_takeWhile_stop {p : Char → Bool} {a : Str} (h : ∃ c ∈ a, p c = false) (w : Str) :
    (a ++ w).takeWhile p = a.takeWhile p := by
  induction a with
  | nil => obtain ⟨c, hc, _⟩ := h; simp at hc
  | cons x xs ih =>
    simp only [List.cons_append, List.takeWhile_cons]
    cases hx : p x with
    | false => rfl
    | true =>
      simp only [if_true]
      rw [ih]
      obtain ⟨c, hc, hp⟩ := h
      rcases List.mem_cons.1 hc with rfl | hc
      · rw [hx] at hp; simp at hp
      · exact ⟨c, hc, hp⟩

theorem not_blank_exists {a : Str} (h : ¬ BlankLine a) : ∃ c ∈ a, isWs c = false := by
  unfold BlankLine at h
  simpa using h

theorem blank_append {a w : Str} (hw : TrailingSpace w) : BlankLine (a ++ w) ↔ BlankLine a := by
  constructor
  · intro h c hc; exact h c (by simp [hc])
  · intro h c hc
    rcases List.mem_append.1 hc with hc | hc
    · exact h c hc
    · exact (hw c hc).1

theorem bare_of_content {a : Str} (h : a.drop (a.takeWhile (· == ' ')).length = ['-']) : BareHyphen a := by
  refine ⟨(a.takeWhile (· == ' ')).length, ?_⟩
  have h1 := List.take_append_drop (a.takeWhile (· == ' ')).length a
  rw [h] at h1
  conv => lhs; rw [← h1]
  congr 1
  rw [List.eq_replicate_iff]
  have h2 : a.take (a.takeWhile (· == ' ')).length = a.takeWhile (· == ' ') := by
    have h3 := List.takeWhile_append_dropWhile (p := (· == ' ')) (l := a)
    generalize a.takeWhile (· == ' ') = t at h3 ⊢
    rw [← h3]; simp
  rw [h2]
  exact ⟨rfl, fun c hc => by have := mem_takeWhile hc; simpa using this⟩

/-- One line: the same error, both blank, or lines related by padding. -/
theorem parseLine_pad {a w : Str} (hw : TrailingSpace w) (hb : w = [] ∨ ¬ BareHyphen a) (num indent : Nat) (strict : Bool) :
    Sim (fun _ => True) (fun s t => (s = .blank ∧ t = .blank) ∨ ∃ l m, s = .line l ∧ t = .line m ∧ PadLine l m)
      (parseLine a num indent strict) (parseLine (a ++ w) num indent strict) := by
  by_cases ha : BlankLine a
  · rw [parseLine_blank ha, parseLine_blank ((blank_append hw).2 ha)]
    exact Or.inl ⟨rfl, rfl⟩
  obtain ⟨c, hc, hcw⟩ := not_blank_exists ha
  have t1 : (a ++ w).takeWhile (· == ' ') = a.takeWhile (· == ' ') :=
    pad_takeWhile_stop ⟨c, hc, by rw [← Bool.not_eq_true, beq_iff_eq]; rintro rfl; exact absurd hcw (by decide)⟩ w
  have t2 : (a ++ w).takeWhile (fun c => c == ' ' || c == '\t') = a.takeWhile (fun c => c == ' ' || c == '\t') :=
    pad_takeWhile_stop ⟨c, hc, by
      rw [← Bool.not_eq_true, Bool.or_eq_true, beq_iff_eq, beq_iff_eq]
      rintro (rfl | rfl) <;> exact absurd hcw (by decide)⟩ w
  have hna : ¬ (trim (a.drop (a.takeWhile (· == ' ')).length)).isEmpty = true := fun h => ha ((blankLine_iff a).1 h)
  have hdrop : (a ++ w).drop (a.takeWhile (· == ' ')).length = a.drop (a.takeWhile (· == ' ')).length ++ w :=
    drop_trailing _ _ (List.takeWhile_prefix _).length_le
  have hnw : ¬ (trim (a.drop (a.takeWhile (· == ' ')).length ++ w)).isEmpty = true := by
    rw [trim_trailing (trailing_all hw)]; exact hna
  have hline : ∀ d, PadLine ⟨d, a.drop (a.takeWhile (· == ' ')).length, num⟩ ⟨d, a.drop (a.takeWhile (· == ' ')).length ++ w, num⟩ := by
    intro d
    refine ⟨rfl, rfl, Or.inr ⟨?_, w, hw, rfl⟩, ?_⟩
    · intro h; exact hna ((trim_blank_iff _).2 h)
    · rcases hb with rfl | hb
      · left; simp
      · right; intro h; exact hb (bare_of_content h)
  unfold parseLine
  simp only [t1, t2, hdrop, if_neg hna, if_neg hnw]
  repeat' split
  all_goals first | exact fun _ => rfl | exact Or.inr ⟨_, _, rfl, rfl, hline _⟩

theorem parseLines_pad (indent : Nat) (strict : Bool) : ∀ (ps : List (Str × Str)) (num : Nat),
    (∀ p ∈ ps, TrailingSpace p.2 ∧ (p.2 = [] ∨ ¬ BareHyphen p.1)) →
    Sim (fun _ => True) (fun x y => PadLines x.1 y.1 ∧ x.2 = y.2) (parseLines indent strict (ps.map Prod.fst) num)
      (parseLines indent strict (ps.map fun p => p.1 ++ p.2) num) := by
  intro ps
  induction ps with
  | nil => intro num _; exact ⟨.nil, rfl⟩
  | cons p ps ih =>
    intro num h
    obtain ⟨h1, h2⟩ := h p (by simp)
    have hl := parseLine_pad h1 h2 (num + 1) indent strict
    have hr := ih (num + 1) (fun q hq => h q (by simp [hq]))
    simp only [List.map_cons, parseLines]
    cases ha : parseLine p.1 (num + 1) indent strict with
    | error e => rw [hl.error trivial ha]; exact fun _ => rfl
    | ok s =>
      obtain ⟨t, ht, hst⟩ := hl.ok ha
      rw [ht]
      simp only
      cases hb : parseLines indent strict (ps.map Prod.fst) (num + 1) with
      | error e => rw [hr.error trivial hb]; exact fun _ => rfl
      | ok x =>
        obtain ⟨y, hy, hxy⟩ := hr.ok hb
        rw [hy]
        obtain ⟨x1, x2⟩ := x
        obtain ⟨y1, y2⟩ := y
        obtain ⟨hx1, hx2⟩ := hxy
        simp only at hx1 hx2
        subst hx2
        rcases hst with ⟨rfl, rfl⟩ | ⟨l, m, rfl, rfl, hlm⟩
        · exact ⟨hx1, rfl⟩
        · exact ⟨.cons hlm hx1, rfl⟩

variable {F : Type} [F64 F]

theorem decodeStream_pad (indent : Nat) (strict : Bool) (ps : List (Str × Str))
    (h : ∀ p ∈ ps, TrailingSpace p.2 ∧ (p.2 = [] ∨ ¬ BareHyphen p.1)) :
    decodeStream (F := F) indent strict (ps.map Prod.fst) = decodeStream indent strict (ps.map fun p => p.1 ++ p.2) := by
  unfold decodeStream
  refine sim_true_eq ((parseLines_pad indent strict ps 0 h).bind ?_)
  rintro ⟨x1, x2⟩ ⟨y1, y2⟩ ⟨h1, h2⟩
  simp only at h1 h2
  subst h2
  simp only
  rw [pad_lines _ h1]
  exact Sim.eq _

/-! ## Texts -/

/-- The lines with a carriage return after each but the last. -/
def crLines : List Str → List (Str × Str)
  | [] => []
  | [l] => [(l, [])]
  | l :: ls => (l, ['\r']) :: crLines ls

theorem crLines_fst : ∀ ls : List Str, (crLines ls).map Prod.fst = ls
  | [] => rfl
  | [_] => rfl
  | l :: m :: ls => by simp only [crLines, List.map_cons, crLines_fst (m :: ls)]

theorem crLines_snd : ∀ (ls : List Str), ∀ p ∈ crLines ls, (p.2 = ['\r'] ∨ p.2 = []) ∧ (p.2 = [] ∨ p.1 ∈ ls.dropLast)
  | [], p, h => by simp [crLines] at h
  | [l], p, h => by simp [crLines] at h; simp [h]
  | l :: m :: ls, p, h => by
    simp only [crLines, List.mem_cons] at h
    rcases h with rfl | h
    · simp
    · have := crLines_snd (m :: ls) p (by simpa using h)
      refine ⟨this.1, this.2.imp_right fun h => ?_⟩
      rw [List.dropLast_cons_of_ne_nil (by simp)]
      exact List.mem_cons_of_mem _ h

theorem splitOn_crlf (text : Str) : splitOn '\n' (crlf text) = (crLines (splitOn '\n' text)).map fun p => p.1 ++ p.2 := by
  induction text with
  | nil => rfl
  | cons x s ih =>
    have hc : crlf (x :: s) = (if x = '\n' then ['\r', '\n'] else [x]) ++ crlf s := by simp [crlf]
    rw [hc]
    by_cases hx : x = '\n'
    · subst hx
      simp only [if_true, List.cons_append, List.nil_append, splitOn]
      rw [ih]
      cases hs : splitOn '\n' s with
      | nil => exact absurd hs (splitOn_ne_nil _ _)
      | cons l ls => simp [crLines]
    · simp only [if_neg hx, List.cons_append, List.nil_append, splitOn]
      rw [ih]
      cases hs : splitOn '\n' s with
      | nil => exact absurd hs (splitOn_ne_nil _ _)
      | cons l ls => cases ls <;> simp [crLines]

end Toon
