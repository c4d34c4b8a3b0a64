import Verif.Spec.Grammar
import Verif.Lemmas.Scan

/-! The scanner produces exactly the lines of the grammar. -/

namespace Toon

theorem takeWhile_replicate_append {k : Nat} {content : Str} (h : content.head? ≠ some ' ') :
    (List.replicate k ' ' ++ content).takeWhile (· == ' ') = List.replicate k ' ' := by
  induction k with
  | zero =>
    cases content with
    | nil => rfl
    | cons c r =>
      have : c ≠ ' ' := by simpa using h
      simp [this]
  | succ k ih => simp only [List.replicate_succ, List.cons_append]; simp [ih]

theorem blank_replicate {k : Nat} {content : Str} : BlankLine (List.replicate k ' ' ++ content) ↔ BlankLine content := by
  constructor
  · intro h c hc; exact h c (by simp [hc])
  · intro h c hc
    rcases List.mem_append.mp hc with hc | hc
    · rw [List.eq_of_mem_replicate hc]; decide
    · exact h c hc

theorem tab_in_indent {k : Nat} {content : Str} (h : content.head? ≠ some ' ') :
    ((List.replicate k ' ' ++ content).takeWhile (fun c => c == ' ' || c == '\t')).contains '\t' = true ↔
      content.head? = some '\t' := by
  induction k with
  | zero =>
    cases content with
    | nil => simp
    | cons c r =>
      have hc : c ≠ ' ' := by simpa using h
      by_cases ht : c = '\t'
      · subst ht; simp
      · simp [hc, ht]
  | succ k ih =>
    simp only [List.replicate_succ, List.cons_append]
    rw [← ih]
    simp

theorem computeDepth_eq (k indent : Nat) : computeDepth k indent = k / indent := by
  unfold computeDepth
  split
  · rename_i h; subst h; simp
  · rfl

/-- One line. -/
theorem scanLine_line {indent k n : Nat} {strict : Bool} {content : Str} (hb : ¬ BlankLine content)
    (hh : content.head? ≠ some ' ') :
    ((strict = true → content.head? ≠ some '\t' ∧ k % indent = 0) →
      parseLine (List.replicate k ' ' ++ content) n indent strict = .ok (.line ⟨k / indent, content, n⟩)) ∧
    (¬ (strict = true → content.head? ≠ some '\t' ∧ k % indent = 0) →
      ∃ e, parseLine (List.replicate k ' ' ++ content) n indent strict = .error e) := by
  have e1 : ((List.replicate k ' ' ++ content).takeWhile (· == ' ')).length = k := by
    rw [takeWhile_replicate_append hh]; simp
  have e2 : (List.replicate k ' ' ++ content).drop k = content := by rw [List.drop_append]; simp
  unfold parseLine
  simp only [e1, e2, computeDepth_eq]
  rw [if_neg (by simpa using fun hh => hb (trim_eq_nil.mp hh))]
  cases strict with
  | false => simp
  | true =>
    simp only [if_true, forall_const]
    by_cases ht : content.head? = some '\t'
    · rw [if_pos ((tab_in_indent hh).mpr ht)]
      exact ⟨fun h => absurd ht h.1, fun _ => ⟨_, rfl⟩⟩
    · rw [if_neg (fun h => ht ((tab_in_indent hh).mp h))]
      by_cases h0 : indent = 0
      · subst h0
        simp only [if_true, Nat.mod_zero]
        by_cases hk : k > 0
        · rw [if_pos hk]
          exact ⟨fun h => by omega, fun _ => ⟨_, rfl⟩⟩
        · rw [if_neg hk]
          exact ⟨fun _ => rfl, fun h => absurd ⟨ht, by omega⟩ h⟩
      · rw [if_neg h0]
        by_cases hm : k % indent = 0
        · rw [if_neg (by simp [hm])]
          exact ⟨fun _ => rfl, fun h => absurd ⟨ht, hm⟩ h⟩
        · have : k > 0 := by
            rcases Nat.eq_zero_or_pos k with rfl | h
            · simp at hm
            · exact h
          rw [if_pos (by simp [hm, this])]
          exact ⟨fun h => absurd h.2 hm, fun _ => ⟨_, rfl⟩⟩

theorem scanLine_blank {raw : Str} {n indent : Nat} {strict : Bool} (h : BlankLine raw) :
    parseLine raw n indent strict = .ok .blank := by
  unfold parseLine
  simp only
  rw [if_pos]
  have : trim (raw.drop (raw.takeWhile (· == ' ')).length) = [] :=
    trim_eq_nil.mpr fun c hc => h c (List.mem_of_mem_drop hc)
  rw [this]; rfl

theorem raw_split (raw : Str) : ∃ k content, raw = List.replicate k ' ' ++ content ∧ content.head? ≠ some ' ' := by
  refine ⟨(raw.takeWhile (· == ' ')).length, raw.dropWhile (· == ' '), ?_, ?_⟩
  · rw [← takeWhile_space]; exact (List.takeWhile_append_dropWhile).symm
  · intro h
    have := List.head?_dropWhile_not (· == ' ') raw
    rw [h] at this
    simp at this

theorem scansTo_iff (indent : Nat) (strict : Bool) (source : List Str) (n : Nat) (ls : List Line) (bs : List Nat) :
    parseLines indent strict source n = .ok (ls, bs) ↔ ScansTo indent strict n source ls bs := by
  induction source generalizing n ls bs with
  | nil =>
    simp only [parseLines, Except.ok.injEq, Prod.mk.injEq]
    constructor
    · rintro ⟨rfl, rfl⟩; exact .nil n
    · intro h; cases h; exact ⟨rfl, rfl⟩
  | cons raw rest ih =>
    rw [parseLines]
    constructor
    · intro h
      by_cases hb : BlankLine raw
      · rw [scanLine_blank hb] at h
        simp only at h
        split at h
        · simp at h
        · rename_i ls' bs' hr
          simp only [Except.ok.injEq, Prod.mk.injEq] at h
          obtain ⟨rfl, rfl⟩ := h
          exact .blank hb ((ih _ _ _).mp hr)
      · obtain ⟨k, content, rfl, hh⟩ := raw_split raw
        have hbc : ¬ BlankLine content := fun h => hb (blank_replicate.mpr h)
        have hp := scanLine_line (indent := indent) (k := k) (n := n + 1) (strict := strict) hbc hh
        by_cases hs : strict = true → content.head? ≠ some '\t' ∧ k % indent = 0
        · rw [hp.1 hs] at h
          simp only at h
          split at h
          · simp at h
          · rename_i ls' bs' hr
            simp only [Except.ok.injEq, Prod.mk.injEq] at h
            obtain ⟨rfl, rfl⟩ := h
            exact .line hbc hh hs ((ih _ _ _).mp hr)
        · obtain ⟨e, he⟩ := hp.2 hs
          rw [he] at h
          simp at h
    · intro h
      cases h with
      | blank hb hr => rw [scanLine_blank hb, (ih _ _ _).mpr hr]
      | @line _ k content _ ls' _ hb hh hs hr =>
        rw [(scanLine_line hb hh).1 hs, (ih _ _ _).mpr hr]

end Toon
