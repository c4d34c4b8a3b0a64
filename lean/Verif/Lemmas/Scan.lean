import Verif.Lemmas.Str
import Verif.Model.Scanner
import Verif.Spec.Lines

/-! Lemmas about the line scanner. -/

namespace Toon

theorem mem_takeWhile {α : Type} {p : α → Bool} {l : List α} {a : α} (h : a ∈ l.takeWhile p) : p a = true := by
  induction l with
  | nil => simp at h
  | cons x l ih =>
    rw [List.takeWhile_cons] at h
    split at h
    · rename_i hx
      rcases List.mem_cons.mp h with rfl | h
      · exact hx
      · exact ih h
    · simp at h

theorem dropWhile_eq_nil {α : Type} {p : α → Bool} {l : List α} : l.dropWhile p = [] ↔ ∀ a ∈ l, p a = true := by
  induction l with
  | nil => simp
  | cons x l ih =>
    rw [List.dropWhile_cons]
    split <;> simp_all

theorem drop_takeWhile_length {α : Type} (p : α → Bool) (l : List α) : l.drop (l.takeWhile p).length = l.dropWhile p := by
  induction l with
  | nil => rfl
  | cons x l ih =>
    rw [List.takeWhile_cons, List.dropWhile_cons]
    split <;> simp_all

theorem trim_eq_nil {s : Str} : trim s = [] ↔ ∀ c ∈ s, isWs c = true := by
  unfold trim trimEnd trimStart
  rw [List.reverse_eq_nil_iff]
  constructor
  · intro h c hc
    have h2 := dropWhile_eq_nil.mp h
    rw [← List.takeWhile_append_dropWhile (p := isWs) (l := s)] at hc
    rcases List.mem_append.mp hc with hc | hc
    · exact (mem_takeWhile hc)
    · exact h2 c (by simpa using hc)
  · intro h
    have : List.dropWhile isWs s = [] := dropWhile_eq_nil.mpr h
    rw [this]; rfl

theorem takeWhile_space (raw : Str) : raw.takeWhile (· == ' ') = List.replicate (raw.takeWhile (· == ' ')).length ' ' := by
  apply List.eq_replicate_iff.mpr
  refine ⟨rfl, fun c hc => ?_⟩
  simpa using mem_takeWhile hc

theorem parseLine_strict {raw : Str} {num indent : Nat} {sc : Scanned} (h : parseLine raw num indent true = .ok sc)
    (hb : ¬ BlankLine raw) : ∃ k rest, raw = List.replicate (k * indent) ' ' ++ rest ∧
      rest.head? ≠ some ' ' ∧ rest.head? ≠ some '\t' := by
  have hsplit : raw = raw.takeWhile (· == ' ') ++ raw.dropWhile (· == ' ') := by simp
  have hdrop : raw.drop (raw.takeWhile (· == ' ')).length = raw.dropWhile (· == ' ') := by
    exact drop_takeWhile_length _ _
  have hnb : trim (raw.drop (raw.takeWhile (· == ' ')).length) ≠ [] := by
    intro ht
    apply hb
    rw [hdrop] at ht
    intro c hc
    rw [hsplit] at hc
    rcases List.mem_append.mp hc with hc | hc
    · have := mem_takeWhile hc
      simp at this; subst this; decide
    · exact trim_eq_nil.mp ht c hc
  have hsp : (raw.dropWhile (· == ' ')).head? ≠ some ' ' := by
    intro hh
    have := List.head?_dropWhile_not (p := (· == ' ')) (l := raw)
    rw [hh] at this
    simp at this
  unfold parseLine at h
  simp only [if_true] at h
  rw [if_neg (by simpa using hnb)] at h
  split at h
  · simp at h
  · rename_i htab
    have htb : (raw.dropWhile (· == ' ')).head? ≠ some '\t' := by
      intro hh
      apply htab
      rw [List.contains_iff_mem]
      obtain ⟨r, hr⟩ : ∃ r, raw.dropWhile (· == ' ') = '\t' :: r := by
        cases hd : raw.dropWhile (· == ' ') with
        | nil => rw [hd] at hh; simp at hh
        | cons c r => rw [hd] at hh; simp at hh; exact ⟨r, by rw [hh]⟩
      rw [hsplit, hr, List.takeWhile_append_of_pos]
      · simp
      · intro c hc
        have := mem_takeWhile hc
        simp at this; simp [this]
    refine (?_ : ∃ k, (raw.takeWhile (· == ' ')).length = k * indent).elim fun k hk =>
      ⟨k, raw.dropWhile (· == ' '), ?_, hsp, htb⟩
    · split at h
      · split at h
        · simp at h
        · exact ⟨0, by omega⟩
      · split at h
        · simp at h
        · rename_i hi hm
          simp only [Bool.and_eq_true, decide_eq_true_eq, bne_iff_ne, ne_eq, not_and, Decidable.not_not] at hm
          by_cases h0 : (raw.takeWhile (· == ' ')).length > 0
          · exact ⟨_, (Nat.div_mul_cancel (Nat.dvd_of_mod_eq_zero (hm h0))).symm⟩
          · exact ⟨0, by omega⟩
    · rw [← hk, ← takeWhile_space]; exact hsplit

theorem parseLines_strict {indent : Nat} {source : List Str} : ∀ {num : Nat} {out : List Line × List Nat},
    parseLines indent true source num = .ok out → ∀ line ∈ source, ¬ BlankLine line →
    ∃ k rest, line = List.replicate (k * indent) ' ' ++ rest ∧ rest.head? ≠ some ' ' ∧ rest.head? ≠ some '\t' := by
  induction source with
  | nil => intro num out h l hl; simp at hl
  | cons raw rest ih =>
    intro num out h l hl hb
    rw [parseLines] at h
    split at h
    · simp at h
    · rename_i sc hsc
      split at h
      · simp at h
      · rename_i ls1 bs1 h1
        rcases List.mem_cons.mp hl with rfl | hl
        · exact parseLine_strict hsc hb
        · exact ih h1 l hl hb

end Toon
