import Verif.Lemmas.Passes
import Verif.Lemmas.ResourcesSize

/-!
How often a line is gone over.
-/

namespace Toon

theorem literalPasses_le (t : Str) : literalPasses t ≤ 3 * t.length := by
  have h := trim_length_le t
  rw [literalPasses]
  split
  · split
    · omega
    · split
      · omega
      · rename_i closing _ _
        have : (slice (trim t) 1 closing).length ≤ (trim t).length := by
          rw [slice, List.length_take, List.length_drop]; omega
        omega
  · omega

theorem tokenPasses_le (t : Str) : tokenPasses t ≤ 6 * t.length := by
  have h := trim_length_le t
  have hl := literalPasses_le (trim t)
  rw [tokenPasses]
  split
  · omega
  · split
    · omega
    · split <;> omega

theorem sum_map_le_mul {α : Type} (f g : α → Nat) (k : Nat) (h : ∀ a, f a ≤ k * g a) : ∀ l : List α,
    (l.map f).sum ≤ k * (l.map g).sum := by
  intro l
  induction l with
  | nil => exact Nat.zero_le _
  | cons a l ih =>
    have := h a
    simp only [List.map_cons, List.sum_cons, Nat.mul_add]
    omega

theorem delimitedAux_length (d : Char) : ∀ (n : Nat) (text : Str), text.length ≤ n → ∀ (values : List Str) (buffer : Str) (inQ : Bool),
    ((delimitedAux d text values buffer inQ).map List.length).sum ≤ (values.map List.length).sum + buffer.length + text.length := by
  intro n
  induction n with
  | zero =>
    intro text hn values buffer inQ
    obtain rfl := List.length_eq_zero_iff.mp (Nat.le_zero.mp hn)
    have := trim_length_le buffer
    rw [delimitedAux]
    split
    · simp only [List.map_append, List.sum_append, List.map_cons, List.map_nil, List.sum_cons, List.sum_nil, List.length_nil]; omega
    · omega
  | succ n ih =>
    intro text hn values buffer inQ
    have ht := trim_length_le buffer
    cases text with
    | nil => exact ih [] (Nat.zero_le _) values buffer inQ
    | cons ch rest =>
      have hr : rest.length ≤ n := Nat.le_of_succ_le_succ hn
      rw [delimitedAux.eq_def]
      simp only
      split
      · cases rest with
        | nil =>
          refine Nat.le_trans (ih [] (Nat.zero_le _) _ _ _) ?_
          simp only [List.length_append, List.length_cons, List.length_nil]; omega
        | cons next rest =>
          simp only [List.length_cons] at hr
          refine Nat.le_trans (ih rest (by omega) _ _ _) ?_
          simp only [List.length_append, List.length_cons, List.length_nil]; omega
      · split
        · refine Nat.le_trans (ih rest hr _ _ _) ?_
          simp only [List.length_append, List.length_cons, List.length_nil]; omega
        · split
          · refine Nat.le_trans (ih rest hr _ _ _) ?_
            simp only [List.map_append, List.sum_append, List.map_cons, List.map_nil, List.sum_cons, List.sum_nil, List.length_nil,
              List.length_cons]
            omega
          · refine Nat.le_trans (ih rest hr _ _ _) ?_
            simp only [List.length_append, List.length_cons, List.length_nil]; omega

theorem parseDelimitedValues_length (text : Str) (d : Char) : ((parseDelimitedValues text d).map List.length).sum ≤ text.length := by
  have := delimitedAux_length d text.length text (Nat.le_refl _) [] [] false
  simp only [List.map_nil, List.sum_nil, List.length_nil] at this
  rw [parseDelimitedValues]
  omega

theorem rowPasses_le (text : Str) (d : Char) : rowPasses text d ≤ 10 * text.length := by
  have h1 := sum_map_le_mul tokenPasses List.length 6 tokenPasses_le (parseDelimitedValues text d)
  have h2 := parseDelimitedValues_length text d
  rw [rowPasses, delimitedPasses]
  omega

theorem inlinePasses_le (h : Header) (text : Str) : inlinePasses h text ≤ 11 * text.length := by
  have := rowPasses_le text h.delim
  rw [inlinePasses]
  split <;> omega

theorem fieldsPasses_le (cells : List Str) : fieldsPasses cells ≤ 4 * (cells.map List.length).sum := by
  refine sum_map_le_mul _ _ 4 (fun cell => ?_) cells
  have h1 := literalPasses_le (trim cell)
  have h2 := trim_length_le cell
  omega

theorem headerKeyPasses_le (content : Str) (n : Nat) : headerKeyPasses content n ≤ 4 * content.length := by
  rw [headerKeyPasses]
  split
  · have h1 := literalPasses_le (trim (content.take n))
    have h2 := trim_length_le (content.take n)
    rw [List.length_take] at h2
    simp only
    split <;> omega
  · omega

theorem headerFieldsPasses_le (content : Str) (a b : Nat) (d : Char) : headerFieldsPasses content a b d ≤ 9 * content.length := by
  rw [headerFieldsPasses]
  split
  · exact Nat.zero_le _
  · split
    · refine Nat.le_trans (Nat.add_le_add_left (?_ : _ ≤ 8 * content.length) _) (by omega)
      split
      · exact Nat.zero_le _
      · split
        · rename_i i _ _ _ j _ _
          have h1 := fieldsPasses_le (parseDelimitedValues (slice content (i + 1) j) d)
          have h2 := parseDelimitedValues_length (slice content (i + 1) j) d
          have h3 : (slice content (i + 1) j).length ≤ content.length := by
            rw [slice, List.length_take, List.length_drop]; omega
          exact Nat.le_trans (Nat.add_le_add_left h1 _) (by rw [delimitedPasses]; omega)
        · exact Nat.zero_le _
    · exact Nat.zero_le _

theorem headerPasses_le (content : Str) (d : Char) : headerPasses content d ≤ 25 * content.length := by
  rw [headerPasses]
  refine Nat.le_trans (Nat.add_le_add_left (?_ : _ ≤ 22 * content.length) _) (by omega)
  split
  · exact Nat.zero_le _
  · exact Nat.zero_le _
  · rename_i i _
    refine Nat.le_trans (Nat.add_le_add_left (?_ : _ ≤ 21 * content.length) _) (by omega)
    split
    · exact Nat.zero_le _
    · refine Nat.le_trans (Nat.add_le_add_left (?_ : _ ≤ 17 * content.length) _) (by omega)
      split
      · exact Nat.zero_le _
      · have h1 := headerKeyPasses_le content i
        refine Nat.le_trans (Nat.add_le_add_left (?_ : _ ≤ 9 * content.length) _) (by omega)
        split
        · exact Nat.zero_le _
        · exact headerFieldsPasses_le content _ _ _

theorem keyPasses_le (content : Str) : keyPasses content ≤ 3 * content.length := by
  rw [keyPasses]; split <;> omega

theorem keyLineTestPasses_le (content : Str) : keyLineTestPasses content ≤ 2 * content.length := by
  rw [keyLineTestPasses]; split <;> omega

theorem headerCloned_le (hdr : Option Header) (content : Str) : headerCloned hdr content ≤ content.length := by
  rw [headerCloned]; split <;> omega

theorem linePasses_le (raw : Str) (strict : Bool) : linePasses raw strict ≤ 6 * raw.length := by
  rw [linePasses]
  split
  · omega
  · split <;> omega

/-- The values after the colon of a header are part of the line. -/
theorem header_inline_length {content : Str} {d : Char} {h : Header} (hp : parseArrayHeaderLine content d = .ok (some h)) {inline : Str}
    (hi : h.inline = some inline) : inline.length ≤ content.length := by
  rw [parseArrayHeaderLine] at hp
  split at hp <;> try (simp at hp; done)
  split at hp <;> try (simp at hp; done)
  split at hp <;> try (simp at hp; done)
  split at hp <;> try (simp at hp; done)
  simp only at hp
  split at hp <;> try (simp at hp; done)
  split at hp <;> try (simp at hp; done)
  split at hp <;> try (simp at hp; done)
  rename_i k _ _ _ _ _ _ _ _ _ _ _ _
  simp only [Except.ok.injEq, Option.some.injEq] at hp
  subst hp
  simp only at hi
  split at hi
  · simp at hi
  · simp only [Option.some.injEq] at hi
    subst hi
    refine Nat.le_trans (trim_length_le _) ?_
    rw [List.length_drop]; omega

end Toon
