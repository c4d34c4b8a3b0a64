import Verif.Lemmas.LineCopiesBound
import Verif.Lemmas.GrammarScan
import Verif.Spec.LineCopies

/-!
How many loops can be open at a time, by the levels of indentation; the levels by the length of the text.
-/

namespace Toon

theorem mem_different {d : Nat} {ds : List Nat} : d ∈ different ds ↔ d ∈ ds := by
  induction ds with
  | nil => simp [different]
  | cons e ds ih =>
    rw [different]
    split
    · rename_i he
      rw [ih, List.mem_cons]
      constructor
      · exact .inr
      · rintro (rfl | h)
        · exact he
        · exact h
    · rw [List.mem_cons, List.mem_cons, ih]

theorem different_nodup (ds : List Nat) : (different ds).Nodup := by
  induction ds with
  | nil => simp [different]
  | cons e ds ih =>
    rw [different]
    split
    · exact ih
    · rename_i he
      rw [List.nodup_cons]
      exact ⟨fun h => he (mem_different.mp h), ih⟩

theorem different_sum_le (ds : List Nat) : (different ds).sum ≤ ds.sum := by
  induction ds with
  | nil => exact Nat.le_refl _
  | cons e ds ih =>
    rw [different]
    split
    · rw [List.sum_cons]; omega
    · rw [List.sum_cons, List.sum_cons]; omega

theorem countP_below {l : List Nat} (hn : l.Nodup) (hp : ∀ d ∈ l, 0 < d) : ∀ k, l.countP (· ≤ k) ≤ k := by
  intro k
  induction k with
  | zero =>
    rw [List.countP_eq_zero.mpr]
    · exact Nat.le_refl _
    · intro d hd
      have := hp d hd
      simp only [decide_eq_true_eq]; omega
  | succ k ih =>
    have h1 : l.countP (· ≤ k + 1) = l.countP (· ≤ k) + l.count (k + 1) := by
      clear hn hp ih
      induction l with
      | nil => rfl
      | cons d l ih =>
        simp only [List.countP_cons, List.count_cons, ih, decide_eq_true_eq, beq_iff_eq]
        split <;> split <;> split <;> omega
    have h2 : l.count (k + 1) ≤ 1 := by
      by_cases h : k + 1 ∈ l
      · rw [hn.count, if_pos h]; exact Nat.le_refl _
      · rw [List.count_eq_zero.mpr h]; exact Nat.zero_le _
    omega

/-- Different positive numbers are at least `1, 2, …` -/
theorem sum_of_different {l : List Nat} (hn : l.Nodup) (hp : ∀ d ∈ l, 0 < d) : l.length * (l.length + 1) ≤ 2 * l.sum := by
  have hcut : ∀ N, (l.map fun d => min d N).sum ≤ l.sum := by
    intro N
    clear hn hp
    induction l with
    | nil => exact Nat.le_refl _
    | cons d l ih => simp only [List.map_cons, List.sum_cons]; omega
  have hstep : ∀ N, (l.map fun d => min d (N + 1)).sum + l.countP (· ≤ N) = (l.map fun d => min d N).sum + l.length := by
    intro N
    clear hn hp hcut
    induction l with
    | nil => rfl
    | cons d l ih =>
      simp only [List.map_cons, List.sum_cons, List.countP_cons, List.length_cons, decide_eq_true_eq]
      split <;> omega
  have hsum : ∀ N, N ≤ l.length → N * (2 * l.length + 1) ≤ 2 * (l.map fun d => min d N).sum + N * N := by
    intro N
    induction N with
    | zero => intro _; simp
    | succ N ih =>
      intro hN
      have h1 := ih (by omega)
      have h2 := hstep N
      have h3 := countP_below hn hp N
      simp only [Nat.add_mul, Nat.mul_add, Nat.one_mul, Nat.mul_one] at h1 ⊢
      omega
  have h1 := hsum l.length (Nat.le_refl _)
  have h2 := hcut l.length
  have e1 : l.length * (2 * l.length + 1) = 2 * (l.length * l.length) + l.length := by
    rw [Nat.mul_add, Nat.mul_one, Nat.mul_left_comm]
  rw [Nat.mul_add, Nat.mul_one]
  omega

/-- The depths of the lines of a source. -/
theorem scansTo_depths {indent : Nat} {strict : Bool} {n : Nat} {source : List Str} {lines : List Line} {blanks : List Nat}
    (h : ScansTo indent strict n source lines blanks) :
    lines.map Line.depth = (source.filter fun raw => !decide (BlankLine raw)).map (unitsBefore indent) := by
  induction h with
  | nil => rfl
  | blank hb _ ih => rw [List.filter_cons, if_neg (by simp [hb]), ih]
  | @line n spaces content rest ls bs hb hs _ _ ih =>
    have hnb : ¬ BlankLine (List.replicate spaces ' ' ++ content) := fun h => hb fun c hc => h c (by simp [hc])
    rw [List.filter_cons, if_pos (by simp [hnb]), List.map_cons, List.map_cons, ih]
    congr 1
    unfold unitsBefore
    have : content.takeWhile (· == ' ') = [] := by
      cases content with
      | nil => rfl
      | cons c cs =>
        have hc : c ≠ ' ' := fun e => hs (by rw [e]; rfl)
        simp [List.takeWhile_cons, hc]
    rw [List.takeWhile_append_of_pos (by intro a ha; simp [List.eq_of_mem_replicate ha]), this, List.append_nil, List.length_replicate]

theorem scansTo_depth_sum {indent : Nat} {strict : Bool} {n : Nat} {source : List Str} {lines : List Line} {blanks : List Nat}
    (h : ScansTo indent strict n source lines blanks) : indent * (lines.map Line.depth).sum ≤ charCount source := by
  unfold charCount
  induction h with
  | nil => exact Nat.le_refl _
  | blank hb _ ih => rw [List.map_cons, List.sum_cons]; omega
  | @line n spaces content rest ls bs _ _ _ _ ih =>
    simp only [List.map_cons, List.sum_cons, Nat.mul_add, List.length_append, List.length_replicate]
    have := Nat.mul_div_le spaces indent
    omega

/-- The weights of the lines of a source. -/
theorem scansTo_chars {indent : Nat} {strict : Bool} {n : Nat} {source : List Str} {lines : List Line} {blanks : List Nat}
    (h : ScansTo indent strict n source lines blanks) : ∀ full : List Str, full.drop n = source →
    totalW (lineChars full) lines ≤ 2 * charCount source := by
  unfold charCount totalW
  induction h with
  | nil => intro _ _; exact Nat.le_refl _
  | @blank n raw rest ls bs hb _ ih =>
    intro full hf
    have := ih full (by rw [← List.drop_drop, hf]; rfl)
    rw [List.map_cons, List.sum_cons]; omega
  | @line n spaces content rest ls bs _ _ _ _ ih =>
    intro full hf
    have h1 := ih full (by rw [← List.drop_drop, hf]; rfl)
    have h2 : full[n]? = some (List.replicate spaces ' ' ++ content) := by
      have : (full.drop n)[0]? = full[n]? := by rw [List.getElem?_drop]; rfl
      rw [← this, hf]; rfl
    simp only [List.map_cons, List.sum_cons, lineChars, Nat.add_sub_cancel, h2, Option.getD_some, List.length_append,
      List.length_replicate]
    omega

theorem scansTo_held {indent : Nat} {strict : Bool} {n : Nat} {source : List Str} {lines : List Line} {blanks : List Nat}
    (h : ScansTo indent strict n source lines blanks) : ∀ full : List Str, full.drop n = source →
    totalW (lineChars full) lines = heldChars source := by
  unfold heldChars totalW
  induction h with
  | nil => intro _ _; rfl
  | @blank n raw rest ls bs hb _ ih =>
    intro full hf
    rw [List.filter_cons_of_neg (by simp [hb])]
    exact ih full (by rw [← List.drop_drop, hf]; rfl)
  | @line n spaces content rest ls bs hc hs hst _ ih =>
    intro full hf
    have h1 := ih full (by rw [← List.drop_drop, hf]; rfl)
    have h2 : full[n]? = some (List.replicate spaces ' ' ++ content) := by
      have : (full.drop n)[0]? = full[n]? := by rw [List.getElem?_drop]; rfl
      rw [← this, hf]; rfl
    have hb : ¬ BlankLine (List.replicate spaces ' ' ++ content) := fun h => hc fun c hm => h c (by simp [hm])
    have hd : (List.replicate spaces ' ' ++ content).dropWhile (· == ' ') = content := by
      clear h2 hb hf hst
      induction spaces with
      | zero =>
        cases content with
        | nil => rfl
        | cons c cs =>
          have : (c == ' ') = false := by simpa using hs
          simp [this]
      | succ k ihk => rw [List.replicate_succ, List.cons_append, List.dropWhile_cons]; simpa using ihk
    rw [List.filter_cons_of_pos (by simp [hb])]
    simp only [List.map_cons, List.sum_cons, lineChars, Nat.add_sub_cancel, h2, Option.getD_some, h1, hd]

theorem countP_above {l : List Nat} {d b : Nat} (hd : d ∈ l) (hb : b < d) : l.countP (d < ·) + 1 ≤ l.countP (b < ·) := by
  induction l with
  | nil => simp at hd
  | cons e l ih =>
    have hmono : l.countP (d < ·) ≤ l.countP (b < ·) := List.countP_mono_left fun x _ hx => by
      simp only [decide_eq_true_eq] at *; omega
    simp only [List.countP_cons, decide_eq_true_eq]
    rcases List.mem_cons.mp hd with rfl | h
    · rw [if_neg (Nat.lt_irrefl _), if_pos hb]; omega
    · have := ih h
      split <;> split <;> omega

/-- The ranks by the levels of indentation. -/
theorem ranks_of_levels (dd : List Nat) :
    Ranks (2 * dd.length + 5) (fun l => 0 < l.depth → l.depth ∈ dd) (fun b => 2 * dd.countP (b < ·) + 1) where
  pos := fun b => by omega
  anti := fun b c h => by
    have : dd.countP (c < ·) ≤ dd.countP (b < ·) := List.countP_mono_left fun x _ hx => by
      simp only [decide_eq_true_eq] at *; omega
    omega
  top := by
    have := List.countP_le_length (p := fun x => decide (0 < x)) (l := dd)
    omega
  line := fun l hl b hb => by
    have := countP_above (hl (by omega)) hb
    omega

end Toon
