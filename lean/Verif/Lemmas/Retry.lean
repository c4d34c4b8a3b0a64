import Verif.Props.Strict
import Verif.Props.ExpandExact
import Verif.Model.Panicking

/-! Strict decoding and decoding once more without strict mode. -/

namespace Toon

theorem parseLine_strictOnly {raw : Str} {num indent : Nat} {strict : Bool} {e : Err} (h : parseLine raw num indent strict = .error e) :
    strictOnly e = true ∧ e.kind = some .validation := by
  unfold parseLine at h
  simp only at h
  split at h
  · simp at h
  · split at h
    · split at h
      · simp only [Except.error.injEq] at h; subst h; exact ⟨rfl, rfl⟩
      · split at h
        · split at h
          · simp only [Except.error.injEq] at h; subst h; exact ⟨rfl, rfl⟩
          · simp at h
        · split at h
          · simp only [Except.error.injEq] at h; subst h; exact ⟨rfl, rfl⟩
          · simp at h
    · simp at h

theorem parseLines_strictOnly {indent : Nat} {strict : Bool} {source : List Str} : ∀ {num : Nat} {e : Err},
    parseLines indent strict source num = .error e → strictOnly e = true ∧ e.kind = some .validation := by
  induction source with
  | nil => intro num e h; simp [parseLines] at h
  | cons raw rest ih =>
    intro num e h
    rw [parseLines] at h
    split at h
    · rename_i e' he
      simp only [Except.error.injEq] at h
      subst h
      exact parseLine_strictOnly he
    · split at h
      · rename_i e' he
        simp only [Except.error.injEq] at h
        subst h
        exact ih he
      · split at h <;> simp at h

theorem spaces_unique {a b : Nat} {x y : Str} (hx : x.head? ≠ some ' ') (hy : y.head? ≠ some ' ')
    (h : List.replicate a ' ' ++ x = List.replicate b ' ' ++ y) : a = b ∧ x = y := by
  induction a generalizing b with
  | zero =>
    cases b with
    | zero => exact ⟨rfl, by simpa using h⟩
    | succ b =>
      simp only [List.replicate_zero, List.nil_append, List.replicate_succ, List.cons_append] at h
      subst h
      simp at hx
  | succ a ih =>
    cases b with
    | zero =>
      simp only [List.replicate_zero, List.nil_append, List.replicate_succ, List.cons_append] at h
      subst h
      simp at hy
    | succ b =>
      simp only [List.replicate_succ, List.cons_append, List.cons.injEq, true_and] at h
      obtain ⟨h1, h2⟩ := ih h
      exact ⟨by omega, h2⟩

theorem compat_retry (bs1 bs2 : List Nat) : Compat (fun e => strictOnly e = false) (fun _ _ => True) ⟨true, bs1⟩ ⟨false, bs2⟩ := by
  refine ⟨fun _ => rfl, fun e h1 h2 => by rw [h1] at h2; simp at h2, fun s1 s2 e1 e2 _ _ table => ?_⟩
  simp only [noBlankInRange, if_true, Bool.false_eq_true, if_false]
  cases bs1.find? (fun b => decide (s1 < b) && decide (b < e1)) with
  | some b => simp [Sim, strictOnly]
  | none => exact rfl

section
variable {F : Type} [F64 F]

theorem decodeStream_retry {indent : Nat} {source : List Str} {e : Err} (h : decodeStream (F := F) indent true source = .error e)
    (he : strictOnly e = false) : decodeStream (F := F) indent false source = .error e := by
  unfold decodeStream at h ⊢
  cases hp : parseLines indent true source 0 with
  | error e' =>
    rw [hp] at h
    simp only [bind, Except.bind, Except.error.injEq] at h
    subst h
    rw [(parseLines_strictOnly hp).1] at he
    simp at he
  | ok out =>
    obtain ⟨ls, bs⟩ := out
    rw [hp] at h
    rw [parseLines_lax hp]
    simp only [bind, Except.bind] at h ⊢
    exact (sim_lines (compat_retry bs bs) (linesRel_refl (ls := ls) fun _ _ => trivial)).error he h

theorem firstFailure_retry {hs : List Hurdle} {e : Err} (h : firstFailure true hs = some e) (he : strictOnly e = false) :
    firstFailure false hs = some e := by
  induction hs with
  | nil => simp [firstFailure] at h
  | cons x hs ih =>
    rw [firstFailure_cons] at h ⊢
    cases x with
    | level n =>
      simp only [Hurdle.fails] at h ⊢
      by_cases hn : 256 < n
      · rw [if_pos hn] at h ⊢; exact h
      · rw [if_neg hn, Option.none_or] at h ⊢; exact ih h
    | conflict c =>
      simp only [Hurdle.fails, if_true, Option.some_or, Option.some.injEq] at h
      subst h
      simp [strictOnly] at he

end

end Toon
