import Verif.Model.Cli
import Verif.Spec.Cli
import Verif.Lemmas.Str

/-! # File names and the texts written -/

namespace Toon

theorem joinWith_flatten (c : Char) (w : Str) (ws : List Str) :
    joinWith c (w :: ws) = w ++ (ws.map fun u => c :: u).flatten := by
  induction ws generalizing w with
  | nil => simp [joinWith]
  | cons u ws ih => show w ++ c :: joinWith c (u :: ws) = _; rw [ih, List.map_cons, List.flatten_cons]; simp

theorem splitOn_append_any (c : Char) (a b : Str) : splitOn c (a ++ c :: b) = splitOn c a ++ splitOn c b := by
  induction a with
  | nil => simp [splitOn]
  | cons x a ih =>
    rw [List.cons_append, splitOn, splitOn, ih]
    by_cases h : x = c
    · rw [if_pos h, if_pos h]; rfl
    · rw [if_neg h, if_neg h]
      cases hs : splitOn c a with
      | nil => exact absurd hs (splitOn_ne_nil c a)
      | cons w ws => rfl

theorem joinWith_append_any (c : Char) {a b : List Str} (ha : a ≠ []) (hb : b ≠ []) :
    joinWith c (a ++ b) = joinWith c a ++ c :: joinWith c b := by
  cases a with
  | nil => exact absurd rfl ha
  | cons x a =>
    cases b with
    | nil => exact absurd rfl hb
    | cons y b =>
      rw [List.cons_append, joinWith_flatten, joinWith_flatten, joinWith_flatten]
      simp

theorem filter_reverse_cons {α : Type} {p : α → Bool} {l : List α} {x : α} {r : List α}
    (h : l.reverse.filter p = x :: r) : ∃ pre post, l = pre ++ x :: post ∧ p x = true ∧ ∀ y ∈ post, p y = false := by
  have : ∀ m : List α, m.filter p = x :: r → ∃ post pre, m = post ++ x :: pre ∧ p x = true ∧ ∀ y ∈ post, p y = false := by
    intro m
    induction m with
    | nil => simp
    | cons y m ih =>
      intro h
      by_cases hy : p y = true
      · rw [List.filter_cons_of_pos hy] at h
        simp only [List.cons.injEq] at h
        exact ⟨[], m, by rw [h.1]; rfl, by rw [← h.1]; exact hy, by simp⟩
      · rw [List.filter_cons_of_neg hy] at h
        obtain ⟨post, pre, h1, h2, h3⟩ := ih h
        refine ⟨y :: post, pre, by rw [h1]; rfl, h2, ?_⟩
        intro z hz
        rcases List.mem_cons.1 hz with rfl | hz
        · simpa using hy
        · exact h3 z hz
  obtain ⟨post, pre, h1, h2, h3⟩ := this _ h
  refine ⟨pre.reverse, post.reverse, ?_, h2, by simpa using h3⟩
  rw [← List.reverse_reverse l, h1]
  simp

theorem fileName_iff (path name : Str) : fileName path = some name ↔
    ∃ (dir : Str) (trail : List Str), path = dir ++ (name ++ (trail.map fun c => '/' :: c).flatten) ∧
      (dir = [] ∨ ∃ d, dir = d ++ ['/']) ∧ name ≠ [] ∧ name ≠ ['.'] ∧ name ≠ ['.', '.'] ∧ '/' ∉ name ∧
      ∀ c ∈ trail, c = [] ∨ c = ['.'] := by
  unfold fileName
  constructor
  · intro h
    cases hf : (splitOn '/' path).reverse.filter (fun c => c != [] && c != ['.']) with
    | nil => simp [hf] at h
    | cons n r =>
      simp only [hf] at h
      by_cases hn : n = ['.', '.']
      · simp [hn] at h
      · rw [if_neg hn] at h
        simp only [Option.some.injEq] at h
        subst h
        obtain ⟨pre, post, h1, h2, h3⟩ := filter_reverse_cons hf
        have hj := joinWith_splitOn '/' path
        have hm := splitOn_not_mem '/' path
        rw [h1] at hj hm
        simp only [bne_iff_ne, ne_eq, Bool.and_eq_true] at h2
        refine ⟨if pre = [] then [] else joinWith '/' pre ++ ['/'], post, ?_, ?_, h2.1, h2.2, hn, hm n (by simp), ?_⟩
        · rw [← hj]
          by_cases hp : pre = []
          · subst hp
            rw [if_pos rfl, List.nil_append, joinWith_flatten]
            simp
          · rw [if_neg hp, joinWith_append_any '/' hp (by simp), joinWith_flatten]
            simp
        · by_cases hp : pre = []
          · exact Or.inl (if_pos hp)
          · exact Or.inr ⟨_, if_neg hp⟩
        · intro c hc
          have := h3 c hc
          by_cases hc0 : c = []
          · exact Or.inl hc0
          · right
            simpa [hc0] using this
  · rintro ⟨dir, trail, h1, h2, h3, h4, h5, h6, h7⟩
    have hs : splitOn '/' (name ++ (trail.map fun c => '/' :: c).flatten) = name :: trail := by
      rw [← joinWith_flatten]
      apply splitOn_joinWith (by simp)
      intro w hw
      rcases List.mem_cons.1 hw with rfl | hw
      · exact h6
      · rcases h7 w hw with rfl | rfl <;> simp
    have : ∃ pre, splitOn '/' path = pre ++ name :: trail := by
      rcases h2 with rfl | ⟨d, rfl⟩
      · exact ⟨[], by rw [h1]; exact hs⟩
      · refine ⟨splitOn '/' d, ?_⟩
        rw [h1, List.append_assoc, List.singleton_append, splitOn_append_any, hs]
    obtain ⟨pre, hp⟩ := this
    have hfil : trail.reverse.filter (fun c => c != [] && c != ['.']) = [] := by
      rw [List.filter_eq_nil_iff]
      intro c hc
      rcases h7 c (by simpa using hc) with rfl | rfl <;> simp
    have : (splitOn '/' path).reverse.filter (fun c => c != [] && c != ['.']) =
        name :: pre.reverse.filter (fun c => c != [] && c != ['.']) := by
      rw [hp, List.reverse_append, List.reverse_cons, List.filter_append, List.filter_append, hfil]
      rw [List.nil_append, List.filter_cons_of_pos (by simp [h3, h4])]
      rfl
    rw [this]
    exact if_neg h5

theorem nameExtension_iff (name ext : Str) :
    (match (splitOn '.' name).reverse with
      | ext :: before => if before = [] ∨ before = [[]] then none else some ext
      | [] => none) = some ext ↔
    ∃ stem, name = stem ++ '.' :: ext ∧ stem ≠ [] ∧ '.' ∉ ext := by
  constructor
  · intro h
    cases hr : (splitOn '.' name).reverse with
    | nil => simp [hr] at h
    | cons e before =>
      simp only [hr] at h
      by_cases hb : before = [] ∨ before = [[]]
      · rw [if_pos hb] at h; simp at h
      · rw [if_neg hb] at h
        simp only [Option.some.injEq] at h
        subst h
        rw [not_or] at hb
        have hs : splitOn '.' name = before.reverse ++ [e] := by
          rw [← List.reverse_reverse (splitOn '.' name), hr]; simp
        have hj := joinWith_splitOn '.' name
        have hm := splitOn_not_mem '.' name
        rw [hs] at hj hm
        rw [joinWith_append_any '.' (by simp [hb.1]) (by simp)] at hj
        refine ⟨joinWith '.' before.reverse, hj.symm, ?_, hm e (by simp)⟩
        intro hn
        cases hbr : before.reverse with
        | nil => exact hb.1 (by simpa using hbr)
        | cons w ws =>
          rw [hbr, joinWith_flatten] at hn
          simp only [List.append_eq_nil_iff] at hn
          cases ws with
          | nil => rw [hn.1] at hbr; exact hb.2 (by rw [← List.reverse_reverse before, hbr]; rfl)
          | cons => simp at hn
  · rintro ⟨stem, rfl, h2, h3⟩
    rw [splitOn_append_any, splitOn_of_not_mem h3, List.reverse_append]
    simp only [List.reverse_cons, List.reverse_nil, List.nil_append, List.singleton_append]
    rw [if_neg]
    rintro (h | h)
    · exact splitOn_ne_nil '.' stem (by simpa using h)
    · have hj := joinWith_splitOn '.' stem
      have : splitOn '.' stem = [[]] := by rw [← List.reverse_reverse (splitOn '.' stem), h]; rfl
      rw [this] at hj
      exact h2 hj.symm

theorem pathExtension_iff (path ext : Str) : pathExtension path = some ext ↔ HasExtension path ext := by
  unfold pathExtension HasExtension
  constructor
  · intro h
    cases hf : fileName path with
    | none => simp [hf] at h
    | some name =>
      simp only [hf] at h
      obtain ⟨stem, rfl, h2, h3⟩ := (nameExtension_iff name ext).1 h
      obtain ⟨dir, trail, g1, g2, g3, g4, g5, g6, g7⟩ := (fileName_iff _ _).1 hf
      simp only [List.mem_append, List.mem_cons, not_or] at g6
      exact ⟨dir, stem, trail, g1, g2, h2, g6.1, g6.2.2, h3, g5, g7⟩
  · rintro ⟨dir, stem, trail, g1, g2, g3, g4, g5, g6, g7, g8⟩
    have hf : fileName path = some (stem ++ '.' :: ext) := by
      rw [fileName_iff]
      refine ⟨dir, trail, g1, g2, by simp, ?_, g7, by simp [g4, g5], g8⟩
      intro h
      cases stem with
      | nil => exact g3 rfl
      | cons c s => simp at h
    simp only [hf]
    exact (nameExtension_iff _ ext).2 ⟨stem, rfl, g3, g6⟩

theorem writeLinesFrom_pos (i : Nat) (ls : List Str) :
    writeLinesFrom (i + 1) ls = (ls.map fun l => '\n' :: l).flatten ++ ['\n'] := by
  induction ls generalizing i with
  | nil => rfl
  | cons l ls ih => rw [writeLinesFrom, ih, if_pos (by omega)]; simp

theorem writeLines_eq (ls : List Str) : writeLinesFrom 0 ls = joinWith '\n' ls ++ ['\n'] := by
  cases ls with
  | nil => rfl
  | cons l ls => rw [writeLinesFrom, writeLinesFrom_pos, joinWith_flatten]; simp

theorem writeChunks_eq (cs : List Str) : writeChunks cs = cs.flatten ++ ['\n'] := by
  induction cs with
  | nil => rfl
  | cons c cs ih => rw [writeChunks, ih]; simp

end Toon
