import Verif.Model.Str

/-! Lemmas about the string operations. -/

namespace Toon

/-! ## findChar / findFrom -/

theorem findChar_append_of_not_mem {c : Char} {a : Str} (h : c ∉ a) (b : Str) :
    findChar c (a ++ b) = (findChar c b).map (a.length + ·) := by
  induction a with
  | nil => simp
  | cons x xs ih =>
    simp only [List.mem_cons, not_or] at h
    simp only [List.cons_append, findChar, List.length_cons]
    rw [if_neg (fun e => h.1 e.symm), ih h.2]
    cases findChar c b <;> simp
    omega

@[simp] theorem findChar_cons_self (c : Char) (b : Str) : findChar c (c :: b) = some 0 := by
  simp [findChar]

theorem findChar_at {c : Char} {a : Str} (h : c ∉ a) (b : Str) :
    findChar c (a ++ c :: b) = some a.length := by
  simp [findChar_append_of_not_mem h]

theorem findChar_eq_none {c : Char} {a : Str} : findChar c a = none ↔ c ∉ a := by
  induction a with
  | nil => simp [findChar]
  | cons x xs ih =>
    simp only [findChar, List.mem_cons, not_or]
    by_cases hx : x = c
    · simp [hx]
    · rw [if_neg hx]
      rw [Option.map_eq_none_iff, ih]
      exact ⟨fun h => ⟨fun e => hx e.symm, h⟩, fun h => h.2⟩

theorem findChar_some {c : Char} {s : Str} {i : Nat} (h : findChar c s = some i) :
    ∃ a b, s = a ++ c :: b ∧ c ∉ a ∧ a.length = i := by
  induction s generalizing i with
  | nil => simp [findChar] at h
  | cons x xs ih =>
    simp only [findChar] at h
    by_cases hx : x = c
    · rw [if_pos hx] at h
      refine ⟨[], xs, by simp [hx], by simp, by simpa using h⟩
    · rw [if_neg hx] at h
      cases hf : findChar c xs with
      | none => simp [hf] at h
      | some j =>
        obtain ⟨a, b, h1, h2, h3⟩ := ih hf
        rw [hf] at h
        simp at h
        refine ⟨x :: a, b, by simp [h1], ?_, by simp [h3, h]⟩
        simp only [List.mem_cons, not_or]
        exact ⟨fun e => hx e.symm, h2⟩

theorem mem_split_first {c : Char} {s : Str} (h : c ∈ s) : ∃ a b, s = a ++ c :: b ∧ c ∉ a := by
  cases hf : findChar c s with
  | none => exact absurd h (findChar_eq_none.mp hf)
  | some i => obtain ⟨a, b, h1, h2, _⟩ := findChar_some hf; exact ⟨a, b, h1, h2⟩

theorem findFrom_append {c : Char} (a b : Str) :
    findFrom c (a ++ b) a.length = (findChar c b).map (a.length + ·) := by
  simp [findFrom]

theorem findFrom_append' {c : Char} (a b : Str) {n : Nat} (hn : n = a.length) :
    findFrom c (a ++ b) n = (findChar c b).map (n + ·) := by
  subst hn; exact findFrom_append a b

theorem slice_append (a b c : Str) : slice (a ++ b ++ c) a.length (a.length + b.length) = b := by
  simp [slice]

theorem slice_mid {s a b c : Str} {i j : Nat} (hs : s = a ++ b ++ c) (hi : i = a.length)
    (hj : j = a.length + b.length) : slice s i j = b := by
  subst hs hi hj; exact slice_append a b c

/-! ## trimming -/

/-- No whitespace at either end. -/
def NoEdgeWs (s : Str) : Prop :=
  (∀ c, s.head? = some c → isWs c = false) ∧ (∀ c, s.getLast? = some c → isWs c = false)

theorem trimStart_eq_self {s : Str} (h : ∀ c, s.head? = some c → isWs c = false) :
    trimStart s = s := by
  cases s with
  | nil => rfl
  | cons x xs =>
    have hx := h x rfl
    simp [trimStart, hx]

theorem trimEnd_eq_self {s : Str} (h : ∀ c, s.getLast? = some c → isWs c = false) :
    trimEnd s = s := by
  have : s.reverse.dropWhile isWs = s.reverse := by
    apply trimStart_eq_self
    intro c hc
    apply h
    simpa [List.head?_reverse] using hc
  simp [trimEnd, this]

theorem trim_eq_self {s : Str} (h : NoEdgeWs s) : trim s = s := by
  rw [trim, trimStart_eq_self h.1, trimEnd_eq_self h.2]

theorem trimStart_head (s : Str) : ∀ c, (trimStart s).head? = some c → isWs c = false := by
  intro c hc
  have := List.head?_dropWhile_not isWs s
  simp only [trimStart] at hc
  rw [hc] at this
  simpa using this

theorem trimEnd_last (s : Str) : ∀ c, (trimEnd s).getLast? = some c → isWs c = false := by
  intro c hc
  simp only [trimEnd, List.getLast?_reverse] at hc
  exact trimStart_head s.reverse c hc

theorem trimEnd_prefix (s : Str) : ∃ t, s = trimEnd s ++ t ∧ t.all isWs := by
  refine ⟨(s.reverse.takeWhile isWs).reverse, ?_, ?_⟩
  · have := List.takeWhile_append_dropWhile (p := isWs) (l := s.reverse)
    have h2 := congrArg List.reverse this
    simp only [List.reverse_append, List.reverse_reverse] at h2
    simpa [trimEnd] using h2.symm
  · simp

theorem trimStart_suffix (s : Str) : ∃ t, s = t ++ trimStart s ∧ t.all isWs :=
  ⟨s.takeWhile isWs, (List.takeWhile_append_dropWhile).symm, List.all_takeWhile⟩

theorem trim_noEdgeWs (s : Str) : NoEdgeWs (trim s) := by
  constructor
  · intro c hc
    obtain ⟨t, ht, _⟩ := trimEnd_prefix (trimStart s)
    apply trimStart_head s
    rw [ht]
    simp only [trim] at hc
    cases h : trimEnd (trimStart s) with
    | nil => simp [h] at hc
    | cons x xs => rw [h] at hc; simpa using hc
  · exact trimEnd_last _

theorem trim_trim (s : Str) : trim (trim s) = trim s := trim_eq_self (trim_noEdgeWs s)

theorem noEdgeWs_of_trim {s : Str} (h : trim s = s) : NoEdgeWs s := h ▸ trim_noEdgeWs s

theorem trimStart_all_ws {w : Str} (h : w.all isWs) (s : Str) :
    trimStart (w ++ s) = trimStart s := by
  induction w with
  | nil => rfl
  | cons x xs ih =>
    simp only [List.all_cons, Bool.and_eq_true] at h
    simp only [trimStart, List.cons_append, List.dropWhile_cons, h.1, if_true]
    exact ih h.2

theorem trimEnd_all_ws {w : Str} (h : w.all isWs) (s : Str) :
    trimEnd (s ++ w) = trimEnd s := by
  have : w.reverse.all isWs := by simpa using h
  simp only [trimEnd, List.reverse_append]
  rw [← trimStart, trimStart_all_ws this]
  rfl

/-- The result of trimming is determined: strip any amount of whitespace on both sides. -/
theorem trim_pad {s w w' : Str} (h : NoEdgeWs s) (hw : w.all isWs) (hw' : w'.all isWs) :
    trim (w ++ s ++ w') = s := by
  cases s with
  | nil =>
    rw [trim, List.append_assoc, trimStart_all_ws hw]
    simp only [List.nil_append]
    have := trimStart_all_ws hw' []
    rw [List.append_nil] at this
    rw [this]; rfl
  | cons x xs =>
    rw [trim, List.append_assoc, trimStart_all_ws hw, trimStart_eq_self, trimEnd_all_ws hw',
      trimEnd_eq_self h.2]
    intro c hc
    exact h.1 c (by simpa using hc)

theorem trim_eq_nil_iff {s : Str} : trim s = [] ↔ s.all isWs := by
  constructor
  · intro h
    obtain ⟨t, ht, hw⟩ := trimStart_suffix s
    obtain ⟨u, hu, hw'⟩ := trimEnd_prefix (trimStart s)
    rw [← trim, h] at hu
    rw [ht, hu]
    simp [hw, hw']
  · intro h
    have : NoEdgeWs ([] : Str) := by constructor <;> simp
    simpa using trim_pad this h (w' := []) rfl

theorem isWs_space : isWs ' ' = true := by decide

theorem trim_space_cons {s : Str} (h : NoEdgeWs s) : trim (' ' :: s) = s := by
  have := trim_pad h (w := [' ']) (w' := []) (by decide) rfl
  simpa using this

/-! ## split and join -/

theorem splitOn_ne_nil (c : Char) (s : Str) : splitOn c s ≠ [] := by
  induction s with
  | nil => simp [splitOn]
  | cons x xs ih =>
    simp only [splitOn]
    split
    · simp
    · split <;> simp

theorem splitOn_of_not_mem {c : Char} {s : Str} (h : c ∉ s) : splitOn c s = [s] := by
  induction s with
  | nil => rfl
  | cons x xs ih =>
    simp only [List.mem_cons, not_or] at h
    simp only [splitOn]
    rw [if_neg (fun e => h.1 e.symm), ih h.2]

theorem splitOn_append {c : Char} {a : Str} (h : c ∉ a) (b : Str) :
    splitOn c (a ++ c :: b) = a :: splitOn c b := by
  induction a with
  | nil => simp [splitOn]
  | cons x xs ih =>
    simp only [List.mem_cons, not_or] at h
    simp only [List.cons_append, splitOn]
    rw [if_neg (fun e => h.1 e.symm), ih h.2]

theorem splitOn_joinWith {c : Char} {ws : List Str} (hne : ws ≠ []) (h : ∀ w ∈ ws, c ∉ w) :
    splitOn c (joinWith c ws) = ws := by
  induction ws with
  | nil => exact absurd rfl hne
  | cons w ws ih =>
    cases ws with
    | nil => simpa [joinWith] using splitOn_of_not_mem (h w (by simp))
    | cons w' ws' =>
      rw [joinWith.eq_def]
      simp only
      rw [splitOn_append (h w (by simp)), ih (by simp) (fun x hx => h x (by simp [hx]))]

theorem joinWith_splitOn (c : Char) (s : Str) : joinWith c (splitOn c s) = s := by
  induction s with
  | nil => rfl
  | cons x xs ih =>
    simp only [splitOn]
    split
    · rename_i hx
      cases h : splitOn c xs with
      | nil => exact absurd h (splitOn_ne_nil c xs)
      | cons w ws =>
        rw [joinWith.eq_def]
        simp [← h, ih, hx]
    · split
      · rename_i h; exact absurd h (splitOn_ne_nil c xs)
      · rename_i w ws h
        rw [h] at ih
        cases ws with
        | nil => simp [joinWith] at ih ⊢; exact ih
        | cons w' ws' => simp [joinWith] at ih ⊢; exact ih

theorem splitOn_not_mem (c : Char) (s : Str) : ∀ w ∈ splitOn c s, c ∉ w := by
  induction s with
  | nil => simp [splitOn]
  | cons x xs ih =>
    simp only [splitOn]
    split
    · intro w hw
      simp only [List.mem_cons] at hw
      rcases hw with rfl | hw
      · simp
      · exact ih w hw
    · rename_i hx
      split
      · rename_i h; exact absurd h (splitOn_ne_nil c xs)
      · rename_i w ws h
        rw [h] at ih
        intro v hv
        simp only [List.mem_cons] at hv
        rcases hv with rfl | hv
        · simp only [List.mem_cons, not_or]
          exact ⟨fun e => hx e.symm, ih w (by simp)⟩
        · exact ih v (by simp [hv])

/-! ## decimal numbers -/

theorem digitChar_isDigit {d : Nat} (h : d < 10) : (digitChar d).isDigit = true := by
  have : d = 0 ∨ d = 1 ∨ d = 2 ∨ d = 3 ∨ d = 4 ∨ d = 5 ∨ d = 6 ∨ d = 7 ∨ d = 8 ∨ d = 9 := by omega
  rcases this with rfl | rfl | rfl | rfl | rfl | rfl | rfl | rfl | rfl | rfl <;> decide

theorem digitChar_toNat {d : Nat} (h : d < 10) : (digitChar d).toNat = 48 + d := by
  have : d = 0 ∨ d = 1 ∨ d = 2 ∨ d = 3 ∨ d = 4 ∨ d = 5 ∨ d = 6 ∨ d = 7 ∨ d = 8 ∨ d = 9 := by omega
  rcases this with rfl | rfl | rfl | rfl | rfl | rfl | rfl | rfl | rfl | rfl <;> decide

theorem digitsVal_append (a b : Str) :
    digitsVal (a ++ b) = b.foldl (fun acc c => acc * 10 + (c.toNat - 48)) (digitsVal a) := by
  simp [digitsVal]

theorem digitsVal_snoc (a : Str) (c : Char) : digitsVal (a ++ [c]) = digitsVal a * 10 + (c.toNat - 48) := by
  simp [digitsVal]

theorem natDigitsAux_acc (fuel n : Nat) (acc : Str) :
    natDigitsAux fuel n acc = natDigitsAux fuel n [] ++ acc := by
  induction fuel generalizing n acc with
  | zero => simp [natDigitsAux]
  | succ f ih =>
    simp only [natDigitsAux]
    split
    · simp
    · rw [ih, ih (n / 10) [_]]; simp

/-- Recursive characterisation with enough fuel. -/
theorem natDigitsAux_spec (fuel n : Nat) (h : n < fuel) :
    (natDigitsAux fuel n []).all Char.isDigit = true ∧ digitsVal (natDigitsAux fuel n []) = n ∧
    natDigitsAux fuel n [] ≠ [] ∧
    (0 < n → ∃ d, (natDigitsAux fuel n []).head? = some (digitChar d) ∧ 0 < d ∧ d < 10) := by
  induction fuel generalizing n with
  | zero => omega
  | succ f ih =>
    simp only [natDigitsAux]
    split
    · rename_i hn
      refine ⟨by simp [digitChar_isDigit hn], by simp [digitsVal, digitChar_toNat hn], by simp, ?_⟩
      intro h0; exact ⟨n, by simp, h0, hn⟩
    · rename_i hn
      have h1 : n / 10 < f := by omega
      obtain ⟨i1, i2, i3, i4⟩ := ih (n / 10) h1
      have hm : n % 10 < 10 := by omega
      rw [natDigitsAux_acc]
      refine ⟨by simp only [List.all_append, i1, Bool.true_and]; simp [digitChar_isDigit hm], ?_, by simp, ?_⟩
      · rw [digitsVal_snoc, i2, digitChar_toNat hm]; omega
      · intro _
        obtain ⟨d, hd, hd'⟩ := i4 (by omega)
        refine ⟨d, ?_, hd'⟩
        cases hx : natDigitsAux f (n / 10) [] with
        | nil => exact absurd hx i3
        | cons x xs => rw [hx] at hd; simpa using hd

theorem natDigits_isDigit (n : Nat) : (natDigits n).all Char.isDigit = true :=
  (natDigitsAux_spec (n + 1) n (by omega)).1
theorem digitsVal_natDigits (n : Nat) : digitsVal (natDigits n) = n :=
  (natDigitsAux_spec (n + 1) n (by omega)).2.1
theorem natDigits_ne_nil (n : Nat) : natDigits n ≠ [] :=
  (natDigitsAux_spec (n + 1) n (by omega)).2.2.1
theorem natDigits_head {n : Nat} (h : 0 < n) : ∃ d, (natDigits n).head? = some (digitChar d) ∧ 0 < d ∧ d < 10 :=
  (natDigitsAux_spec (n + 1) n (by omega)).2.2.2 h

theorem natDigits_mem {n : Nat} {c : Char} (h : c ∈ natDigits n) : c.isDigit = true :=
  List.all_eq_true.mp (natDigits_isDigit n) c h

theorem not_mem_natDigits {n : Nat} {c : Char} (h : c.isDigit = false) : c ∉ natDigits n := by
  intro hc; rw [natDigits_mem hc] at h; exact absurd h (by simp)

theorem parseUsize_natDigits {n : Nat} (h : n < 2 ^ 64) : parseUsize (natDigits n) = some n := by
  have h1 := natDigits_isDigit n
  have h2 := digitsVal_natDigits n
  have h3 := natDigits_ne_nil n
  unfold parseUsize
  split
  · rename_i rest he
    rw [he] at h1
    simp only [List.all_cons, Bool.and_eq_true] at h1
    exact absurd h1.1 (by decide)
  · simp [h1, h2, h3, h]

end Toon
