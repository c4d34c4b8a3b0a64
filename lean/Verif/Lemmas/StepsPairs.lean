import Verif.Lemmas.Steps
import Verif.Lemmas.FramesBound
import Verif.Lemmas.Dec

/-! The steps for a text of many short arrays followed by blank lines. -/

namespace Toon

section
variable {F : Type} [F64 F]

/-- The number `k` is that of the second line. -/
def pairItem (k : Nat) : Line := ⟨1, ['-', ' ', 'x'], k⟩

def pairText : Str := ['a', '[', '1', ']', ':']

theorem pair_header : parseArrayHeaderLine pairText ',' = .ok (some (stairHeader 1)) := by decide +kernel

theorem pair_item (ctx : Ctx) (lines rest : List Line) (last : Option Line) (k stack : Nat) (hs : pairItem k :: rest <:+ lines)
    (evs : List (Ev F)) : (callItem ctx lines (stack + 1) (Machine.of lines evs ⟨pairItem k :: rest, last⟩) 1).Is 1
      (Machine.of lines (evs ++ [.prim (.str ['x'])]) ⟨rest, some (pairItem k)⟩) := by
  rw [callItem, Machine.of_peek hs, Machine.of_advance hs rfl]
  refine .tick (k := 0) ?_
  simp only [List.head?_cons]
  rw [if_neg (by simp [pairItem]), if_pos (by simp [pairItem, startsWithDash]), if_neg (by simp only [pairItem]; decide +kernel)]
  refine .lift (a := none) (by simp only [pairItem]; decide +kernel) ?_
  simp only [keyedHeader, pairItem, List.drop_succ_cons, List.drop_zero]
  rw [itemRest, if_neg (by decide +kernel)]
  exact .lift (a := .str ['x']) rfl (.pure _)

theorem blanksExamined_same (ctx : Ctx) (k : Nat) : blanksExamined ctx (some k) (some k) = blankCost ctx := by
  unfold blanksExamined blankCost
  simp only
  split
  · rw [List.findIdx_eq_length_of_false (by intro x _; simp; omega)]
    omega
  · rfl

theorem checkBlanks_same (ctx : Ctx) (t : Bool) (k : Nat) : checkBlanks ctx t (some k) (some k) = .ok () := by
  have : ctx.blanks.find? (fun b => k < b && b < k) = none := by
    rw [List.find?_eq_none]; intro x _; simp; omega
  simp [checkBlanks, noBlankInRange, this]

theorem pair_items (ctx : Ctx) (lines rest : List Line) (last : Option Line) (k stack : Nat) (hs : pairItem k :: rest <:+ lines)
    (evs : List (Ev F)) :
    (itemsLoop lines (callItem ctx lines (stack + 1)) 1 1 (rest.length + 1) ⟨0, none, none⟩
      (Machine.of lines evs ⟨pairItem k :: rest, last⟩)).Is 3
      (Machine.of lines (evs ++ [.prim (.str ['x'])]) ⟨rest, some (pairItem k)⟩, ⟨1, some k, some k⟩) := by
  have hs' : rest <:+ lines := (List.suffix_cons _ _).trans hs
  rw [itemsLoop, Machine.of_peek hs, Machine.of_atEnd hs]
  refine .tick (k := 2) ?_
  rw [if_neg (by simp)]
  simp only [List.head?_cons]
  rw [if_neg (by simp [pairItem]), if_pos (by simp [pairItem, isListItem, startsWithDash])]
  refine (pair_item ctx lines rest last k stack hs evs).bind (k := 1) ?_
  simp only [Machine.of_last]
  cases rest with
  | nil =>
    rw [List.length_nil, itemsLoop]
    exact .tick (k := 0) (.pure _)
  | cons l ls =>
    rw [List.length_cons, itemsLoop, if_pos (by simp)]
    exact .tick (k := 0) (.pure _)

theorem pair_kv (ctx : Ctx) (lines rest : List Line) (last : Option Line) (k stack : Nat) (hs : pairItem k :: rest <:+ lines)
    (hr : ∀ l, rest.head? = some l → l.depth = 0) (evs : List (Ev F)) :
    (callKV ctx lines (stack + 4) pairText (Machine.of lines evs ⟨pairItem k :: rest, last⟩) 0).Is (6 + blankCost ctx)
      (Machine.of lines (evs ++ [.key ['a'] false] ++ [.startArr 1] ++ [.prim (.str ['x'])] ++ [.endArr]) ⟨rest, some (pairItem k)⟩) := by
  have hs' : rest <:+ lines := (List.suffix_cons _ _).trans hs
  rw [show 6 + blankCost ctx = 1 + (5 + blankCost ctx) by omega, callKV]
  refine .tick ?_
  refine .lift pair_header ?_
  simp only [keyedHeader, stairHeader]
  rw [Machine.of_push, show 5 + blankCost ctx = 1 + (4 + blankCost ctx + 0) by omega, callArray]
  refine .tick ?_
  simp only [Option.getD_none, List.isEmpty_nil, if_true]
  rw [Machine.of_push]
  refine .bind (a := Machine.of lines (evs ++ [.key ['a'] false] ++ [.startArr 1] ++ [.prim (.str ['x'])]) ⟨rest, some (pairItem k)⟩) ?_
    (.pure _)
  rw [show 4 + blankCost ctx = 1 + (3 + blankCost ctx) by omega, callList, Machine.of_left hs]
  refine .tick ?_
  refine .bind (pair_items ctx lines rest last k stack hs _) ?_
  refine .lift (a := ()) (by simp [assertCount]) ?_
  rw [blanksExamined_same]
  refine .tick (k := 0) ?_
  refine .lift (checkBlanks_same _ _ _) ?_
  refine .lift (a := ()) ?_ (.pure _)
  rw [Machine.of_peek hs']
  cases rest with
  | nil => rfl
  | cons l ls =>
    have := hr l rfl
    simp [noExtraItems, this]

/-- `n` pairs of lines, with numbers from `2·i + 1`. -/
def pairLines : Nat → Nat → List Line
  | _, 0 => []
  | i, n + 1 => ⟨0, pairText, 2 * i + 1⟩ :: pairItem (2 * i + 2) :: pairLines (i + 1) n

theorem pairLines_head (i n : Nat) : ∀ l, (pairLines i n).head? = some l → l.depth = 0 := by
  cases n with
  | zero => simp [pairLines]
  | succ n => intro l h; simp [pairLines] at h; rw [← h]

theorem pairLines_length (i n : Nat) : (pairLines i n).length = 2 * n := by
  induction n generalizing i with
  | zero => rfl
  | succ n ih => simp only [pairLines, List.length_cons, ih]; omega

theorem pair_top (ctx : Ctx) (lines : List Line) (stack n : Nat) : ∀ (i k : Nat) (last : Option Line) (evs : List (Ev F)),
    pairLines i n <:+ lines → 2 * n ≤ k →
    ∃ evs' last', (topLoop lines (callKV ctx lines (stack + 4)) k (Machine.of lines evs ⟨pairLines i n, last⟩)).Is
      (n * (7 + blankCost ctx) + 1) (Machine.of lines evs' ⟨[], last'⟩) := by
  induction n with
  | zero =>
    intro i k last evs hs _
    refine ⟨evs, last, ?_⟩
    rw [Nat.zero_mul]
    cases k with
    | zero => rw [topLoop]; exact .tick (k := 0) (.pure _)
    | succ k => rw [topLoop, Machine.of_atEnd hs]; exact .tick (k := 0) (.pure _)
  | succ n ih =>
    intro i k last evs hs hk
    obtain ⟨k, rfl⟩ : ∃ j, k = j + 1 := ⟨k - 1, by omega⟩
    have hs1 : pairItem (2 * i + 2) :: pairLines (i + 1) n <:+ lines := (List.suffix_cons _ _).trans hs
    have hs2 : pairLines (i + 1) n <:+ lines := (List.suffix_cons _ _).trans hs1
    obtain ⟨evs', last', h⟩ := ih (i + 1) k (some (pairItem (2 * i + 2)))
      (evs ++ [.key ['a'] false] ++ [.startArr 1] ++ [.prim (.str ['x'])] ++ [.endArr]) hs2 (by omega)
    refine ⟨evs', last', ?_⟩
    rw [topLoop, Machine.of_atEnd hs, Machine.of_peek hs, Machine.of_advance hs rfl,
      show (n + 1) * (7 + blankCost ctx) + 1 = 1 + (6 + blankCost ctx + (n * (7 + blankCost ctx) + 1)) by
        rw [Nat.add_mul, Nat.one_mul]; omega]
    refine .tick ?_
    simp only [pairLines, List.isEmpty_cons, Bool.false_eq_true, if_false, List.head?_cons, ne_eq, not_true_eq_false]
    exact .bind (pair_kv ctx lines _ _ _ _ hs1 (pairLines_head _ _) _) h

theorem pair_run (ctx : Ctx) (stack n : Nat) : ∃ evs : List (Ev F),
    (runLines (F := F) ctx (pairLines 0 n) (stack + 5)).Is (n * (7 + blankCost ctx) + 1) evs := by
  cases n with
  | zero => exact ⟨_, by rw [Nat.zero_mul, runLines]; exact .tick (k := 0) (.pure _)⟩
  | succ n =>
    have hs1 : pairItem 2 :: pairLines 1 n <:+ pairLines 0 (n + 1) := List.suffix_cons _ _
    have hs2 : pairLines 1 n <:+ pairLines 0 (n + 1) := (List.suffix_cons _ _).trans hs1
    obtain ⟨evs', last', h⟩ := pair_top (F := F) ctx (pairLines 0 (n + 1)) stack n 1 (2 * n) (some (pairItem 2))
      ([] ++ [.startObj] ++ [.key ['a'] false] ++ [.startArr 1] ++ [.prim (.str ['x'])] ++ [.endArr]) hs2 (Nat.le_refl _)
    refine ⟨((Machine.of (pairLines 0 (n + 1)) evs' ⟨[], last'⟩).push [.endObj]).events, ?_⟩
    have hadv : (Machine.mk (F := F) [] 0 none).advance (pairLines 0 (n + 1)) =
        Machine.of (pairLines 0 (n + 1)) [] ⟨pairItem 2 :: pairLines 1 n, some ⟨0, pairText, 1⟩⟩ := by
      have := Machine.of_advance (F := F) (cur := ⟨pairLines 0 (n + 1), none⟩) (lines := pairLines 0 (n + 1))
        (List.suffix_refl _) rfl []
      rw [← this]
      simp [Machine.of]
    have hpk : (Machine.mk (F := F) [] 0 none).peek (pairLines 0 (n + 1)) = some ⟨0, pairText, 1⟩ := rfl
    rw [runLines, show (n + 1) * (7 + blankCost ctx) + 1 = 1 + (6 + blankCost ctx + (n * (7 + blankCost ctx) + 1 + 0)) by
        rw [Nat.add_mul, Nat.one_mul]; omega]
    refine .tick ?_
    simp only
    rw [hpk, hadv]
    refine .lift (a := none) (by decide +kernel) ?_
    simp only
    rw [if_neg (by rw [Machine.of_atEnd hs1]; simp), Machine.of_push]
    refine .bind (pair_kv ctx _ _ _ _ stack hs1 (pairLines_head _ _) _) ?_
    rw [Machine.of_left hs2, pairLines_length]
    exact .bind h (.pure _)

end

end Toon
