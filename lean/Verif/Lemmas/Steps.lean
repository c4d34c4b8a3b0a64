import Verif.Lemmas.Frames

/-!
How many steps the machine takes.

`Spent K c L μ x`: the run `x`, with `L` lines left before it, takes at most `c` steps besides `K` steps for every line it
consumes.  `μ` is the number of the lines that are left after it.
-/

namespace Toon

section
variable {α β : Type}

def Spent (K c L : Nat) (μ : α → Nat) (x : Run α) : Prop :=
  x.steps + K * (match x.result with | .ok a => μ a | .error _ => 0) ≤ K * L + c

variable {K c d L : Nat} {μ : α → Nat} {ν : β → Nat}

theorem Spent.mono {x : Run α} (h : Spent K c L μ x) (hc : c ≤ d) : Spent K d L μ x := Nat.le_trans h (by omega)

theorem Spent.bind {x : Run α} {f : α → Run β} (h1 : Spent K c L μ x) (h2 : ∀ a, Spent K d (μ a) ν (f a)) :
    Spent K (c + d) L ν (x >>= f) := by
  unfold Spent at h1 ⊢
  show x.steps + (match x.result with | .ok a => (f a).steps | .error _ => 0) +
    K * (match (match x.result with | .ok a => (f a).result | .error e => .error e) with | .ok a => ν a | .error _ => 0) ≤ _
  cases hx : x.result with
  | error e => rw [hx] at h1; simp only at h1 ⊢; omega
  | ok a =>
    rw [hx] at h1
    have := h2 a
    unfold Spent at this
    simp only at h1 ⊢
    omega

theorem Spent.tick (n : Nat) {x : Unit → Run α} (h : Spent K c L μ (x ())) : Spent K (n + c) L μ (tick n >>= x) := by
  unfold Spent at h ⊢
  show n + (x ()).steps + K * (match (x ()).result with | .ok a => μ a | .error _ => 0) ≤ _
  omega

theorem Spent.lift (y : Except Err α) {f : α → Run β} (h : ∀ a, y = .ok a → Spent K c L ν (f a)) :
    Spent K c L ν (Run.lift y >>= f) := by
  cases hy : y with
  | error e => exact Nat.zero_le _
  | ok a => rw [Run.lift_ok_bind]; exact h a hy

theorem Spent.pure (a : α) (h : μ a ≤ L) : Spent K c L μ (pure a) := by
  show 0 + K * μ a ≤ _
  have := Nat.mul_le_mul_left K h
  omega

theorem Spent.stop (e : Stop) : Spent K c L μ (Run.stop e) := Nat.zero_le _

/-- A line that has been consumed pays for `K` steps. -/
theorem Spent.line {x : Run α} {L' : Nat} (h : Spent K c L' μ x) (hl : L' + 1 ≤ L) (hc : c ≤ K + d) : Spent K d L μ x := by
  unfold Spent at h ⊢
  have := Nat.mul_le_mul_left K hl
  rw [Nat.mul_add, Nat.mul_one] at this
  omega

end

section
variable {F : Type}

/-- How many blank lines are compared with at most. -/
def blankCost (ctx : Ctx) : Nat := if ctx.strict then ctx.blanks.length else 0

theorem blanksExamined_le (ctx : Ctx) (s e : Option Nat) : blanksExamined ctx s e ≤ blankCost ctx := by
  unfold blanksExamined blankCost
  split
  · split
    · exact Nat.min_le_right _ _
    · exact Nat.le_refl _
  · exact Nat.zero_le _

/-- What a line can cost. -/
def lineCost (ctx : Ctx) : Nat := 7 + blankCost ctx

theorem left_advance {lines : List Line} {m : Machine F} {line : Line} (h : m.peek lines = some line) :
    (m.advance lines).left lines + 1 = m.left lines := by
  simp only [Machine.peek] at h
  have hlt := (List.getElem?_eq_some_iff.mp h).1
  simp only [Machine.advance, h, Machine.left]
  omega

variable (ctx : Ctx) (lines : List Line)

/-- `Spent` for the machines that these functions return. -/
abbrev SpentM (c L : Nat) (x : Run (Machine F)) : Prop := Spent (lineCost ctx) c L (fun m => m.left lines) x

abbrev SpentC (c L : Nat) (x : Run (Machine F × Counts)) : Prop := Spent (lineCost ctx) c L (fun m => m.1.left lines) x

section
variable {ctx lines} {kv : Str → Machine F → Nat → Run (Machine F)}
  (hkv : ∀ s m b, SpentM ctx lines (4 + blankCost ctx) (m.left lines) (kv s m b))
include hkv

theorem fieldsLoop_spent (base : Nat) : ∀ n comp (m : Machine F),
    SpentM ctx lines 1 (m.left lines) (fieldsLoop lines kv base n comp m) := by
  intro n
  induction n with
  | zero => intro comp m; rw [fieldsLoop]; exact .tick 1 (c := 0) (.pure _ (Nat.le_refl _))
  | succ n ih =>
    intro comp m
    rw [fieldsLoop]
    refine .tick 1 (c := 0) ?_
    have done : SpentM ctx lines 0 (m.left lines) (pure m) := .pure _ (Nat.le_refl _)
    split
    · exact done
    · split
      · exact done
      · rename_i line hp
        split
        · exact done
        · cases comp
          all_goals
            simp only
            split
            · exact ((hkv _ _ _).bind fun m' => ih _ m').line (Nat.le_of_eq (left_advance hp)) (by simp only [lineCost]; omega)
            · exact done

theorem entriesLoop_spent (depth : Nat) : ∀ n (m : Machine F),
    SpentM ctx lines 1 (m.left lines) (entriesLoop lines kv depth n m) := by
  intro n
  induction n with
  | zero => intro m; rw [entriesLoop]; exact .tick 1 (c := 0) (.pure _ (Nat.le_refl _))
  | succ n ih =>
    intro m
    rw [entriesLoop]
    refine .tick 1 (c := 0) ?_
    have done : SpentM ctx lines 0 (m.left lines) (pure m) := .pure _ (Nat.le_refl _)
    split
    · exact done
    · split
      · exact done
      · rename_i line hp
        split
        · exact done
        · split
          · exact ((hkv _ _ _).bind fun m' => ih m').line (Nat.le_of_eq (left_advance hp)) (by simp only [lineCost]; omega)
          · exact done

theorem topLoop_spent : ∀ n (m : Machine F), SpentM ctx lines 1 (m.left lines) (topLoop lines kv n m) := by
  intro n
  induction n with
  | zero => intro m; rw [topLoop]; exact .tick 1 (c := 0) (.pure _ (Nat.le_refl _))
  | succ n ih =>
    intro m
    rw [topLoop]
    refine .tick 1 (c := 0) ?_
    have done : SpentM ctx lines 0 (m.left lines) (pure m) := .pure _ (Nat.le_refl _)
    split
    · exact done
    · split
      · exact done
      · rename_i line hp
        split
        · exact done
        · exact ((hkv _ _ _).bind fun m' => ih m').line (Nat.le_of_eq (left_advance hp)) (by simp only [lineCost]; omega)

theorem itemRest_spent [F64 F] (text : Str) (m : Machine F) (base : Nat) :
    SpentM ctx lines (5 + blankCost ctx) (m.left lines) (itemRest lines kv text m base) := by
  rw [itemRest]
  split
  · refine ((hkv _ _ _).bind (d := 1) fun m' => ?_).mono (by omega)
    exact (entriesLoop_spent hkv _ _ m').bind (d := 0) fun m'' => .pure _ (Nat.le_refl _)
  · exact .lift _ fun _ _ => .pure _ (Nat.le_refl _)

end

theorem itemsLoop_spent {ctx : Ctx} {lines : List Line} {item : Machine F → Nat → Run (Machine F)}
    (hi : ∀ m b line, m.peek lines = some line → SpentM ctx lines (6 + blankCost ctx) (m.left lines - 1) (item m b))
    (length depth : Nat) : ∀ n c (m : Machine F), SpentC ctx lines 1 (m.left lines) (itemsLoop lines item length depth n c m) := by
  intro n
  induction n with
  | zero => intro c m; rw [itemsLoop]; exact .tick 1 (c := 0) (.pure _ (Nat.le_refl _))
  | succ n ih =>
    intro c m
    rw [itemsLoop]
    refine .tick 1 (c := 0) ?_
    have done : SpentC ctx lines 0 (m.left lines) (pure (m, c)) := .pure _ (Nat.le_refl _)
    split
    · exact done
    · split
      · exact done
      · rename_i line hp
        have := left_advance hp
        split
        · exact done
        · split
          · exact ((hi m depth line hp).bind fun m' => ih _ m').line (by omega) (by simp only [lineCost]; omega)
          · exact done

variable [F64 F]

theorem rowsLoop_spent (fields : List FieldName) (delim : Char) (length depth : Nat) : ∀ n c (m : Machine F),
    SpentC ctx lines 1 (m.left lines) (rowsLoop ctx lines fields delim length depth n c m) := by
  intro n
  induction n with
  | zero => intro c m; rw [rowsLoop]; exact .tick 1 (c := 0) (.pure _ (Nat.le_refl _))
  | succ n ih =>
    intro c m
    rw [rowsLoop]
    refine .tick 1 (c := 0) ?_
    have done : SpentC ctx lines 0 (m.left lines) (pure (m, c)) := .pure _ (Nat.le_refl _)
    split
    · exact done
    · split
      · exact done
      · rename_i line hp
        split
        · exact done
        · split
          · exact .lift _ fun _ _ => .lift _ fun _ _ =>
              (ih _ _).line (Nat.le_of_eq (left_advance hp)) (by simp only [lineCost]; omega)
          · exact done

theorem tabularFrom_spent (h : Header) (fields : List FieldName) (m : Machine F) (base : Nat) :
    SpentM ctx lines (1 + blankCost ctx) (m.left lines) (tabularFrom ctx lines h fields m base) := by
  rw [tabularFrom]
  refine (rowsLoop_spent ctx lines _ _ _ _ _ _ m).bind fun p => ?_
  refine .lift _ fun _ _ => ?_
  refine (Spent.tick _ (c := 0) ?_).mono (blanksExamined_le ctx p.2.start p.2.end)
  exact .lift _ fun _ _ => .lift _ fun _ _ => .pure _ (Nat.le_refl _)

structure SpentClaims (F : Type) [F64 F] (ctx : Ctx) (lines : List Line) (stack : Nat) : Prop where
  kv : ∀ s (m : Machine F) b, SpentM ctx lines (4 + blankCost ctx) (m.left lines) (callKV ctx lines stack s m b)
  fields : ∀ (m : Machine F) b, SpentM ctx lines 2 (m.left lines) (callFields ctx lines stack m b)
  array : ∀ h (m : Machine F) b, SpentM ctx lines (3 + blankCost ctx) (m.left lines) (callArray ctx lines stack h m b)
  list : ∀ h (m : Machine F) b, SpentM ctx lines (2 + blankCost ctx) (m.left lines) (callList ctx lines stack h m b)
  item : ∀ (m : Machine F) b line, m.peek lines = some line →
    SpentM ctx lines (6 + blankCost ctx) (m.left lines - 1) (callItem ctx lines stack m b)

theorem spentClaims (stack : Nat) : SpentClaims F ctx lines stack := by
  induction stack with
  | zero =>
    constructor
    · intros; rw [callKV]; exact .stop _
    · intros; rw [callFields]; exact .stop _
    · intros; rw [callArray]; exact .stop _
    · intros; rw [callList]; exact .stop _
    · intros; rw [callItem]; exact .stop _
  | succ stack ih =>
    constructor
    · intro s m b
      rw [callKV]
      refine (Spent.tick 1 (c := 3 + blankCost ctx) ?_).mono (by omega)
      refine .lift _ fun hdr _ => ?_
      have done : ∀ evs, SpentM ctx lines (3 + blankCost ctx) (m.left lines) (pure (m.push evs)) :=
        fun evs => .pure _ (Nat.le_refl _)
      cases keyedHeader hdr with
      | some kh => exact ih.array _ _ _
      | none =>
        refine .lift _ fun k _ => ?_
        simp only
        split
        · split
          · split
            · refine Spent.mono (c := 2) ?_ (by omega)
              exact (ih.fields _ _).bind (d := 0) fun m' => .pure _ (Nat.le_refl _)
            · exact .pure _ (Nat.le_refl _)
          · exact .pure _ (Nat.le_refl _)
        · exact .lift _ fun _ _ => .pure _ (Nat.le_refl _)
    · intro m b
      rw [callFields]
      exact Spent.tick 1 (c := 1) (fieldsLoop_spent ih.kv b _ none m)
    · intro h m b
      rw [callArray]
      refine (Spent.tick 1 (c := 2 + blankCost ctx) ?_).mono (by omega)
      simp only
      split
      · exact .lift _ fun _ _ => .pure _ (Nat.le_refl _)
      · split
        · exact (ih.list _ _ _).bind (d := 0) fun m' => .pure _ (Nat.le_refl _)
        · refine Spent.mono (c := 1 + blankCost ctx) ?_ (by omega)
          exact (tabularFrom_spent ctx lines _ _ _ _).bind (d := 0) fun m' => .pure _ (Nat.le_refl _)
    · intro h m b
      rw [callList]
      refine (Spent.tick 1 (c := 1 + blankCost ctx) ?_).mono (by omega)
      refine (itemsLoop_spent ih.item _ _ _ _ m).bind fun p => ?_
      refine .lift _ fun _ _ => ?_
      refine (Spent.tick _ (c := 0) ?_).mono (blanksExamined_le ctx p.2.start p.2.end)
      exact .lift _ fun _ _ => .lift _ fun _ _ => .pure _ (Nat.le_refl _)
    · intro m b line hp
      have hl : m.left lines - 1 = (m.advance lines).left lines := by have := left_advance hp; omega
      rw [callItem, hl, hp]
      refine (Spent.tick 1 (c := 5 + blankCost ctx) ?_).mono (by omega)
      simp only
      split
      · exact .pure _ (Nat.le_refl _)
      · split
        · split
          · exact .pure _ (Nat.le_refl _)
          · refine .lift _ fun hdr _ => ?_
            split
            · exact (ih.array _ _ _).mono (by omega)
            · split
              · split
                · refine ((ih.array _ _ _).bind (d := 1) fun m' => ?_).mono (by omega)
                  exact (entriesLoop_spent ih.kv _ _ m').bind (d := 0) fun m'' => .pure _ (Nat.le_refl _)
                · exact itemRest_spent ih.kv _ _ _
              · exact itemRest_spent ih.kv _ _ _
        · exact .stop _

theorem runLines_steps (stack : Nat) : (runLines (F := F) ctx lines stack).steps ≤ lineCost ctx * lines.length + 1 := by
  suffices h : Spent (lineCost ctx) 1 lines.length (fun _ => 0) (runLines (F := F) ctx lines stack) by
    unfold Spent at h
    omega
  cases stack with
  | zero => exact .stop _
  | succ stack =>
    rw [runLines]
    refine .tick 1 (c := 0) ?_
    have sc := spentClaims (F := F) ctx lines stack
    simp only
    split
    · exact .pure _ (Nat.zero_le _)
    · rename_i first hp
      have hl := left_advance hp
      have hl0 : (Machine.mk (F := F) [] 0 none).left lines = lines.length := rfl
      refine .lift _ fun hdr _ => ?_
      split
      · exact ((sc.array _ _ _).bind (d := 0) (ν := fun _ => 0) fun m' => .pure _ (Nat.zero_le _)).line
          (by show Machine.left _ _ + 1 ≤ _; omega) (by simp only [lineCost]; omega)
      · split
        · exact .lift _ fun _ _ => .pure _ (Nat.zero_le _)
        · refine ((sc.kv _ _ _).bind (d := 1) (ν := fun _ => 0) fun m' => ?_).line
            (by show Machine.left _ _ + 1 ≤ _; exact Nat.le_of_eq (hl.trans hl0)) (by simp only [lineCost]; omega)
          exact (topLoop_spent sc.kv _ m').bind (d := 0) fun m'' => .pure _ (Nat.zero_le _)

end

end Toon
