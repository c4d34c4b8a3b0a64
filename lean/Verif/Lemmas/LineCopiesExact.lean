import Verif.Lemmas.LineCopiesRanks
import Verif.Lemmas.Dec
import Verif.Lemmas.Header

/-!
Objects inside each other and a last line: every object that ends at the last line copies it.
-/

namespace Toon

/-- The lines `a:` at the depths `i`, `i + 1`, … -/
def nestLines (i : Nat) : Nat → List Line
  | 0 => []
  | k + 1 => ⟨i, ['a', ':'], i + 1⟩ :: nestLines (i + 1) k

section
variable {F : Type} [F64 F] (w : Line → Nat) (ctx : Ctx)

omit [F64 F] in
theorem Run.Is.peek {α : Type} {w : Line → Nat} {cur : Cur} {f : Option Line → Run α} {k : Nat} {b : α} (h : (f cur.rest.head?).Is k b) :
    (peekCopied w cur >>= f).Is (nextW w cur + k) b := ⟨by rw [← h.1]; rfl, h.2⟩

omit [F64 F] in
theorem Run.Is.advance {α : Type} {w : Line → Nat} {line : Line} {rest : List Line} {last : Option Line} {f : Cur → Run α} {k : Nat} {b : α}
    (h : (f ⟨rest, some line⟩).Is k b) : (advanceCopied w ⟨line :: rest, last⟩ >>= f).Is (w line + k) b := ⟨by rw [← h.1]; rfl, h.2⟩

theorem copyKV_nest (last : Line) (hl : last.depth = 0) : ∀ (k i fuel : Nat) (from_ : Option Line), 2 * k + 1 ≤ fuel →
    ∃ evs l', (copyKV (F := F) w ctx fuel ['a', ':'] ⟨nestLines (i + 1) k ++ [last], from_⟩ i).Is
      (2 * totalW w (nestLines (i + 1) k) + k * w last) (evs, ⟨[last], l'⟩) := by
  intro k
  induction k with
  | zero =>
    intro i fuel fr hf
    obtain ⟨fuel, rfl⟩ : ∃ f, fuel = f + 1 := ⟨fuel - 1, by omega⟩
    refine ⟨[.key ['a'] false, .startObj, .endObj], fr, ?_⟩
    rw [copyKV]
    refine .lift (a := none) (by decide) ?_
    refine .lift (a := (['a'], 2, false)) (by decide) ?_
    show Run.Is (if _ then (if i < last.depth then _ else _) else _) _ _
    rw [if_pos (by decide), if_neg (by omega)]
    exact ⟨by simp [nestLines, totalW, Run.steps_pure], rfl⟩
  | succ k ih =>
    intro i fuel fr hf
    obtain ⟨fuel, rfl⟩ : ∃ f, fuel = f + 2 + 1 := ⟨fuel - 3, by omega⟩
    obtain ⟨evs, l', h1⟩ := ih (i + 1) (fuel + 1) (some ⟨i + 1, ['a', ':'], i + 1 + 1⟩) (by omega)
    have hfields : (copyFields (F := F) w ctx (fuel + 2) ⟨nestLines (i + 1) (k + 1) ++ [last], fr⟩ (i + 1) none).Is
        (w ⟨i + 1, ['a', ':'], i + 1 + 1⟩ + (w ⟨i + 1, ['a', ':'], i + 1 + 1⟩ +
          (2 * totalW w (nestLines (i + 1 + 1) k) + k * w last + (w last + 0)))) (evs ++ [], ⟨[last], l'⟩) := by
      rw [copyFields]
      refine .peek ?_
      show Run.Is (if i + 1 < i + 1 then _ else if i + 1 = i + 1 then _ else _) _ _
      rw [if_neg (by omega), if_pos rfl]
      refine .advance (.bind h1 ?_)
      refine Run.Is.bind (a := ([], ⟨[last], l'⟩)) ?_ (.pure _)
      rw [copyFields, if_neg (by simp)]
      refine Run.Is.peek (k := 0) ?_
      show Run.Is (if last.depth < i + 1 then _ else _) _ _
      rw [if_pos (by omega)]
      exact .pure _
    refine ⟨.key ['a'] false :: .startObj :: (evs ++ []) ++ [.endObj], l', ?_⟩
    rw [copyKV]
    refine .lift (a := none) (by decide) ?_
    refine .lift (a := (['a'], 2, false)) (by decide) ?_
    show Run.Is (if _ then (if i < i + 1 then _ else _) else _) _ _
    rw [if_pos (by decide), if_pos (by omega)]
    have h := Run.Is.bind (f := fun a : List (Ev F) × Cur => pure (.key ['a'] false :: .startObj :: a.1 ++ [.endObj], a.2)) hfields (.pure _)
    refine ⟨Eq.trans h.1 ?_, h.2⟩
    simp only [nestLines, totalW, List.map_cons, List.sum_cons, Nat.mul_add, Nat.add_mul]
    omega

/-- Where no line is left, nothing is copied. -/
theorem copyKV_end (fuel : Nat) (s : Str) (last : Option Line) (b : Nat) : (copyKV (F := F) w ctx fuel s ⟨[], last⟩ b).steps = 0 ∧
    ∀ a, (copyKV (F := F) w ctx fuel s ⟨[], last⟩ b).result = .ok a → a.2.rest = [] := by
  have hr : Ranks 5 (fun _ => False) (fun _ => 1) := ⟨fun _ => Nat.le_refl _, fun _ _ _ => Nat.le_refl _, Nat.le_refl _, fun _ h => h.elim⟩
  have h := (copyCharges (F := F) (w := w) ctx hr fuel).kv s ⟨[], last⟩ b (by simp)
  unfold Charged at h
  split at h
  · rename_i a ha
    have hnil : a.2.rest = [] := List.eq_nil_iff_forall_not_mem.mpr h.2
    have h1 := h.1
    simp only [totalW, nextW, hnil, List.map_nil, List.sum_nil, List.head?_nil, Option.map_none, Option.getD_none] at h1
    exact ⟨by omega, fun a' ha' => by rw [ha] at ha'; cases ha'; exact hnil⟩
  · rename_i e he
    simp only [totalW, List.map_nil, List.sum_nil] at h
    exact ⟨by omega, fun a' ha' => by rw [he] at ha'; cases ha'⟩

/-- The last line in the loop over the entries of the root. -/
theorem copyRoot_last (fuel : Nat) (last : Line) (hl : last.depth = 0) (l' : Option Line) :
    (copyRoot (F := F) w ctx (fuel + 2) ⟨[last], l'⟩).steps = 2 * w last := by
  rw [copyRoot, if_neg (by simp)]
  have hpeek : ∀ {α : Type} (f : Option Line → Run α), (peekCopied w ⟨[last], l'⟩ >>= f).steps = w last + (f (some last)).steps := fun _ => rfl
  have hadv : ∀ {α : Type} (f : Cur → Run α), (advanceCopied w ⟨[last], l'⟩ >>= f).steps = w last + (f ⟨[], some last⟩).steps := fun _ => rfl
  rw [hpeek]
  simp only
  rw [if_neg (by omega), hadv, Run.steps_bind]
  obtain ⟨h1, h2⟩ := copyKV_end (F := F) w ctx (fuel + 1) last.content (some last) 0
  rw [h1]
  cases hx : (copyKV (F := F) w ctx (fuel + 1) last.content ⟨[], some last⟩ 0).result with
  | error e => simp only; omega
  | ok a =>
    obtain ⟨evs, cur⟩ := a
    have := h2 _ hx
    simp only at this ⊢
    rw [copyRoot, if_pos (by simp [this])]
    show w last + (w last + (0 + 0)) = _
    omega

theorem copyLines_nest (n : Nat) (last : Line) (hl : last.depth = 0) :
    (copyLines (F := F) w ctx (nestLines 0 (n + 1) ++ [last])).steps = 2 * totalW w (nestLines 0 (n + 1)) + (n + 2) * w last := by
  obtain ⟨evs, l', h1⟩ := copyKV_nest (F := F) w ctx last hl n 0 (5 * (nestLines 0 (n + 1) ++ [last]).length + 5) (some ⟨0, ['a', ':'], 1⟩) (by
    have : ∀ k i, (nestLines i k).length = k := by
      intro k
      induction k with
      | zero => intro i; rfl
      | succ k ih => intro i; simp [nestLines, ih]
    simp [this]
    omega)
  have h2 := copyRoot_last (F := F) w ctx (5 * (nestLines 0 (n + 1) ++ [last]).length + 3) last hl l'
  have hh : rootHeader ['a', ':'] = .ok none := by decide
  have hne : (nestLines (0 + 1) n ++ [last]).isEmpty = false := by simp
  rw [copyLines]
  have hpeek : ∀ {α : Type} (f : Option Line → Run α), (peekCopied w ⟨nestLines 0 (n + 1) ++ [last], none⟩ >>= f).steps =
    w ⟨0, ['a', ':'], 1⟩ + (f (some ⟨0, ['a', ':'], 1⟩)).steps := fun _ => rfl
  have hadv : ∀ {α : Type} (f : Cur → Run α), (advanceCopied w ⟨nestLines 0 (n + 1) ++ [last], none⟩ >>= f).steps =
    w ⟨0, ['a', ':'], 1⟩ + (f ⟨nestLines (0 + 1) n ++ [last], some ⟨0, ['a', ':'], 1⟩⟩).steps := fun _ => rfl
  rw [hpeek]
  simp only
  rw [hh, Run.lift_ok_bind, hadv]
  simp only
  rw [if_neg (by simp), Run.steps_bind, h1.1, h1.2]
  simp only
  rw [Run.steps_bind, h2]
  cases (copyRoot (F := F) w ctx (5 * (nestLines 0 (n + 1) ++ [last]).length + 5) ⟨[last], l'⟩).result
  all_goals simp only [Run.steps_pure]
  all_goals
    simp only [nestLines, totalW, List.map_cons, List.sum_cons, Nat.mul_add, Nat.add_mul, Nat.zero_add]
    omega

/-- A last line that is a key and a colon is accepted. -/
theorem copyLines_nest_ok (n : Nat) (last : Line) (hl : last.depth = 0) (k : Str) (hk : last.content = encodeKey k ++ [':']) :
    ∃ evs, (copyLines (F := F) w ctx (nestLines 0 (n + 1) ++ [last])).result = .ok evs := by
  obtain ⟨evs, l', h1⟩ := copyKV_nest (F := F) w ctx last hl n 0 (5 * (nestLines 0 (n + 1) ++ [last]).length + 5) (some ⟨0, ['a', ':'], 1⟩) (by
    have : ∀ k i, (nestLines i k).length = k := by
      intro k
      induction k with
      | zero => intro i; rfl
      | succ k ih => intro i; simp [nestLines, ih]
    simp [this]
    omega)
  have h2 : ∃ evs', (copyRoot (F := F) w ctx (5 * (nestLines 0 (n + 1) ++ [last]).length + 5) ⟨[last], l'⟩).result = .ok evs' := by
    rw [copyRoot, if_neg (by simp)]
    have hpeek : ∀ {α : Type} (f : Option Line → Run α), (peekCopied w ⟨[last], l'⟩ >>= f).result = (f (some last)).result := fun _ => rfl
    have hadv : ∀ {α : Type} (f : Cur → Run α), (advanceCopied w ⟨[last], l'⟩ >>= f).result = (f ⟨[], some last⟩).result := fun _ => rfl
    rw [hpeek]
    simp only
    rw [if_neg (by omega), hadv, Run.result_bind]
    have h3 : (copyKV (F := F) w ctx (5 * (nestLines 0 (n + 1) ++ [last]).length + 4) last.content ⟨[], some last⟩ 0).result =
        .ok ([.key k (!isValidUnquotedKey k), .startObj, .endObj], ⟨[], some last⟩) := by
      rw [copyKV, hk, parseHeader_keyOnly, Run.lift_ok_bind]
      simp only [keyedHeader]
      rw [parseKeyToken_encode, Run.lift_ok_bind]
      simp only
      rw [if_pos]
      · rfl
      · rw [show (encodeKey k).length + 1 = (encodeKey k ++ [':']).length by simp, List.drop_length]; rfl
    rw [h3]
    simp only
    rw [copyRoot, if_pos (by simp)]
    exact ⟨_, rfl⟩
  obtain ⟨evs', h2⟩ := h2
  have hh : rootHeader ['a', ':'] = .ok none := by decide
  rw [copyLines]
  have hpeek : ∀ {α : Type} (f : Option Line → Run α), (peekCopied w ⟨nestLines 0 (n + 1) ++ [last], none⟩ >>= f).result =
    (f (some ⟨0, ['a', ':'], 1⟩)).result := fun _ => rfl
  have hadv : ∀ {α : Type} (f : Cur → Run α), (advanceCopied w ⟨nestLines 0 (n + 1) ++ [last], none⟩ >>= f).result =
    (f ⟨nestLines (0 + 1) n ++ [last], some ⟨0, ['a', ':'], 1⟩⟩).result := fun _ => rfl
  rw [hpeek]
  simp only
  rw [hh, Run.lift_ok_bind, hadv]
  simp only
  rw [if_neg (by simp), Run.result_bind, h1.2]
  simp only
  rw [Run.result_bind, h2]
  exact ⟨_, rfl⟩

end

/-! ## The source of these lines -/

theorem nestedThen_scan (indent : Nat) (hi : 0 < indent) (strict : Bool) (last : Str) (hb : ¬ BlankLine last) (hs : last.head? ≠ some ' ')
    (ht : last.head? ≠ some '\t') (n : Nat) :
    ScansTo indent strict 0 (nestedThen indent n last) (nestLines 0 n ++ [⟨0, last, n + 1⟩]) [] := by
  have key : ∀ k i, ScansTo indent strict i
      ((List.range' i k).map (fun j => List.replicate (indent * j) ' ' ++ ['a', ':']) ++ [last]) (nestLines i k ++ [⟨0, last, i + k + 1⟩]) [] := by
    intro k
    induction k with
    | zero =>
      intro i
      have := ScansTo.line (indent := indent) (strict := strict) (n := i) (spaces := 0) (content := last) hb hs
        (fun _ => ⟨ht, Nat.zero_mod _⟩) (.nil (i + 1))
      simpa [nestLines] using this
    | succ k ih =>
      intro i
      have h := ih (i + 1)
      have := ScansTo.line (indent := indent) (strict := strict) (n := i) (spaces := indent * i) (content := ['a', ':']) (by decide) (by decide)
        (fun _ => ⟨by decide, Nat.mul_mod_right _ _⟩) h
      rw [Nat.mul_div_cancel_left _ hi] at this
      simpa [nestLines, List.range'_succ, Nat.add_assoc, Nat.add_comm 1 k] using this
  have := key n 0
  rw [Nat.zero_add, ← List.range_eq_range'] at this
  exact this

theorem nestLines_chars (indent : Nat) (last : Str) (n : Nat) :
    totalW (lineChars (nestedThen indent n last)) (nestLines 0 n) * 2 = indent * (n * (n - 1)) + 8 * n := by
  have key : ∀ k i, i + k = n → totalW (lineChars (nestedThen indent n last)) (nestLines i k) =
      ((List.range' i k).map fun j => indent * j + 4).sum := by
    intro k
    induction k with
    | zero => intro i _; rfl
    | succ k ih =>
      intro i hik
      have hget : (nestedThen indent n last)[i]? = some (List.replicate (indent * i) ' ' ++ ['a', ':']) := by
        rw [nestedThen, List.getElem?_append_left (by simp; omega), List.getElem?_map, List.getElem?_range (by omega)]
        rfl
      rw [nestLines, totalW_cons, ih (i + 1) (by omega), List.range'_succ, List.map_cons, List.sum_cons]
      simp only [lineChars, Nat.add_sub_cancel, hget, Option.getD_some, List.length_append, List.length_replicate, List.length_cons,
        List.length_nil]
  rw [key n 0 (by omega), ← List.range_eq_range']
  clear key
  induction n with
  | zero => rfl
  | succ n ih =>
    rw [List.range_succ, List.map_append, List.sum_append, Nat.add_mul, ih]
    simp only [List.map_cons, List.map_nil, List.sum_cons, List.sum_nil, Nat.add_sub_cancel]
    cases n with
    | zero => simp
    | succ n =>
      have h2 : indent * (n * 2) = indent * n * 2 := (Nat.mul_assoc _ _ _).symm
      simp only [Nat.add_sub_cancel, Nat.mul_add, Nat.add_mul, Nat.mul_one, Nat.one_mul, Nat.mul_assoc]
      have h3 : indent * (n * 2) = indent * n + indent * n := by rw [h2]; omega
      omega

end Toon
