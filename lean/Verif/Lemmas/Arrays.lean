import Verif.Spec.Arrays
import Verif.Lemmas.Cells
import Verif.Lemmas.Build
import Verif.Lemmas.Lines
import Verif.Lemmas.ScanSim
import Verif.Lemmas.DecodeAll

/-! Arrays whose elements are one line each. -/

namespace Toon

/-! ## Scanning a one-level body -/

def bodyLines (indent : Nat) : Nat → List Str → List Line
  | _, [] => []
  | k, raw :: rest =>
    if BlankLine raw then bodyLines indent (k + 1) rest
    else ⟨1, raw.drop indent, k + 1⟩ :: bodyLines indent (k + 1) rest

def bodyBlanks : Nat → List Str → List Nat
  | _, [] => []
  | k, raw :: rest => if BlankLine raw then (k + 1) :: bodyBlanks (k + 1) rest else bodyBlanks (k + 1) rest

theorem indented_not_blank {indent : Nat} {raw : Str} (h : IndentedLine indent 1 raw) : ¬ BlankLine raw := by
  obtain ⟨c, t, hc, rfl⟩ := h
  intro hb
  have := hb c (by simp)
  rw [hc] at this; simp at this

theorem parseLine_level1 {indent : Nat} (hi : 0 < indent) {raw : Str} (h : IndentedLine indent 1 raw) (num : Nat)
    (strict : Bool) : parseLine raw num indent strict = .ok (.line ⟨1, raw.drop indent, num⟩) := by
  have hnb := indented_not_blank h
  obtain ⟨c, t, hc, rfl⟩ := h
  have hb := fun hh => hnb ((blankLine_iff _).mp hh)
  have h1 : c ≠ ' ' := by rintro rfl; revert hc; decide
  have h2 : c ≠ '\t' := by rintro rfl; revert hc; decide
  have hx : ∀ x, (c :: t).head? = some x → x ≠ ' ' ∧ x ≠ '\t' := by simp [h1, h2]
  unfold parseLine
  simp only [Nat.mul_one] at hb ⊢
  simp only [if_neg hb]
  rw [takeWhile_replicate _ (fun x h => (hx x h).1), takeWhile_replicate' _ hx]
  have h0 : indent ≠ 0 := by omega
  cases strict <;> simp [computeDepth, h0, Nat.div_self hi]

theorem parseLines_body {indent : Nat} (hi : 0 < indent) (strict : Bool) (body : List Str) (h : OneLevel indent body) (k : Nat) :
    parseLines indent strict body k = .ok (bodyLines indent k body, bodyBlanks k body) := by
  induction body generalizing k with
  | nil => rfl
  | cons raw rest ih =>
    have ih := ih (fun l hl => h l (by simp [hl])) (k + 1)
    by_cases hb : BlankLine raw
    · simp only [parseLines, parseLine_blank hb, ih, bodyLines, bodyBlanks, if_pos hb]
    · have := (h raw (by simp)).resolve_left hb
      simp only [parseLines, parseLine_level1 hi this, ih, bodyLines, bodyBlanks, if_neg hb]

theorem bodyLines_contents (indent : Nat) (body : List Str) (k : Nat) :
    (bodyLines indent k body).map (·.content) = contents indent body := by
  induction body generalizing k with
  | nil => rfl
  | cons raw rest ih =>
    by_cases hb : BlankLine raw
    · simp only [bodyLines, if_pos hb, ih]; simp [contents, deleteBlank, hb]
    · simp only [bodyLines, if_neg hb, List.map_cons, ih]; simp [contents, deleteBlank, hb]

theorem bodyLines_depth (indent : Nat) (body : List Str) (k : Nat) : ∀ l ∈ bodyLines indent k body, l.depth = 1 := by
  induction body generalizing k with
  | nil => intro l hl; simp [bodyLines] at hl
  | cons raw rest ih =>
    intro l hl
    by_cases hb : BlankLine raw
    · simp only [bodyLines, if_pos hb] at hl; exact ih _ l hl
    · simp only [bodyLines, if_neg hb, List.mem_cons] at hl
      rcases hl with rfl | hl
      · rfl
      · exact ih _ l hl

theorem bodyLines_num (indent : Nat) (body : List Str) (k : Nat) : ∀ l ∈ bodyLines indent k body, k < l.num := by
  induction body generalizing k with
  | nil => intro l hl; simp [bodyLines] at hl
  | cons raw rest ih =>
    intro l hl
    by_cases hb : BlankLine raw
    · simp only [bodyLines, if_pos hb] at hl; have := ih _ l hl; omega
    · simp only [bodyLines, if_neg hb, List.mem_cons] at hl
      rcases hl with rfl | hl
      · simp
      · have := ih _ l hl; omega

theorem bodyBlanks_num (body : List Str) (k : Nat) : ∀ b ∈ bodyBlanks k body, k < b := by
  induction body generalizing k with
  | nil => intro l hl; simp [bodyBlanks] at hl
  | cons raw rest ih =>
    intro l hl
    by_cases hb : BlankLine raw
    · simp only [bodyBlanks, if_pos hb, List.mem_cons] at hl
      rcases hl with rfl | hl
      · simp
      · have := ih _ l hl; omega
    · simp only [bodyBlanks, if_neg hb] at hl; have := ih _ l hl; omega

theorem bodyLines_blank {indent : Nat} {body : List Str} (h : ∀ l ∈ body, BlankLine l) (k : Nat) : bodyLines indent k body = [] := by
  induction body generalizing k with
  | nil => rfl
  | cons raw rest ih =>
    simp only [bodyLines, if_pos (h raw (by simp))]
    exact ih (fun l hl => h l (by simp [hl])) _

theorem bodyLines_nil {indent : Nat} {body : List Str} {k : Nat} (h : bodyLines indent k body = []) : ∀ l ∈ body, BlankLine l := by
  induction body generalizing k with
  | nil => simp
  | cons raw rest ih =>
    by_cases hb : BlankLine raw
    · simp only [bodyLines, if_pos hb] at h
      intro l hl
      rcases List.mem_cons.mp hl with rfl | hl
      · exact hb
      · exact ih h l hl
    · simp [bodyLines, if_neg hb] at h

/-- After a line: no blank line before the last line. -/
def BlanksAfter (body : List Str) : Prop :=
  ∃ middle after, body = middle ++ after ∧ (∀ l ∈ middle, ¬ BlankLine l) ∧ ∀ l ∈ after, BlankLine l

theorem blanksAfter_iff (indent : Nat) (body : List Str) (k : Nat) (s : Nat) (hs : s ≤ k) :
    (∀ e, ((bodyLines indent k body).getLast?.map (·.num)) = some e → ∀ b ∈ bodyBlanks k body, ¬ (s < b ∧ b < e)) ↔ BlanksAfter body := by
  induction body generalizing k with
  | nil => exact ⟨fun _ => ⟨[], [], rfl, by simp, by simp⟩, by simp [bodyLines]⟩
  | cons raw rest ih =>
    by_cases hb : BlankLine raw
    · simp only [bodyLines, if_pos hb, bodyBlanks]
      constructor
      · intro h
        have : bodyLines indent (k + 1) rest = [] := by
          cases hl : (bodyLines indent (k + 1) rest).getLast? with
          | none => simpa using hl
          | some l =>
            have hm := List.mem_of_getLast? hl
            have := bodyLines_num indent rest (k + 1) l hm
            exact absurd ⟨by omega, this⟩ (h l.num (by simp [hl]) (k + 1) (by simp))
        refine ⟨[], raw :: rest, rfl, by simp, ?_⟩
        intro l hl
        rcases List.mem_cons.mp hl with rfl | hl
        · exact hb
        · exact bodyLines_nil this l hl
      · rintro ⟨m, a, he, hm, ha⟩
        have : m = [] := by
          cases m with
          | nil => rfl
          | cons x m =>
            simp only [List.cons_append, List.cons.injEq] at he
            exact absurd (he.1 ▸ hb) (hm x (by simp))
        subst this
        simp only [List.nil_append] at he
        subst he
        rw [bodyLines_blank (fun l hl => ha l (by simp [hl]))]
        simp
    · simp only [bodyLines, if_neg hb, bodyBlanks]
      rw [show BlanksAfter (raw :: rest) ↔ BlanksAfter rest from ?_, ← ih (k + 1) (by omega)]
      · rw [List.getLast?_cons]
        constructor
        · intro h e he
          refine h e ?_
          cases hl : (bodyLines indent (k + 1) rest).getLast? with
          | none => simp [hl] at he
          | some l => simpa [hl] using he
        · intro h e he b hbm hbe
          cases hl : (bodyLines indent (k + 1) rest).getLast? with
          | none =>
            simp [hl] at he
            have := bodyBlanks_num rest (k + 1) b hbm
            omega
          | some l =>
            simp [hl] at he
            exact h e (by simp [hl, he]) b hbm hbe
      · constructor
        · rintro ⟨m, a, he, hm, ha⟩
          cases m with
          | nil =>
            simp only [List.nil_append] at he
            exact absurd (ha raw (by simp [← he])) hb
          | cons x m =>
            simp only [List.cons_append, List.cons.injEq] at he
            exact ⟨m, a, he.2, fun l hl => hm l (by simp [hl]), ha⟩
        · rintro ⟨m, a, rfl, hm, ha⟩
          refine ⟨raw :: m, a, rfl, ?_, ha⟩
          intro l hl
          rcases List.mem_cons.mp hl with rfl | hl
          · exact hb
          · exact hm l hl

theorem blanksOutside_iff (indent : Nat) (body : List Str) (k : Nat) :
    (∀ s e, (bodyLines indent k body).head?.map (·.num) = some s → ((bodyLines indent k body).getLast?.map (·.num)) = some e →
      ∀ b ∈ bodyBlanks k body, ¬ (s < b ∧ b < e)) ↔ BlanksOutside body := by
  induction body generalizing k with
  | nil => exact ⟨fun _ => ⟨[], [], [], rfl, by simp, by simp, by simp⟩, by simp [bodyLines]⟩
  | cons raw rest ih =>
    by_cases hb : BlankLine raw
    · simp only [bodyLines, if_pos hb, bodyBlanks]
      rw [show BlanksOutside (raw :: rest) ↔ BlanksOutside rest from ?_, ← ih (k + 1)]
      · constructor
        · intro h s e hs he b hbm
          exact h s e hs he b (by simp [hbm])
        · intro h s e hs he b hbm
          rcases List.mem_cons.mp hbm with rfl | hbm
          · cases hl : (bodyLines indent (k + 1) rest).head? with
            | none => simp [hl] at hs
            | some l =>
              have := bodyLines_num indent rest (k + 1) l (List.mem_of_mem_head? hl)
              simp [hl] at hs
              omega
          · exact h s e hs he b hbm
      · constructor
        · rintro ⟨b, m, a, he, h1, h2, h3⟩
          cases b with
          | cons x b =>
            simp only [List.cons_append, List.cons.injEq] at he
            exact ⟨b, m, a, he.2, fun l hl => h1 l (by simp [hl]), h2, h3⟩
          | nil =>
            cases m with
            | cons x m =>
              simp only [List.nil_append, List.cons_append, List.cons.injEq] at he
              exact absurd (he.1 ▸ hb) (h2 x (by simp))
            | nil =>
              simp only [List.nil_append] at he
              exact ⟨[], [], rest, rfl, by simp, by simp, fun l hl => h3 l (by simp [← he, hl])⟩
        · rintro ⟨b, m, a, rfl, h1, h2, h3⟩
          refine ⟨raw :: b, m, a, by simp, ?_, h2, h3⟩
          intro l hl
          rcases List.mem_cons.mp hl with rfl | hl
          · exact hb
          · exact h1 l hl
    · simp only [bodyLines, if_neg hb, bodyBlanks, List.head?_cons, Option.map_some, Option.some.injEq]
      rw [show BlanksOutside (raw :: rest) ↔ BlanksAfter rest from ?_, ← blanksAfter_iff indent rest (k + 1) (k + 1) (by omega)]
      · rw [List.getLast?_cons]
        constructor
        · intro h e he
          refine h (k + 1) e rfl ?_
          cases hl : (bodyLines indent (k + 1) rest).getLast? with
          | none => simp [hl] at he
          | some l => simpa [hl] using he
        · intro h s e hs he b hbm hbe
          subst hs
          cases hl : (bodyLines indent (k + 1) rest).getLast? with
          | none =>
            simp [hl] at he
            omega
          | some l =>
            simp [hl] at he
            exact h e (by simp [hl, he]) b hbm hbe
      · constructor
        · rintro ⟨b, m, a, he, h1, h2, h3⟩
          have : b = [] := by
            cases b with
            | nil => rfl
            | cons x b =>
              simp only [List.cons_append, List.cons.injEq] at he
              exact absurd (he.1 ▸ h1 x (by simp)) hb
          subst this
          cases m with
          | nil =>
            simp only [List.nil_append] at he
            exact absurd (h3 raw (by simp [← he])) hb
          | cons x m =>
            simp only [List.nil_append, List.cons_append, List.cons.injEq] at he
            exact ⟨m, a, he.2, fun l hl => h2 l (by simp [hl]), h3⟩
        · rintro ⟨m, a, rfl, hm, ha⟩
          refine ⟨[], raw :: m, a, by simp, by simp, ?_, ha⟩
          intro l hl
          rcases List.mem_cons.mp hl with rfl | hl
          · exact hb
          · exact hm l hl


/-! ## Loops over lines of one depth -/

section
variable {F : Type} [F64 F]

/-- What a loop returns that has read the first `m` lines of `rest`. -/
def flatOut (evss : List (List (Ev F))) (rest : List Line) (m : Nat) (last : Option Line) (count : Nat)
    (start «end» : Option Nat) : LoopOut F :=
  ⟨evss.flatten, ⟨rest.drop m, (rest.take m).getLast?.or last⟩, count + (rest.take m).length,
    start.or ((rest.take m).head?.map (·.num)), ((rest.take m).getLast?.map (·.num)).or «end»⟩

/-- One table row. -/
def rowEv (strict : Bool) (fields : List FieldName) (delim : Char) (l : Line) : Except Err (List (Ev F)) :=
  match assertCount (parseDelimitedValues l.content delim).length fields.length .rowValues strict with
  | .error e => .error e
  | .ok _ =>
    match mapRowValues (F := F) (parseDelimitedValues l.content delim) with
    | .error e => .error e
    | .ok ps => .ok (.startObj :: fieldEvents fields ps ++ [.endObj])

theorem flatOut_zero (rest : List Line) (last : Option Line) (count : Nat) (start «end» : Option Nat) :
    flatOut (F := F) [] rest 0 last count start «end» = ⟨[], ⟨rest, last⟩, count, start, «end»⟩ := by
  simp [flatOut]

theorem flatOut_nil (m : Nat) (last : Option Line) (count : Nat) (start «end» : Option Nat) :
    flatOut (F := F) [] [] m last count start «end» = ⟨[], ⟨[], last⟩, count, start, «end»⟩ := by
  simp [flatOut]

theorem flatOut_succ (ev : List (Ev F)) (evss : List (List (Ev F))) (line : Line) (rest : List Line) (m : Nat) (last : Option Line)
    (count : Nat) (start «end» : Option Nat) :
    { flatOut evss rest m (some line) (count + 1) (start.or (some line.num)) (some line.num) with
      evs := ev ++ (flatOut evss rest m (some line) (count + 1) (start.or (some line.num)) (some line.num)).evs } =
    flatOut (ev :: evss) (line :: rest) (m + 1) last count start «end» := by
  simp only [flatOut, List.flatten_cons, List.drop_succ_cons, List.take_succ_cons, List.head?_cons, Option.map_some,
    List.length_cons, List.getLast?_cons]
  congr 1
  · congr 1
    cases (rest.take m).getLast? <;> rfl
  · omega
  · cases start <;> simp
  · cases (rest.take m).getLast? <;> rfl

theorem tabularLoop_flat (ctx : Ctx) (fields : List FieldName) (d : Char) (n depth : Nat) (rest : List Line)
    (hr : ∀ l ∈ rest, l.depth = depth) (last : Option Line) (count : Nat) (start «end» : Option Nat) (out : LoopOut F) :
    tabularLoop ctx fields d n depth rest last count start «end» = .ok out ↔
      ∃ evss, Pointwise (fun l e => rowEv ctx.strict fields d l = .ok e) (rest.take (n - count)) evss ∧
        out = flatOut evss rest (n - count) last count start «end» := by
  induction rest generalizing last count start «end» out with
  | nil =>
    simp only [tabularLoop, List.take_nil, Except.ok.injEq]
    constructor
    · rintro rfl; exact ⟨[], .nil, (flatOut_nil ..).symm⟩
    · rintro ⟨evss, hp, rfl⟩; cases hp; exact (flatOut_nil ..).symm
  | cons line rest ih =>
    have ih := ih (fun l hl => hr l (by simp [hl]))
    have hd : line.depth = depth := hr line (by simp)
    by_cases hc : count < n
    · have hm : n - count = (n - (count + 1)) + 1 := by omega
      have hstep : tabularLoop (F := F) ctx fields d n depth (line :: rest) last count start «end» =
          (match assertCount (parseDelimitedValues line.content d).length fields.length .rowValues ctx.strict with
          | .error e => .error e
          | .ok _ =>
            match mapRowValues (F := F) (parseDelimitedValues line.content d) with
            | .error e => .error e
            | .ok ps =>
              match tabularLoop (F := F) ctx fields d n depth rest (some line) (count + 1) (start.or (some line.num)) (some line.num) with
              | .error e => .error e
              | .ok out => .ok { out with evs := .startObj :: fieldEvents fields ps ++ .endObj :: out.evs }) := by
        simp only [tabularLoop, if_pos hc, hd, Nat.lt_irrefl, if_false, if_true]
        cases assertCount (parseDelimitedValues line.content d).length fields.length .rowValues ctx.strict
        · rfl
        cases mapRowValues (F := F) (parseDelimitedValues line.content d)
        · rfl
        cases start
        · simp only [bind, Except.bind, pure, Except.pure, Option.none_or]
          cases tabularLoop (F := F) ctx fields d n depth rest (some line) (count + 1) (some line.num) (some line.num) <;> rfl
        · rename_i s
          simp only [bind, Except.bind, pure, Except.pure, Option.some_or]
          cases tabularLoop (F := F) ctx fields d n depth rest (some line) (count + 1) (some s) (some line.num) <;> rfl
      rw [hstep, hm, List.take_succ_cons]
      constructor
      · intro h
        rcases ha : assertCount (parseDelimitedValues line.content d).length fields.length .rowValues ctx.strict with e | u
        · simp [ha] at h
        rcases hv : mapRowValues (F := F) (parseDelimitedValues line.content d) with e | ps
        · simp [ha, hv] at h
        simp only [ha, hv] at h
        rcases hl : tabularLoop (F := F) ctx fields d n depth rest (some line) (count + 1) (start.or (some line.num))
          (some line.num) with e | o
        · simp only [hl] at h; cases h
        simp only [hl, Except.ok.injEq] at h
        obtain ⟨evss, hp, rfl⟩ := (ih _ _ _ _ _).mp hl
        subst h
        refine ⟨(.startObj :: fieldEvents fields ps ++ [.endObj]) :: evss, .cons ?_ hp, ?_⟩
        · simp only [rowEv, ha, hv]
        · rw [← flatOut_succ]; simp
      · rintro ⟨evss, hp, rfl⟩
        cases hp with
        | cons h1 h2 =>
          rename_i ev evss
          simp only [rowEv] at h1
          rcases ha : assertCount (parseDelimitedValues line.content d).length fields.length .rowValues ctx.strict with e | u
          · simp [ha] at h1
          rcases hv : mapRowValues (F := F) (parseDelimitedValues line.content d) with e | ps
          · simp [ha, hv] at h1
          simp only [ha, hv, Except.ok.injEq] at h1
          subst h1
          simp only [(ih _ _ _ _ _).mpr ⟨evss, h2, rfl⟩, Except.ok.injEq]
          rw [← flatOut_succ]; simp
    · rw [show n - count = 0 by omega, List.take_zero]
      simp only [tabularLoop, if_neg hc, Except.ok.injEq]
      constructor
      · rintro rfl; exact ⟨[], .nil, (flatOut_zero ..).symm⟩
      · rintro ⟨evss, hp, rfl⟩; cases hp; exact (flatOut_zero ..).symm

/-- The same for a list loop, when reading one item consumes one line. -/
theorem listLoop_flat (ctx : Ctx) (item : Line → Except Err (List (Ev F))) (n depth : Nat) (rest : List Line) (k : Nat)
    (hr : ∀ l ∈ rest, l.depth = depth ∧ isListItem l.content = true ∧ ∀ fuel r last, k ≤ fuel →
      decodeItem (F := F) ctx fuel ⟨l :: r, last⟩ depth = (item l).map fun e => (e, ⟨r, some l⟩))
    (fuel : Nat) (hf : rest.length + k + 1 ≤ fuel)
    (last : Option Line) (count : Nat) (start «end» : Option Nat) (out : LoopOut F) :
    listLoop ctx fuel n depth ⟨rest, last⟩ count start «end» = .ok out ↔
      ∃ evss, Pointwise (fun l e => item l = .ok e) (rest.take (n - count)) evss ∧
        out = flatOut evss rest (n - count) last count start «end» := by
  induction rest generalizing fuel last count start «end» out with
  | nil =>
    obtain ⟨fuel, rfl⟩ : ∃ f, fuel = f + 1 := ⟨fuel - 1, by omega⟩
    simp only [listLoop, List.take_nil, Except.ok.injEq]
    constructor
    · rintro rfl; exact ⟨[], .nil, (flatOut_nil ..).symm⟩
    · rintro ⟨evss, hp, rfl⟩; cases hp; exact (flatOut_nil ..).symm
  | cons line rest ih =>
    obtain ⟨fuel, rfl⟩ : ∃ f, fuel = f + 1 := ⟨fuel - 1, by omega⟩
    simp only [List.length_cons] at hf
    have ih := ih (fun l hl => hr l (by simp [hl])) fuel (by omega)
    obtain ⟨hd, hli, hit⟩ := hr line (by simp)
    by_cases hc : count < n
    · have hm : n - count = (n - (count + 1)) + 1 := by omega
      have hstep : listLoop (F := F) ctx (fuel + 1) n depth ⟨line :: rest, last⟩ count start «end» =
          (match item line with
          | .error e => .error e
          | .ok ev =>
            match listLoop (F := F) ctx fuel n depth ⟨rest, some line⟩ (count + 1) (start.or (some line.num)) (some line.num) with
            | .error e => .error e
            | .ok out => .ok { out with evs := ev ++ out.evs }) := by
        simp only [listLoop, if_pos hc, hd, hli, Nat.lt_irrefl, if_false, beq_self_eq_true, Bool.and_self, if_true,
          hit fuel rest last (by omega)]
        cases item line
        · rfl
        cases start
        · simp only [bind, Except.bind, Except.map, pure, Except.pure, Option.none_or]
          cases listLoop (F := F) ctx fuel n depth ⟨rest, some line⟩ (count + 1) (some line.num) (some line.num) <;> rfl
        · rename_i s
          simp only [bind, Except.bind, Except.map, pure, Except.pure, Option.some_or]
          cases listLoop (F := F) ctx fuel n depth ⟨rest, some line⟩ (count + 1) (some s) (some line.num) <;> rfl
      rw [hstep, hm, List.take_succ_cons]
      constructor
      · intro h
        rcases ha : item line with e | ev
        · simp [ha] at h
        simp only [ha] at h
        rcases hl : listLoop (F := F) ctx fuel n depth ⟨rest, some line⟩ (count + 1) (start.or (some line.num))
          (some line.num) with e | o
        · simp only [hl] at h; cases h
        simp only [hl, Except.ok.injEq] at h
        obtain ⟨evss, hp, rfl⟩ := (ih _ _ _ _ _).mp hl
        subst h
        refine ⟨ev :: evss, .cons ha hp, ?_⟩
        rw [← flatOut_succ]
      · rintro ⟨evss, hp, rfl⟩
        cases hp with
        | cons h1 h2 =>
          rename_i ev evss
          simp only [h1, (ih _ _ _ _ _).mpr ⟨evss, h2, rfl⟩, Except.ok.injEq]
          rw [← flatOut_succ]
    · rw [show n - count = 0 by omega, List.take_zero]
      simp only [listLoop, if_neg hc, Except.ok.injEq]
      constructor
      · rintro rfl; exact ⟨[], .nil, (flatOut_zero ..).symm⟩
      · rintro ⟨evss, hp, rfl⟩; cases hp; exact (flatOut_zero ..).symm

end

/-! ## Values of rows and items -/

section
variable {F : Type} [F64 F]

omit [F64 F] in
theorem Pointwise.length_eq {α β : Type} {R : α → β → Prop} {as : List α} {bs : List β} (h : Pointwise R as bs) :
    as.length = bs.length := by
  induction h with
  | nil => rfl
  | cons _ _ ih => simp [ih]

theorem mapRowValues_iff (cells : List Str) (ps : List (Prim F)) :
    mapRowValues cells = .ok ps ↔ Pointwise (fun c p => TokenMeans (trim c) p) cells ps := by
  induction cells generalizing ps with
  | nil =>
    simp only [mapRowValues, Except.ok.injEq]
    constructor
    · rintro rfl; exact .nil
    · intro h; cases h; rfl
  | cons c cs ih =>
    simp only [mapRowValues]
    constructor
    · intro h
      rcases hp : parsePrimitiveToken (F := F) c with e | p
      · simp [hp] at h
      rcases hr : mapRowValues (F := F) cs with e | qs
      · simp [hp, hr] at h
      simp only [hp, hr, Except.ok.injEq] at h
      subst h
      exact .cons ((parsePrimitiveToken_iff _ _).mp hp) ((ih _).mp hr)
    · intro h
      cases h with
      | cons h1 h2 => simp only [(parsePrimitiveToken_iff _ _).mpr h1, (ih _).mpr h2]

theorem cells_trimmed {d : Char} {text : Str} {cells : List Str} (h : Cells d text cells) : ∀ c ∈ cells, trim c = c := by
  rcases h with ⟨_, rfl⟩ | ⟨_, ps, _, rfl⟩
  · simp
  · intro c hc
    obtain ⟨x, _, rfl⟩ := List.mem_map.mp hc
    exact trim_trim x

theorem pointwise_trim {cells : List Str} (h : ∀ c ∈ cells, trim c = c) (ps : List (Prim F)) :
    Pointwise (fun c p => TokenMeans (trim c) p) cells ps ↔ Pointwise TokenMeans cells ps := by
  induction cells generalizing ps with
  | nil => constructor <;> (intro h; cases h; exact .nil)
  | cons c cs ih =>
    have hc := h c (by simp)
    have ih := ih (fun x hx => h x (by simp [hx]))
    constructor
    · intro h; cases h with | cons h1 h2 => exact .cons (hc ▸ h1) ((ih _).mp h2)
    · intro h; cases h with | cons h1 h2 => exact .cons (hc.symm ▸ h1) ((ih _).mpr h2)

/-- The tree of a row. -/
def rowTree (fields : List FieldName) : List (Prim F) → List (Str × Bool × ETree F) :=
  match fields with
  | [] => fun _ => []
  | f :: fs => fun ps =>
    match ps with
    | [] => (f.name, f.quoted, .prim .null) :: rowTree fs []
    | p :: ps => (f.name, f.quoted, .prim p) :: rowTree fs ps

theorem rowTree_events (fields : List FieldName) (ps : List (Prim F)) :
    ETree.eventsEntries (rowTree fields ps) = fieldEvents fields ps := by
  induction fields generalizing ps with
  | nil => simp [rowTree, fieldEvents, ETree.eventsEntries]
  | cons f fs ih => cases ps <;> simp [rowTree, fieldEvents, ETree.eventsEntries, ETree.events, ih]

theorem rowTree_json (fields : List FieldName) (ps : List (Prim F)) :
    ETree.jsonEntries (rowTree fields ps) = padRow (fields.map (·.name)) ps := by
  induction fields generalizing ps with
  | nil => simp [rowTree, padRow, ETree.jsonEntries]
  | cons f fs ih => cases ps <;> simp [rowTree, padRow, ETree.jsonEntries, ETree.json, ih]

/-- Reading a line gives the events of a tree whose value the line means, and conversely. -/
structure Reads (ev : Line → Except Err (List (Ev F))) (M : Str → Json F → Prop) (l : Line) : Prop where
  sound : ∀ e, ev l = .ok e → ∃ t : ETree F, e = t.events ∧ M l.content t.json
  complete : ∀ v, M l.content v → ∃ t : ETree F, ev l = .ok t.events ∧ t.json = v

theorem rowEv_reads (strict : Bool) (fields : List FieldName) {d : Char} (hd : GoodDelim d) (l : Line) :
    Reads (F := F) (rowEv strict fields d) (RowMeans strict (fields.map (·.name)) d) l := by
  have hdq : d ≠ '"' := by rcases hd with rfl | rfl | rfl <;> decide
  have hcells := (parseDelimited_cells hdq l.content (parseDelimitedValues l.content d)).mp rfl
  constructor
  · intro e he
    unfold rowEv at he
    rcases ha : assertCount (parseDelimitedValues l.content d).length fields.length .rowValues strict with x | u
    · simp [ha] at he
    rcases hv : mapRowValues (F := F) (parseDelimitedValues l.content d) with x | ps
    · simp [ha, hv] at he
    simp only [ha, hv, Except.ok.injEq] at he
    subst he
    refine ⟨.obj (rowTree fields ps), by simp [ETree.events, rowTree_events], _, ps, hcells,
      (pointwise_trim (cells_trimmed hcells) ps).mp ((mapRowValues_iff _ _).mp hv), ?_, by rw [ETree.json, rowTree_json]⟩
    rintro rfl
    unfold assertCount at ha
    simpa using ha
  · rintro v ⟨cells, ps, hc, hp, hx, rfl⟩
    have : parseDelimitedValues l.content d = cells := (parseDelimited_cells hdq _ _).mpr hc
    have ha : assertCount (parseDelimitedValues l.content d).length fields.length .rowValues strict = .ok () := by
      unfold assertCount
      cases strict with
      | false => rfl
      | true => rw [this]; simp [hx]
    have hv := (mapRowValues_iff (F := F) cells ps).mpr ((pointwise_trim (cells_trimmed hc) ps).mpr hp)
    refine ⟨.obj (rowTree fields ps), ?_, by rw [ETree.json, rowTree_json]⟩
    unfold rowEv
    rw [this] at ha
    simp only [this, ha, hv, ETree.events, rowTree_events]

/-- A list item of one line. -/
def itemEv (l : Line) : Except Err (List (Ev F)) :=
  if l.content = ['-'] then .ok [.startObj, .endObj]
  else if (trim (l.content.drop 2)).isEmpty then .ok [.startObj, .endObj]
  else
    match parsePrimitiveToken (F := F) (l.content.drop 2) with
    | .error e => .error e
    | .ok p => .ok [.prim p]

/-- The content of an item of one line: a hyphen, or a hyphen, a space and text without a colon. -/
def OneLineItem (s : Str) : Prop := s = ['-'] ∨ ∃ t, s = '-' :: ' ' :: t ∧ ':' ∉ t

theorem trim_blank_iff (t : Str) : (trim t).isEmpty = true ↔ BlankLine t := by
  rw [List.isEmpty_iff]
  constructor
  · intro h
    have := trim_eq_nil_iff.mp h
    intro c hc
    exact List.all_eq_true.mp this c hc
  · intro h
    exact trim_eq_nil_iff.mpr (List.all_eq_true.mpr h)

theorem itemEv_reads (l : Line) (h : OneLineItem l.content) : Reads (F := F) itemEv ItemMeans l := by
  rcases h with h | ⟨t, h, _⟩
  · constructor
    · intro e he
      unfold itemEv at he
      simp only [h, if_true, Except.ok.injEq] at he
      subst he
      exact ⟨.obj [], rfl, h ▸ .hyphen⟩
    · intro v hv
      rw [h] at hv
      cases hv
      exact ⟨.obj [], by unfold itemEv; simp only [h, if_true]; rfl, rfl⟩
  · have h1 : ¬ l.content = ['-'] := by rw [h]; simp
    have h2 : l.content.drop 2 = t := by rw [h]; rfl
    constructor
    · intro e he
      unfold itemEv at he
      simp only [if_neg h1, h2] at he
      by_cases hb : (trim t).isEmpty = true
      · simp only [hb, if_true, Except.ok.injEq] at he
        subst he
        exact ⟨.obj [], rfl, h ▸ .blank ((trim_blank_iff t).mp hb)⟩
      · rcases hp : parsePrimitiveToken (F := F) t with x | p
        · simp [hb, hp] at he
        simp only [if_neg hb, hp, Except.ok.injEq] at he
        subst he
        exact ⟨.prim p, rfl, h ▸ .prim (fun hh => hb ((trim_blank_iff t).mpr hh)) ((parsePrimitiveToken_iff _ _).mp hp)⟩
    · intro v hv
      rw [h] at hv
      cases hv with
      | blank hb => exact ⟨.obj [], by unfold itemEv; simp only [if_neg h1, h2, (trim_blank_iff t).mpr hb, if_true]; rfl, rfl⟩
      | prim hb hp =>
        have hb' : ¬ (trim t).isEmpty = true := fun hh => hb ((trim_blank_iff t).mp hh)
        refine ⟨.prim _, ?_, rfl⟩
        unfold itemEv
        simp only [if_neg h1, h2, if_neg hb', (parsePrimitiveToken_iff _ _).mpr hp]
        rfl

omit [F64 F] in
theorem eventsItems_flatten (ts : List (ETree F)) : ETree.eventsItems ts = (ts.map ETree.events).flatten := by
  induction ts with
  | nil => rfl
  | cons t ts ih => simp [ETree.eventsItems, ih]

omit [F64 F] in
theorem jsonItems_map (ts : List (ETree F)) : ETree.jsonItems ts = ts.map ETree.json := by
  induction ts with
  | nil => rfl
  | cons t ts ih => simp [ETree.jsonItems, ih]

omit [F64 F] in
theorem reads_sound {ev : Line → Except Err (List (Ev F))} {M : Str → Json F → Prop} {ls : List Line}
    (h : ∀ l ∈ ls, Reads ev M l) {evss : List (List (Ev F))} (hp : Pointwise (fun l e => ev l = .ok e) ls evss) :
    ∃ ts : List (ETree F), evss = ts.map ETree.events ∧ Pointwise M (ls.map (·.content)) (ts.map ETree.json) := by
  induction hp with
  | nil => exact ⟨[], rfl, .nil⟩
  | cons h1 _ ih =>
    obtain ⟨ts, rfl, h3⟩ := ih (fun l hl => h l (by simp [hl]))
    obtain ⟨t, rfl, h4⟩ := (h _ (by simp)).sound _ h1
    exact ⟨t :: ts, rfl, .cons h4 h3⟩

omit [F64 F] in
theorem reads_complete {ev : Line → Except Err (List (Ev F))} {M : Str → Json F → Prop} {ls : List Line}
    (h : ∀ l ∈ ls, Reads ev M l) {vs : List (Json F)} (hp : Pointwise M (ls.map (·.content)) vs) :
    ∃ ts : List (ETree F), Pointwise (fun l e => ev l = .ok e) ls (ts.map ETree.events) ∧ ts.map ETree.json = vs := by
  induction ls generalizing vs with
  | nil => cases hp; exact ⟨[], .nil, rfl⟩
  | cons l ls ih =>
    cases hp with
    | cons h1 h2 =>
      obtain ⟨ts, h3, rfl⟩ := ih (fun l hl => h l (by simp [hl])) h2
      obtain ⟨t, h4, rfl⟩ := (h l (by simp)).complete _ h1
      exact ⟨t :: ts, .cons h4 h3, rfl⟩

/-! ## The whole body -/

/-- The checks after the loop. -/
def strictChecks (n : Nat) (blanks : List Nat) (ls : List Line) (extra : Option Line → Except Err Unit) : Prop :=
  n ≤ ls.length ∧ extra (ls.drop n).head? = .ok () ∧
  ∀ s e, (ls.take n).head?.map (·.num) = some s → (ls.take n).getLast?.map (·.num) = some e → ∀ b ∈ blanks, ¬ (s < b ∧ b < e)

theorem finish_iff (what : Counted) (table : Bool) (strict : Bool) (n : Nat) (blanks : List Nat) (ls : List Line) (last : Option Line) (evss : List (List (Ev F)))
    (extra : Option Line → Except Err Unit) (hx : strict = false → ∀ o, extra o = .ok ()) (out : LoopOut F)
    (ho : out = flatOut evss ls n last 0 none none) {α : Type} (r r' : α) :
    ((do
      assertCount out.count n what strict
      checkBlanks ⟨strict, blanks⟩ table out.start out.end
      extra out.cur.rest.head?
      return r) = (.ok r' : Except Err α)) ↔ r = r' ∧ (strict = true → strictChecks n blanks ls extra) := by
  subst ho
  simp only [flatOut, Option.none_or, Option.or_none]
  cases strict with
  | false =>
    have h1 : assertCount (0 + (ls.take n).length) n what false = .ok () := rfl
    have h2 : checkBlanks ⟨false, blanks⟩ table ((ls.take n).head?.map (·.num)) ((ls.take n).getLast?.map (·.num)) = .ok () := by
      unfold checkBlanks
      split
      · rfl
      · rfl
    simp only [h1, h2, hx rfl, bind, Except.bind, pure, Except.pure, Except.ok.injEq, Bool.false_eq_true, false_implies, and_true]
  | true =>
    simp only [true_implies, strictChecks]
    by_cases hn : n ≤ ls.length
    · have h1 : assertCount (0 + (ls.take n).length) n what true = .ok () := by
        unfold assertCount; simp; omega
      by_cases hb : ∀ s e, (ls.take n).head?.map (·.num) = some s → (ls.take n).getLast?.map (·.num) = some e →
          ∀ b ∈ blanks, ¬ (s < b ∧ b < e)
      · have h2 : checkBlanks ⟨true, blanks⟩ table ((ls.take n).head?.map (·.num)) ((ls.take n).getLast?.map (·.num)) = .ok () := by
          unfold checkBlanks
          split
          · rename_i s e h3 h4
            have hf : blanks.find? (fun b => decide (s < b) && decide (b < e)) = none := by
              rw [List.find?_eq_none]
              intro b hb1
              simpa using hb s e h3 h4 b hb1
            simp only [noBlankInRange, if_true, hf]
          · rfl
        simp only [h1, h2, bind, Except.bind, pure, Except.pure]
        rcases he : extra (ls.drop n).head? with x | u
        · simp
        · simp only [Except.ok.injEq]
          exact ⟨fun h => ⟨h, hn, trivial, hb⟩, fun h => h.1⟩
      · have h2 : ∃ x, checkBlanks ⟨true, blanks⟩ table ((ls.take n).head?.map (·.num)) ((ls.take n).getLast?.map (·.num)) = .error x := by
          simp only [Classical.not_forall] at hb
          obtain ⟨s, e, h3, h4, b, hb1, hb2⟩ := hb
          have hf : blanks.find? (fun b => decide (s < b) && decide (b < e)) ≠ none := by
            intro hn
            rw [List.find?_eq_none] at hn
            have := Classical.not_not.mp hb2
            exact hn b hb1 (by simpa using this)
          obtain ⟨x, hx⟩ := Option.ne_none_iff_exists'.mp hf
          simp only [checkBlanks, h3, h4, noBlankInRange, if_true, hx]
          exact ⟨_, rfl⟩
        obtain ⟨x, h2⟩ := h2
        simp only [h1, h2, bind, Except.bind]
        constructor
        · intro h; cases h
        · rintro ⟨_, _, _, h⟩; exact absurd h hb
    · have h1 : ∃ x, assertCount (0 + (ls.take n).length) n what true = .error x := by
        unfold assertCount
        rw [if_pos]
        · exact ⟨_, rfl⟩
        · simp; omega
      obtain ⟨x, h1⟩ := h1
      simp only [h1, bind, Except.bind]
      constructor
      · intro h; cases h
      · rintro ⟨_, h, _⟩; exact absurd h hn

end

/-! ## One-line items -/

section
variable {F : Type} [F64 F]

theorem findFrom_absent {c : Char} {s : Str} (h : c ∉ s) (i : Nat) : findFrom c s i = none := by
  have : ∀ t : Str, c ∉ t → findChar c t = none := by
    intro t ht
    induction t with
    | nil => rfl
    | cons x t ih =>
      have hx : ¬ x = c := by rintro rfl; simp at ht
      simp only [findChar, if_neg hx, ih (by intro h; exact ht (by simp [h])), Option.map_none]
  unfold findFrom
  rw [this _ (fun hh => h (List.mem_of_mem_drop hh))]
  rfl

theorem header_noColon {t : Str} (h : ':' ∉ t) :
    parseArrayHeaderLine t ',' = .ok none ∨
      (parseArrayHeaderLine t ',' = .error .unterminatedString ∧ (trimStart t).head? = some '"' ∧
        findClosingQuote (trimStart t) 0 = none) := by
  rcases hb : findBracketStart t with e | o
  · right
    have : e = .unterminatedString ∧ (trimStart t).head? = some '"' ∧ findClosingQuote (trimStart t) 0 = none := by
      unfold findBracketStart at hb
      simp only at hb
      split at hb
      · rename_i hq
        split at hb
        · rename_i hc
          cases hb
          exact ⟨rfl, hq, hc⟩
        · split at hb <;> cases hb
      · cases hb
    obtain ⟨rfl, h1⟩ := this
    exact ⟨by unfold parseArrayHeaderLine; simp only [hb], h1⟩
  · left
    unfold parseArrayHeaderLine
    simp only [hb, findFrom_absent h]
    cases o with
    | none => rfl
    | some i =>
      simp only
      cases findFrom ']' t i <;> rfl

theorem unterminated_token {t : Str} (hq : (trimStart t).head? = some '"') (hc : findClosingQuote (trimStart t) 0 = none) :
    parsePrimitiveToken (F := F) t = .error .unterminatedString := by
  obtain ⟨s, hs⟩ : ∃ s, trimStart t = '"' :: s := by
    cases h : trimStart t with
    | nil => simp [h] at hq
    | cons c s => simp [h] at hq; exact ⟨s, by rw [hq]⟩
  obtain ⟨w, hw, hws⟩ := trimEnd_prefix (trimStart t)
  have htrim : trim t = trimEnd (trimStart t) := rfl
  rw [← htrim] at hw
  have hne : trim t ≠ [] := by
    intro h
    rw [h, hs] at hw
    simp only [List.nil_append] at hw
    have := List.all_eq_true.mp hws '"' (by simp [← hw])
    revert this; decide
  obtain ⟨b, hb⟩ : ∃ b, trim t = '"' :: b := by
    cases h : trim t with
    | nil => exact absurd h hne
    | cons c b =>
      rw [h, hs] at hw
      simp only [List.cons_append, List.cons.injEq] at hw
      exact ⟨b, by rw [← hw.1]⟩
  have hnone : findClosingQuote ('"' :: b) 0 = none := by
    cases hf : findClosingQuote ('"' :: b) 0 with
    | none => rfl
    | some j =>
      obtain ⟨body, rest, h1, h2, h3⟩ := (findClosingQuote_iff b j).mp hf
      exfalso
      have : findClosingQuote ('"' :: s) 0 = some j := by
        refine (findClosingQuote_iff s j).mpr ⟨body, rest ++ w, ?_, h2, h3⟩
        rw [hs, hb, h1] at hw
        simpa using hw
      rw [← hs, hc] at this
      cases this
  have h2 : trim ('"' :: b) = '"' :: b := by rw [← hb, trim_trim]
  unfold parsePrimitiveToken
  simp only [hb, List.isEmpty_cons, Bool.false_eq_true, if_false, List.head?_cons, if_true]
  unfold parseStringLiteral
  simp only [h2, List.head?_cons, if_true, hnone]

theorem decodeItem_oneLine (ctx : Ctx) (l : Line) (h : OneLineItem l.content) (depth fuel : Nat) (r : List Line) (last : Option Line)
    (hf : 2 ≤ fuel) :
    decodeItem (F := F) ctx fuel ⟨l :: r, last⟩ depth = (itemEv l).map fun e => (e, ⟨r, some l⟩) := by
  obtain ⟨fuel, rfl⟩ : ∃ f, fuel = f + 2 := ⟨fuel - 2, by omega⟩
  rw [decodeItem]
  unfold itemEv
  rcases h with h | ⟨t, h, ht⟩
  · simp only [h, if_true]; rfl
  · have h1 : ¬ l.content = ['-'] := by rw [h]; simp
    have h2 : l.content.drop 2 = t := by rw [h]; rfl
    have h3 : startsWithDash l.content = true := by rw [h]; rfl
    have h4 : isArrayHeaderContent t = false := by unfold isArrayHeaderContent; rw [findUnquotedChar_none ht]; simp
    have h5 : isKeyValueContent t = false := by unfold isKeyValueContent; rw [findUnquotedChar_none ht]; rfl
    simp only [if_neg h1, h2, h3, if_true, h4]
    by_cases hb : (trim t).isEmpty = true
    · simp only [hb, if_true]; rfl
    · simp only [if_neg hb]
      rcases header_noColon ht with hh | ⟨hh, hq, hc⟩
      · simp only [hh, bind, Except.bind, keyedHeader, decodeItemRest, h5, Bool.false_eq_true, if_false]
        cases parsePrimitiveToken (F := F) t <;> rfl
      · simp only [hh, unterminated_token hq hc]; rfl

/-! ## Root arrays -/

theorem parseLine_level0 {c : Char} {t : Str} (hc : isWs c = false) (num indent : Nat) (strict : Bool) :
    parseLine (c :: t) num indent strict = .ok (.line ⟨0, c :: t, num⟩) := by
  have h1 : c ≠ ' ' := by rintro rfl; revert hc; decide
  have h2 : c ≠ '\t' := by rintro rfl; revert hc; decide
  have hb : ¬ BlankLine (c :: t) := fun h => by have := h c (by simp); rw [hc] at this; simp at this
  have hb' := fun h => hb ((blankLine_iff _).mp h)
  unfold parseLine
  simp only [List.takeWhile_cons] at hb' ⊢
  simp [h1, h2] at hb' ⊢
  simp [computeDepth, hb']

theorem decodeFromLines_arr (opts : DecOpts) (hx : opts.expand = false) (lines : List Str) (n : Nat) (ts : List (ETree F))
    (h : decodeStream (F := F) opts.indent opts.strict lines = .ok (ETree.events (.arr n ts))) :
    decodeFromLines opts lines = .ok (.arr (ts.map ETree.json)) := by
  unfold decodeFromLines
  simp only [h, bind, Except.bind, buildNode_events, hx, Bool.false_eq_true, if_false, pure, Except.pure, nodeToJson_node,
    ETree.json, jsonItems_map]

/-- A root array header followed by a one-level body. -/
theorem root_body {opts : DecOpts} (hi : 0 < opts.indent) (hx : opts.expand = false) {header : Str} {h : Header} {c : Char} {ht : Str}
    (hhead : header = c :: ht) (hc : isWs c = false) (hh : rootHeader header = .ok (some h)) (hin : h.inline = none)
    {body : List Str} (hb : OneLevel opts.indent body)
    {ev : Line → Except Err (List (Ev F))} {M : Str → Json F → Prop}
    (extra : Option Line → Except Err Unit) (hex : opts.strict = false → ∀ o, extra o = .ok ())
    (hreads : ∀ l ∈ bodyLines opts.indent 1 body, Reads ev M l)
    (hdec : ∀ (fuel : Nat) evs cur, (bodyLines opts.indent 1 body).length + 5 ≤ fuel →
      (decodeArray (F := F) ⟨opts.strict, bodyBlanks 1 body⟩ fuel h ⟨bodyLines opts.indent 1 body, some ⟨0, header, 1⟩⟩ 0 = .ok (evs, cur) ↔
      ∃ evss, Pointwise (fun l e => ev l = .ok e) ((bodyLines opts.indent 1 body).take h.length) evss ∧
        evs = .startArr h.length :: evss.flatten ++ [.endArr] ∧
        cur = (flatOut evss (bodyLines opts.indent 1 body) h.length (some ⟨0, header, 1⟩) 0 none none).cur ∧
        (opts.strict = true → strictChecks h.length (bodyBlanks 1 body) (bodyLines opts.indent 1 body) extra)))
    (v : Json F) :
    decodeFromLines opts (header :: body) = .ok v ↔
      (∃ vs, v = .arr vs ∧ Pointwise M ((contents opts.indent body).take h.length) vs) ∧
      (opts.strict = true → strictChecks h.length (bodyBlanks 1 body) (bodyLines opts.indent 1 body) extra) := by
  have hlines : parseLines opts.indent opts.strict (header :: body) 0 =
      .ok (⟨0, header, 1⟩ :: bodyLines opts.indent 1 body, bodyBlanks 1 body) := by
    subst hhead
    simp only [parseLines, parseLine_level0 hc, parseLines_body hi opts.strict body hb]
  have hstream : decodeStream (F := F) opts.indent opts.strict (header :: body) =
      (decodeArray (F := F) ⟨opts.strict, bodyBlanks 1 body⟩ (5 * ((bodyLines opts.indent 1 body).length + 1) + 5) h
        ⟨bodyLines opts.indent 1 body, some ⟨0, header, 1⟩⟩ 0).map (·.1) := by
    unfold decodeStream
    simp only [hlines, bind, Except.bind, decodeLines, hh, List.length_cons]
    cases decodeArray (F := F) ⟨opts.strict, bodyBlanks 1 body⟩ (5 * ((bodyLines opts.indent 1 body).length + 1) + 5) h
      ⟨bodyLines opts.indent 1 body, some ⟨0, header, 1⟩⟩ 0 <;> rfl
  have hd := fun evs cur => hdec (5 * ((bodyLines opts.indent 1 body).length + 1) + 5) evs cur (by omega)
  have hcont : ((bodyLines opts.indent 1 body).take h.length).map (·.content) = (contents opts.indent body).take h.length := by
    rw [List.map_take, bodyLines_contents]
  have hr' : ∀ l ∈ (bodyLines opts.indent 1 body).take h.length, Reads ev M l := fun l hl => hreads l (List.mem_of_mem_take hl)
  constructor
  · intro hdv
    rcases hda : decodeArray (F := F) ⟨opts.strict, bodyBlanks 1 body⟩ (5 * ((bodyLines opts.indent 1 body).length + 1) + 5) h
        ⟨bodyLines opts.indent 1 body, some ⟨0, header, 1⟩⟩ 0 with e | ⟨evs, cur⟩
    · rw [hda] at hstream
      unfold decodeFromLines at hdv
      simp only [hstream, Except.map, bind, Except.bind] at hdv
      cases hdv
    · obtain ⟨evss, hp, rfl, _, hs⟩ := (hd _ _).mp hda
      obtain ⟨ts, rfl, hm⟩ := reads_sound hr' hp
      rw [hda] at hstream
      have hst : decodeStream (F := F) opts.indent opts.strict (header :: body) = .ok (ETree.events (.arr h.length ts)) := by
        rw [hstream]; simp [Except.map, ETree.events, eventsItems_flatten]
      rw [decodeFromLines_arr opts hx _ _ ts hst] at hdv
      cases hdv
      exact ⟨⟨_, rfl, hcont ▸ hm⟩, hs⟩
  · rintro ⟨⟨vs, rfl, hp⟩, hs⟩
    rw [← hcont] at hp
    obtain ⟨ts, hp2, rfl⟩ := reads_complete hr' hp
    have hda := (hd _ _).mpr ⟨_, hp2, rfl, rfl, hs⟩
    have hst : decodeStream (F := F) opts.indent opts.strict (header :: body) = .ok (ETree.events (.arr h.length ts)) := by
      rw [hstream, hda]; simp [Except.map, ETree.events, eventsItems_flatten]
    exact decodeFromLines_arr opts hx _ _ ts hst

/-- Tables. -/
theorem decodeArray_tabular_flat (ctx : Ctx) (h : Header) (hin : h.inline = none) (hf : (h.fields.getD []).isEmpty = false)
    (ls : List Line) (hl : ∀ l ∈ ls, l.depth = 1) (last : Option Line) (fuel : Nat) (evs : List (Ev F)) (cur : Cur) :
    decodeArray (F := F) ctx (fuel + 1) h ⟨ls, last⟩ 0 = .ok (evs, cur) ↔
      ∃ evss, Pointwise (fun l e => rowEv ctx.strict (h.fields.getD []) h.delim l = .ok e) (ls.take h.length) evss ∧
        evs = .startArr h.length :: evss.flatten ++ [.endArr] ∧
        cur = (flatOut evss ls h.length last 0 none none).cur ∧
        (ctx.strict = true → strictChecks h.length ctx.blanks ls (fun o => noExtraRows o 1 h.length h.delim ctx.strict)) := by
  have hdec : decodeArray (F := F) ctx (fuel + 1) h ⟨ls, last⟩ 0 =
      (tabularLoop (F := F) ctx (h.fields.getD []) h.delim h.length 1 ls last 0 none none).bind fun out =>
        (do
          assertCount out.count h.length .rows ctx.strict
          checkBlanks ctx true out.start out.end
          noExtraRows out.cur.rest.head? 1 h.length h.delim ctx.strict
          return (.startArr h.length :: out.evs ++ [.endArr], out.cur)) := by
    rw [decodeArray]
    simp only [hin, hf, Bool.false_eq_true, if_false, decodeTabular, bind, Except.bind, pure, Except.pure]
    cases tabularLoop (F := F) ctx (h.fields.getD []) h.delim h.length 1 ls last 0 none none with
    | error e => rfl
    | ok out =>
      simp only
      cases assertCount out.count h.length .rows ctx.strict with
      | error e => rfl
      | ok _ =>
        simp only
        cases checkBlanks ctx true out.start out.end with
        | error e => rfl
        | ok _ =>
          simp only
          cases noExtraRows out.cur.rest.head? 1 h.length h.delim ctx.strict <;> rfl
  rw [hdec]
  have hfin := fun (evss : List (List (Ev F))) (r r' : List (Ev F) × Cur) out ho => finish_iff .rows true ctx.strict h.length ctx.blanks ls last evss
    (fun o => noExtraRows o 1 h.length h.delim ctx.strict) (by intro hs o; simp only [hs, noExtraRows]; cases o <;> simp) out ho r r'
  rcases ht : tabularLoop (F := F) ctx (h.fields.getD []) h.delim h.length 1 ls last 0 none none with e | out
  · simp only [Except.bind]
    constructor
    · intro hh; cases hh
    · rintro ⟨evss, hp, _⟩
      rw [(tabularLoop_flat ctx _ _ _ _ ls hl last 0 none none _).mpr ⟨evss, hp, rfl⟩] at ht
      cases ht
  · obtain ⟨evss, hp, ho⟩ := (tabularLoop_flat ctx _ _ _ _ ls hl last 0 none none _).mp ht
    simp only [Nat.sub_zero] at hp ho
    simp only [Except.bind]
    rw [show ctx = ⟨ctx.strict, ctx.blanks⟩ from rfl]
    refine (hfin evss _ _ out ho).trans ?_
    constructor
    · rintro ⟨he, hs⟩
      cases he
      exact ⟨evss, hp, by rw [ho]; rfl, by rw [ho], hs⟩
    · rintro ⟨evss', hp', rfl, rfl, hs⟩
      have := (tabularLoop_flat ctx _ _ _ _ ls hl last 0 none none _).mpr ⟨evss', hp', rfl⟩
      rw [ht] at this
      cases this
      exact ⟨rfl, hs⟩

/-- Lists. -/
theorem decodeArray_list_flat (ctx : Ctx) (h : Header) (hin : h.inline = none) (hf : (h.fields.getD []).isEmpty = true)
    (ls : List Line) (hl : ∀ l ∈ ls, l.depth = 1 ∧ OneLineItem l.content) (last : Option Line) (fuel : Nat)
    (hfu : ls.length + 3 ≤ fuel) (evs : List (Ev F)) (cur : Cur) :
    decodeArray (F := F) ctx (fuel + 1) h ⟨ls, last⟩ 0 = .ok (evs, cur) ↔
      ∃ evss, Pointwise (fun l e => itemEv l = .ok e) (ls.take h.length) evss ∧
        evs = .startArr h.length :: evss.flatten ++ [.endArr] ∧
        cur = (flatOut evss ls h.length last 0 none none).cur ∧
        (ctx.strict = true → strictChecks h.length ctx.blanks ls (fun o => noExtraItems o 1 h.length ctx.strict)) := by
  have hloop := fun out => listLoop_flat (F := F) ctx itemEv h.length 1 ls 2 (fun l hm => ⟨(hl l hm).1, by
      rcases (hl l hm).2 with h | ⟨t, h, _⟩ <;> rw [h] <;> rfl, fun fuel r last hf => decodeItem_oneLine ctx l (hl l hm).2 1 fuel r last hf⟩)
    fuel (by omega) last 0 none none out
  have hdec : decodeArray (F := F) ctx (fuel + 1) h ⟨ls, last⟩ 0 =
      (listLoop (F := F) ctx fuel h.length 1 ⟨ls, last⟩ 0 none none).bind fun out =>
        (do
          assertCount out.count h.length .listItems ctx.strict
          checkBlanks ctx false out.start out.end
          noExtraItems out.cur.rest.head? 1 h.length ctx.strict
          return (.startArr h.length :: out.evs ++ [.endArr], out.cur)) := by
    rw [decodeArray]
    simp only [hin, hf, if_true, bind, Except.bind, pure, Except.pure]
  rw [hdec]
  have hfin := fun (evss : List (List (Ev F))) (r r' : List (Ev F) × Cur) out ho => finish_iff .listItems false ctx.strict h.length ctx.blanks ls last evss
    (fun o => noExtraItems o 1 h.length ctx.strict) (by intro hs o; simp only [hs, noExtraItems]; cases o <;> simp) out ho r r'
  rcases ht : listLoop (F := F) ctx fuel h.length 1 ⟨ls, last⟩ 0 none none with e | out
  · simp only [Except.bind]
    constructor
    · intro hh; cases hh
    · rintro ⟨evss, hp, _⟩
      rw [(hloop _).mpr ⟨evss, hp, rfl⟩] at ht
      cases ht
  · obtain ⟨evss, hp, ho⟩ := (hloop _).mp ht
    simp only [Nat.sub_zero] at hp ho
    simp only [Except.bind]
    rw [show ctx = ⟨ctx.strict, ctx.blanks⟩ from rfl]
    refine (hfin evss _ _ out ho).trans ?_
    constructor
    · rintro ⟨he, hs⟩
      cases he
      exact ⟨evss, hp, by rw [ho]; rfl, by rw [ho], hs⟩
    · rintro ⟨evss', hp', rfl, rfl, hs⟩
      have := (hloop _).mpr ⟨evss', hp', rfl⟩
      rw [ht] at this
      cases this
      exact ⟨rfl, hs⟩

theorem formatHeader_none_cons (n : Nat) (fields : Option (List Str)) (d : Char) :
    ∃ t, formatHeader n none fields d = '[' :: t := by
  rw [formatHeader_eq]
  exact ⟨_, rfl⟩

theorem rootHeader_format {n : Nat} (hn : n ≤ maxDeclaredLength) {fields : Option (List Str)} {d : Char} (hd : GoodDelim d)
    (hf : ∀ fs, fields = some fs → fs ≠ [] ∧ ∀ f ∈ fs, '}' ∉ f) (suffix : Str) :
    rootHeader (formatHeader n none fields d ++ suffix) =
      .ok (some {
        key := none, keyQuoted := false, length := n, delim := d, fields := readFields fields,
        inline := if (trim suffix).isEmpty then none else some (trim suffix) }) := by
  unfold rootHeader
  rw [arrayHeader_none n fields hd suffix, if_pos rfl, parseHeader_format hn none hd hf suffix]
  rfl

end

end Toon
