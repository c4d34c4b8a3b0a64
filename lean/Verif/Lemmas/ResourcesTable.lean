import Verif.Lemmas.ResourcesSize
import Verif.Lemmas.Declared

/-! A family of tables whose value is larger than the text (C59). -/

namespace Toon

/-- A table with these columns and `n` rows of one cell. -/
def wideTable (names : List Str) (n : Nat) : Str :=
  joinWith '\n' (("[".toList ++ natDigits n ++ "]{".toList ++ joinWith ',' names ++ "}:".toList) ::
    List.replicate n "  true".toList)

theorem quoteState_plain {p : Str} (h : '"' ∉ p) : quoteState p = .out := by
  unfold quoteState
  induction p with
  | nil => rfl
  | cons c cs ih =>
    simp only [List.mem_cons, not_or] at h
    simp only [List.foldl_cons, QState.step]
    rw [if_neg (fun e => h.1 e.symm)]
    exact ih h.2

theorem splitsInto_join {d : Char} : ∀ {names : List Str}, names ≠ [] → (∀ w ∈ names, '"' ∉ w ∧ d ∉ w) →
    SplitsInto d (joinWith d names) names
  | [w], _, h => .last (fun a b (e : w = a ++ d :: b) => absurd (by rw [e]; simp) (h w (by simp)).2)
  | w :: w' :: ws, _, h => by
    rw [show joinWith d (w :: w' :: ws) = w ++ d :: joinWith d (w' :: ws) from rfl]
    exact .cut (fun a b e => absurd (by rw [e]; simp) (h w (by simp)).2) (quoteState_plain (h w (by simp)).1)
      (splitsInto_join (by simp) (fun x hx => h x (List.mem_cons_of_mem _ hx)))

theorem natDigits_length_le (n : Nat) : (natDigits n).length ≤ n + 1 := by
  have h : ∀ fuel m, (natDigitsAux fuel m []).length ≤ fuel := by
    intro fuel
    induction fuel with
    | zero => intro m; simp [natDigitsAux]
    | succ f ih =>
      intro m
      simp only [natDigitsAux]
      split
      · simp
      · rw [natDigitsAux_acc]
        have := ih (m / 10)
        simp only [List.length_append, List.length_cons, List.length_nil]
        omega
  exact h (n + 1) n

theorem joinWith_mem {d x : Char} : ∀ {names : List Str}, x ∈ joinWith d names → x = d ∨ ∃ w ∈ names, x ∈ w
  | [], h => by simp [joinWith] at h
  | [w], h => .inr ⟨w, by simp, h⟩
  | w :: w' :: ws, h => by
    rw [show joinWith d (w :: w' :: ws) = w ++ d :: joinWith d (w' :: ws) from rfl] at h
    simp only [List.mem_append, List.mem_cons] at h
    rcases h with h | h | h
    · exact .inr ⟨w, by simp, h⟩
    · exact .inl h
    · rcases joinWith_mem h with h | ⟨v, h1, h2⟩
      · exact .inl h
      · exact .inr ⟨v, List.mem_cons_of_mem _ h1, h2⟩

theorem joinWith_length {d : Char} : ∀ {names : List Str}, names ≠ [] → (joinWith d names).length + 1 = sourceLength names
  | [w], _ => by simp [joinWith, sourceLength]
  | w :: w' :: ws, _ => by
    rw [show joinWith d (w :: w' :: ws) = w ++ d :: joinWith d (w' :: ws) from rfl]
    have := joinWith_length (d := d) (names := w' :: ws) (by simp)
    simp only [sourceLength, List.map_cons, List.sum_cons, List.length_append, List.length_cons] at *
    omega

theorem joinWith_ne {d : Char} : ∀ {names : List Str}, names ≠ [] → (∀ w ∈ names, w ≠ []) → joinWith d names ≠ []
  | [w], _, h => h w (by simp)
  | w :: w' :: ws, _, _ => by simp [joinWith]

theorem sourceLength_replicate (n : Nat) (s : Str) : sourceLength (List.replicate n s) = n * (s.length + 1) := by
  simp [sourceLength]

section
variable {F : Type} [F64 F]

/-- The letters of the names. -/
def Letters (names : List Str) : Prop := ∀ w ∈ names, w ≠ [] ∧ ∀ c ∈ w, c = 'k'

theorem Letters.trim {names : List Str} (h : Letters names) : names.map trim = names := by
  have : ∀ w ∈ names, Toon.trim w = w := by
    intro w hw
    obtain ⟨_, h2⟩ := h w hw
    have hns : ∀ c ∈ w, isWs c = false := fun c hc => by rw [h2 c hc]; decide
    exact trim_eq_self ⟨fun c hc => hns c (List.mem_of_mem_head? hc), fun c hc => hns c (List.mem_of_getLast? hc)⟩
  exact (List.map_congr_left this).trans (List.map_id _)

theorem Letters.join_mem {names : List Str} (h : Letters names) {c : Char} (hc : c ∈ joinWith ',' names) : c = ',' ∨ c = 'k' := by
  rcases joinWith_mem hc with e | ⟨w, hw, hm⟩
  · exact .inl e
  · exact .inr ((h w hw).2 c hm)

theorem wideHeader_means {names : List Str} (hne : names ≠ []) (hl : Letters names) {n : Nat} (hn : n ≤ 100000000) :
    HeaderMeans ("[".toList ++ natDigits n ++ "]{".toList ++ joinWith ',' names ++ "}:".toList)
      ⟨none, false, n, ',', some (names.map fun w => ⟨w, false⟩), none⟩ := by
  refine ⟨[], natDigits n, some (joinWith ',' names), [], ⟨"{".toList ++ joinWith ',' names ++ "}:".toList, ?_, ?_, ?_⟩, ?_, ?_, hn, ?_, ?_⟩
  · have : "[".toList ++ natDigits n ++ "]{".toList ++ joinWith ',' names ++ "}:".toList =
        [] ++ '[' :: (natDigits n ++ ']' :: ("{".toList ++ joinWith ',' names ++ "}:".toList)) := by
      simp
    rw [this]
    refine .bare ?_ (by simp)
    rintro ⟨ws, rest, hw, e⟩
    cases ws with
    | nil => simp at e
    | cons w ws =>
      simp only [List.nil_append, List.cons_append, List.cons.injEq] at e
      have := hw w (by simp)
      rw [← e.1] at this
      exact absurd this (by decide)
  · exact not_mem_natDigits (by decide)
  · have : "{".toList ++ joinWith ',' names ++ "}:".toList = [] ++ '{' :: joinWith ',' names ++ '}' :: [] ++ ':' :: [] := by simp
    rw [this]
    refine .columns (by simp) (by simp) ?_ (by simp)
    intro hm
    rcases hl.join_mem hm with e | e <;> exact absurd e (by decide)
  · exact .none (by simp [BlankLine])
  · refine ⟨[], natDigits n, [], by simp, .inl rfl, ⟨natDigits_ne_nil n, fun c hc => natDigits_mem hc⟩, ?_, ?_, .inl ⟨rfl, rfl⟩⟩
    · rw [← digitsVal_eq, digitsVal_natDigits]
    · simp only at hn ⊢; omega
  · refine .some (cells := names) (.inr ⟨joinWith_ne hne (fun w hw => (hl w hw).1), names, ?_, hl.trim.symm⟩) ?_
    · refine splitsInto_join hne (fun w hw => ⟨fun hc => ?_, fun hc => ?_⟩)
      · exact absurd ((hl w hw).2 _ hc) (by decide)
      · exact absurd ((hl w hw).2 ',' hc) (by decide)
    · have : ∀ l : List Str, Letters l → Pointwise NameMeans l (l.map fun w => ⟨w, false⟩) := by
        intro l
        induction l with
        | nil => intro _; exact .nil
        | cons w ws ih =>
          intro h
          refine .cons (.bare ?_) (ih fun x hx => h x (List.mem_cons_of_mem _ hx))
          intro he
          exact absurd ((h w (by simp)).2 _ (List.mem_of_mem_head? he)) (by decide)
      exact this names hl
  · exact .inl ⟨by simp [BlankLine], rfl⟩

/-- The lines of the table, numbered from `m + 1`. -/
def wideRows : Nat → Nat → List Line
  | _, 0 => []
  | m, n + 1 => ⟨1, "true".toList, m + 1⟩ :: wideRows (m + 1) n

theorem wideRows_scan (strict : Bool) : ∀ (n m : Nat), ScansTo 2 strict m (List.replicate n "  true".toList) (wideRows m n) []
  | 0, _ => .nil _
  | n + 1, m => by
    have h := ScansTo.line (indent := 2) (strict := strict) (n := m) (spaces := 2) (content := "true".toList)
      (by decide) (by decide) (fun _ => by decide) (wideRows_scan strict n (m + 1))
    exact h

theorem wideRows_mem : ∀ {n m : Nat} {l : Line}, l ∈ wideRows m n → l.depth = 1 ∧ l.content = "true".toList
  | 0, _, _, h => by simp [wideRows] at h
  | n + 1, m, l, h => by
    rcases List.mem_cons.mp h with rfl | h
    · exact ⟨rfl, rfl⟩
    · exact wideRows_mem h

theorem wideRows_length : ∀ (n m : Nat), (wideRows m n).length = n
  | 0, _ => rfl
  | n + 1, m => by simp [wideRows, wideRows_length n]

theorem wideRows_rows {strict : Bool} {fields : List FieldName} (h : strict = true → fields.length = 1) : ∀ (n m : Nat),
    Pointwise (TableRow (F := F) strict fields ',') (wideRows m n) (List.replicate n (.obj (padFields fields [.bool true])))
  | 0, _ => .nil
  | n + 1, m => by
    refine .cons ⟨["true".toList], [.bool true], ?_, .cons .true .nil, fun hs => (h hs).symm, rfl⟩ (wideRows_rows h n (m + 1))
    refine .inr ⟨by simp, ["true".toList], .last ?_, by decide⟩
    intro a b (e : "true".toList = _)
    exact absurd (show ',' ∈ "true".toList by rw [e]; simp) (by decide)

theorem wideTable_lines {names : List Str} (hl : Letters names) (n : Nat) :
    splitOn '\n' (wideTable names n) = ("[".toList ++ natDigits n ++ "]{".toList ++ joinWith ',' names ++ "}:".toList) ::
      List.replicate n "  true".toList := by
  unfold wideTable
  refine splitOn_joinWith (by simp) ?_
  intro w hw
  rcases List.mem_cons.mp hw with rfl | hw
  · simp only [List.mem_append, not_or]
    refine ⟨⟨⟨⟨by decide, not_mem_natDigits (by decide)⟩, by decide⟩, ?_⟩, by decide⟩
    intro hm
    rcases hl.join_mem hm with e | e <;> exact absurd e (by decide)
  · rw [List.eq_of_mem_replicate hw]; decide

theorem wideTable_means {strict : Bool} {names : List Str} (hne : names ≠ []) (hl : Letters names) {n : Nat} (hn : n ≤ 100000000)
    (hs : strict = true → names.length = 1) :
    TextMeans (F := F) 2 strict (splitOn '\n' (wideTable names n))
      (.arr n (List.replicate n (.obj (padFields (names.map fun w => ⟨w, false⟩) [.bool true])))) := by
  rw [wideTable_lines hl]
  refine ⟨⟨0, "[".toList ++ natDigits n ++ "]{".toList ++ joinWith ',' names ++ "}:".toList, 1⟩ :: wideRows 1 n, [], [], ?_, ?_⟩
  · have h := ScansTo.line (indent := 2) (strict := strict) (n := 0) (spaces := 0)
      (content := "[".toList ++ natDigits n ++ "]{".toList ++ joinWith ',' names ++ "}:".toList)
      (fun hb => absurd (hb '[' (by simp)) (by decide)) (by simp) (fun _ => by simp) (wideRows_scan strict n 1)
    simpa using h
  · refine .array ⟨[], natDigits n ++ "]{".toList ++ joinWith ',' names ++ "}:".toList, by simp [BlankLine], by simp⟩ ?_
      (wideHeader_means hne hl hn) ?_
    · refine ⟨"[".toList ++ natDigits n ++ "]{".toList ++ joinWith ',' names ++ "}".toList, [], by simp, quoteState_plain ?_⟩
      simp only [List.mem_append, not_or]
      refine ⟨⟨⟨⟨by decide, not_mem_natDigits (by decide)⟩, by decide⟩, ?_⟩, by decide⟩
      intro hm
      rcases hl.join_mem hm with e | e <;> exact absurd e (by decide)
    · have h := ArrayMeans.table (F := F) (strict := strict) (blanks := []) (depth := 0)
        (h := ⟨none, false, n, ',', some (names.map fun w => ⟨w, false⟩), none⟩) (body := wideRows 1 n) (rest := [])
        (fields := names.map fun w => ⟨w, false⟩) (ts := List.replicate n (.obj (padFields (names.map fun w => ⟨w, false⟩) [.bool true])))
        rfl rfl (by simpa using hne) (fun l hl => (wideRows_mem hl).1) (wideRows_rows (by simpa using hs) n 1)
        (by simp [wideRows_length]) (fun _ => by rintro ⟨_, _, h, _⟩; simp at h)
        (fun _ => ⟨wideRows_length n 1, by simp [NoBlankWithin], by rintro ⟨_, _, h, _⟩; simp at h⟩)
      simpa using h

theorem wideTable_length {names : List Str} (hne : names ≠ []) (n : Nat) :
    (wideTable names n).length ≤ sourceLength names + 8 * n + 6 := by
  have h1 := joinWith_length (d := '\n') (names := ("[".toList ++ natDigits n ++ "]{".toList ++ joinWith ',' names ++ "}:".toList) ::
    List.replicate n "  true".toList) (by simp)
  have h2 := joinWith_length (d := ',') hne
  have h3 := natDigits_length_le n
  have h4 := sourceLength_replicate n "  true".toList
  unfold wideTable
  simp only [sourceLength, List.map_cons, List.sum_cons, List.length_append] at h1 h2 h4 ⊢
  have e1 : "[".toList.length = 1 := by decide
  have e2 : "]{".toList.length = 2 := by decide
  have e3 : "}:".toList.length = 2 := by decide
  have e4 : "  true".toList.length = 6 := by decide
  rw [e4] at h4
  omega

omit [F64 F] in
theorem replicate_volume (n : Nat) (t : ETree F) : volumeItems (ETree.jsonItems (List.replicate n t)) = n * volume t.json := by
  induction n with
  | zero => simp [ETree.jsonItems, volumeItems]
  | succ n ih => simp only [List.replicate_succ, ETree.jsonItems, volumeItems, ih, Nat.succ_mul]; omega

omit [F64 F] in
theorem replicate_nodes (n : Nat) (t : ETree F) : nodesItems (ETree.jsonItems (List.replicate n t)) = n * nodes t.json := by
  induction n with
  | zero => simp [ETree.jsonItems, nodesItems]
  | succ n ih => simp only [List.replicate_succ, ETree.jsonItems, nodesItems, ih, Nat.succ_mul]; omega

end

end Toon
