import Verif.Lemmas.LineCopiesRanks
import Verif.Lemmas.LineCopiesExact
import Verif.Lemmas.LineCopiesLeast
import Verif.Lemmas.ScanSim
import Verif.Lemmas.Float64

/-!
# C88: what decoding copies of the lines

`copyStream indent strict source` (see `Model/LineCopies.lean`) is the synchronous decoder with a count of the characters of lines that
it copies: `.steps` is the count, `.result` the outcome.  `charCount source` is the number of characters of the source, `levels indent
source` the number of different levels of indentation in it.
-/

namespace Toon

section
variable {F : Type} [F64 F]

/-- C88.  The counted decoder is the decoder: the same events, the same error. -/
theorem C88_result (indent : Nat) (strict : Bool) (source : List Str) :
    (copyStream (F := F) indent strict source).result = liftErr (decodeStream indent strict source) := by
  rw [copyStream, decodeStream]
  cases parseLines indent strict source 0 with
  | error e => rfl
  | ok out =>
    rw [Run.lift_ok_bind]
    exact copyLines_agrees _ _

omit [F64 F] in
/-- C88.  What is held of the lines is at most twice the text. -/
theorem C88_held (source : List Str) : heldChars source ≤ 2 * charCount source := by
  obtain ⟨⟨lines, blanks⟩, h⟩ := parseLines_lax_ok 1 source 0
  have hs := (scansTo_iff 1 false source 0 lines blanks).mp h
  rw [← scansTo_held hs source rfl]
  exact scansTo_chars hs source rfl

/-- C88.  No more than `2·levels + 5` times what is held of the lines, which is each line once with its indentation and once without. -/
theorem C88_bound (indent : Nat) (strict : Bool) (source : List Str) :
    (copyStream (F := F) indent strict source).steps ≤ (2 * levels indent source + 5) * heldChars source := by
  rw [copyStream]
  cases h : parseLines indent strict source 0 with
  | error e => exact Nat.zero_le _
  | ok out =>
    obtain ⟨lines, blanks⟩ := out
    have hs := (scansTo_iff indent strict source 0 lines blanks).mp h
    rw [Run.lift_ok_bind]
    refine Nat.le_trans (copyLines_bound (w := lineChars source) _ (ranks_of_levels (different ((lines.map Line.depth).filter (0 < ·)))) lines ?_) ?_
    · intro l hl hd
      rw [mem_different, List.mem_filter]
      exact ⟨List.mem_map_of_mem hl, by simpa using hd⟩
    · rw [scansTo_depths hs]
      exact Nat.mul_le_mul_left _ (Nat.le_of_eq (scansTo_held hs source rfl))

/-- C88.  No less than twice what is held, if the source is accepted and read to its end. -/
theorem C88_least (indent : Nat) (strict : Bool) (source : List Str) (evs : List (Ev F))
    (h : decodeStreamUnread indent strict source = .ok (evs, 0)) :
    2 * heldChars source ≤ (copyStream (F := F) indent strict source).steps := by
  rw [decodeStreamUnread] at h
  rw [copyStream]
  cases hp : parseLines indent strict source 0 with
  | error e => rw [hp] at h; cases h
  | ok out =>
    obtain ⟨lines, blanks⟩ := out
    rw [hp] at h
    have hs := (scansTo_iff indent strict source 0 lines blanks).mp hp
    rw [Run.lift_ok_bind]
    simp only [bind, Except.bind] at h
    cases hr : decodeLinesRest (F := F) ⟨strict, blanks⟩ lines with
    | error e => rw [hr] at h; cases h
    | ok out =>
      obtain ⟨evs', rest⟩ := out
      rw [hr] at h
      simp only [pure, Except.pure, Except.ok.injEq, Prod.mk.injEq, List.length_eq_zero_iff] at h
      obtain ⟨rfl, rfl⟩ := h
      have := copyLines_least (w := lineChars source) _ _ _ _ hr
      rw [scansTo_held hs source rfl] at this
      exact this

omit [F64 F] in
/-- C88.  Many levels take much text: a source with `n` levels of indentation has at least `indent·n·(n + 1) / 2` characters. -/
theorem C88_levels (indent : Nat) (source : List Str) : indent * (levels indent source * (levels indent source + 1)) ≤ 2 * charCount source := by
  obtain ⟨⟨lines, blanks⟩, h⟩ := parseLines_lax_ok indent source 0
  have hs := (scansTo_iff indent false source 0 lines blanks).mp h
  have h1 := scansTo_depth_sum hs
  rw [scansTo_depths hs] at h1
  rw [levels]
  generalize ((source.filter fun raw => !decide (BlankLine raw)).map (unitsBefore indent)) = ds at h1 ⊢
  have h2 := sum_of_different (different_nodup (ds.filter (0 < ·))) (fun d hd => by
    rw [mem_different, List.mem_filter] at hd; simpa using hd.2)
  have h3 := different_sum_le (ds.filter (0 < ·))
  have h4 : (ds.filter (0 < ·)).sum ≤ ds.sum := by
    clear h1 h2 h3
    induction ds with
    | nil => exact Nat.le_refl _
    | cons d ds ih =>
      rw [List.filter_cons, List.sum_cons]
      split
      · rw [List.sum_cons]; omega
      · omega
  have h5 := Nat.mul_le_mul_left indent (Nat.le_trans h2 (Nat.mul_le_mul_left 2 (Nat.le_trans h3 h4)))
  have h6 : indent * (2 * ds.sum) = 2 * (indent * ds.sum) := Nat.mul_left_comm _ _ _
  omega

/-- C88.  So the copies grow at most as the text to the power one and a half. -/
theorem C88_power (indent : Nat) (strict : Bool) (source : List Str) :
    (copyStream (F := F) indent strict source).steps ^ 2 ≤ 196 * charCount source ^ 3 := by
  have hb := Nat.le_trans (C88_bound (F := F) indent strict source) (Nat.mul_le_mul_left _ (C88_held source))
  generalize hS : (copyStream (F := F) indent strict source).steps = S at hb
  generalize hT : charCount source = T at hb
  have hn : levels indent source * (levels indent source + 1) ≤ 2 * T := by
    cases indent with
    | zero =>
      have : levels 0 source = 0 := by
        rw [levels, List.length_eq_zero_iff]
        have : ((source.filter fun raw => !decide (BlankLine raw)).map (unitsBefore 0)).filter (0 < ·) = [] := by
          rw [List.filter_eq_nil_iff]
          intro d hd
          obtain ⟨raw, _, rfl⟩ := List.mem_map.mp hd
          simp [unitsBefore]
        rw [this]; rfl
      rw [this]; omega
    | succ i =>
      have h := C88_levels (i + 1) source
      rw [hT] at h
      exact Nat.le_trans (Nat.le_mul_of_pos_left _ (Nat.succ_pos i)) h
  generalize levels indent source = n at hb hn
  by_cases h0 : T = 0
  · subst h0
    have : S = 0 := by omega
    subst this; exact Nat.zero_le _
  · have hsq : (2 * n + 5) * (2 * n + 5) ≤ 49 * T := by
      have e : (2 * n + 5) * (2 * n + 5) = 4 * (n * (n + 1)) + 16 * n + 25 := by
        simp only [Nat.mul_add, Nat.add_mul, Nat.mul_one]
        have e1 : 2 * n * (2 * n) = 4 * (n * n) := by
          rw [Nat.mul_mul_mul_comm]
        omega
      have hle : n ≤ T := by
        cases n with
        | zero => omega
        | succ n =>
          have : (n + 1) * (n + 1 + 1) = n * (n + 1) + 2 * (n + 1) := by
            simp only [Nat.mul_add, Nat.add_mul, Nat.mul_one, Nat.one_mul]; omega
          omega
      omega
    calc S ^ 2 = S * S := Nat.pow_two S
      _ ≤ ((2 * n + 5) * (2 * T)) * ((2 * n + 5) * (2 * T)) := Nat.mul_le_mul hb hb
      _ = ((2 * n + 5) * (2 * n + 5)) * ((2 * T) * (2 * T)) := Nat.mul_mul_mul_comm _ _ _ _
      _ ≤ (49 * T) * ((2 * T) * (2 * T)) := Nat.mul_le_mul_right _ hsq
      _ = 196 * T ^ 3 := by
        rw [show T ^ 3 = T * T * T from by rw [Nat.pow_succ, Nat.pow_two], Nat.mul_mul_mul_comm 2 T 2 T, Nat.mul_mul_mul_comm 49 T 4 (T * T),
          ← Nat.mul_assoc T T T]

/-- C88.  What is copied for `n` objects inside each other and a line after them: the last line once for every object that it ends and
once more, and twice everything before it. -/
theorem C88_nested (indent : Nat) (hi : 0 < indent) (strict : Bool) (n : Nat) (hn : 0 < n) (last : Str) (hb : ¬ BlankLine last)
    (hs : last.head? ≠ some ' ') (ht : last.head? ≠ some '\t') :
    (copyStream (F := F) indent strict (nestedThen indent n last)).steps = indent * (n * (n - 1)) + 8 * n + (n + 1) * (2 * last.length) := by
  have h := (scansTo_iff indent strict _ 0 _ _).mpr (nestedThen_scan indent hi strict last hb hs ht n)
  have hc := nestLines_chars indent last n
  obtain ⟨m, rfl⟩ : ∃ m, n = m + 1 := ⟨n - 1, by omega⟩
  rw [copyStream, h, Run.lift_ok_bind]
  simp only
  rw [copyLines_nest _ _ m _ rfl, Nat.mul_comm 2, hc]
  have hl : lineChars (nestedThen indent (m + 1) last) ⟨0, last, m + 1 + 1⟩ = 2 * last.length := by
    simp [lineChars, nestedThen]
    omega
  rw [hl]

/-- C88.  And the power one and a half is reached: for every `k` there is an accepted text of at most `6·k²` characters of whose lines at
least `2·k³` characters are copied. -/
theorem C88_reached (strict : Bool) (k : Nat) (hk : 0 < k) :
    ∃ source : List Str, charCount source ≤ 6 * k ^ 2 ∧ 2 * k ^ 3 ≤ (copyStream (F := F) 1 strict source).steps ∧
      ∃ evs, decodeStream (F := F) 1 strict source = .ok evs := by
  have hkk : 0 < k * k := Nat.mul_pos hk hk
  have hkey : encodeKey (List.replicate (k * k) 'b') = List.replicate (k * k) 'b' := by
    refine encodeKey_valid ?_
    obtain ⟨m, hm⟩ : ∃ m, k * k = m + 1 := ⟨k * k - 1, by omega⟩
    rw [hm, List.replicate_succ, isValidUnquotedKey]
    rw [Bool.and_eq_true]
    refine ⟨by decide, ?_⟩
    rw [List.all_eq_true]
    intro c hc
    rw [List.eq_of_mem_replicate hc]
    decide
  obtain ⟨m, hm⟩ : ∃ m, k * k = m + 1 := ⟨k * k - 1, by omega⟩
  have hlast : List.replicate (k * k) 'b' ++ [':'] = 'b' :: (List.replicate m 'b' ++ [':']) := by
    rw [hm, List.replicate_succ]; rfl
  have hb : ¬ BlankLine (List.replicate (k * k) 'b' ++ [':']) := by
    intro h
    have := h ':' (by simp)
    revert this; decide
  have hs : (List.replicate (k * k) 'b' ++ [':']).head? ≠ some ' ' := by rw [hlast]; simp
  have ht : (List.replicate (k * k) 'b' ++ [':']).head? ≠ some '\t' := by rw [hlast]; simp
  refine ⟨nestedThen 1 k (List.replicate (k * k) 'b' ++ [':']), ?_, ?_, ?_⟩
  · have hc : ∀ n, ((List.range n).map fun i => 1 * i + 2).sum ≤ n * n + 2 * n := by
      intro n
      induction n with
      | zero => exact Nat.le_refl _
      | succ n ih =>
        rw [List.range_succ, List.map_append, List.sum_append]
        simp only [List.map_cons, List.map_nil, List.sum_cons, List.sum_nil, Nat.mul_add, Nat.add_mul, Nat.mul_one, Nat.one_mul] at ih ⊢
        omega
    have hck := hc k
    have hk1 : k ≤ k * k := Nat.le_mul_of_pos_left k hk
    rw [charCount, nestedThen, List.map_append, List.sum_append, List.map_map, Nat.pow_two]
    have e : (List.length ∘ fun i => List.replicate (1 * i) ' ' ++ ['a', ':']) = fun i => 1 * i + 2 := by
      funext i; simp
    rw [e]
    simp only [List.map_cons, List.map_nil, List.sum_cons, List.sum_nil, List.length_append, List.length_replicate, List.length_cons,
      List.length_nil]
    omega
  · rw [C88_nested 1 Nat.one_pos strict k hk _ hb hs ht]
    have : (k + 1) * (2 * (List.replicate (k * k) 'b' ++ [':']).length) = 2 * ((k + 1) * (k * k + 1)) := by
      rw [Nat.mul_left_comm]; simp
    have h3 : k ^ 3 ≤ (k + 1) * (k * k + 1) := by
      rw [Nat.pow_succ, Nat.pow_two, Nat.mul_comm]
      exact Nat.mul_le_mul (Nat.le_succ _) (Nat.le_succ _)
    omega
  · have h := (scansTo_iff 1 strict _ 0 _ _).mpr (nestedThen_scan 1 Nat.one_pos strict _ hb hs ht k)
    obtain ⟨n, rfl⟩ : ∃ n, k = n + 1 := ⟨k - 1, by omega⟩
    obtain ⟨evs, he⟩ := copyLines_nest_ok (F := F) (lineChars (nestedThen 1 (n + 1) (List.replicate ((n + 1) * (n + 1)) 'b' ++ [':'])))
      ⟨strict, []⟩ n ⟨0, List.replicate ((n + 1) * (n + 1)) 'b' ++ [':'], n + 1 + 1⟩ rfl (List.replicate ((n + 1) * (n + 1)) 'b')
      (by rw [hkey])
    have hr := C88_result (F := F) 1 strict (nestedThen 1 (n + 1) (List.replicate ((n + 1) * (n + 1)) 'b' ++ [':']))
    rw [copyStream, h, Run.lift_ok_bind] at hr
    simp only at hr
    rw [he] at hr
    cases hd : decodeStream (F := F) 1 strict (nestedThen 1 (n + 1) (List.replicate ((n + 1) * (n + 1)) 'b' ++ [':'])) with
    | ok evs' => exact ⟨evs', rfl⟩
    | error e => rw [hd] at hr; simp [liftErr] at hr

end

/-- Three objects inside each other and the line `b: 1`: the four characters of `b: 1` are copied eight times, twice for each of four
copies of the line. -/
example : (copyStream (F := B64) 2 true ["a:".toList, "  a:".toList, "    a:".toList, "b: 1".toList]).steps = 2 * (3 * 2) + 8 * 3 + 4 * (2 * 4) := by
  decide +kernel

example : ["a:".toList, "  a:".toList, "    a:".toList, "b: 1".toList] = nestedThen 2 3 "b: 1".toList ∧ levels 2 (nestedThen 2 3 "b: 1".toList) = 2 ∧
    charCount (nestedThen 2 3 "b: 1".toList) = 16 ∧ heldChars (nestedThen 2 3 "b: 1".toList) = 26 := by decide +kernel

/-- A source that is read to its end, with an object in a list. -/
example : (∃ evs, decodeStreamUnread (F := B64) 2 true ["l[1]:".toList, "  - x: p".toList, "    y: q".toList] = .ok (evs, 0)) ∧
    2 * heldChars ["l[1]:".toList, "  - x: p".toList, "    y: q".toList] = 72 ∧
    (copyStream (F := B64) 2 true ["l[1]:".toList, "  - x: p".toList, "    y: q".toList]).steps = 86 := by
  refine ⟨⟨[.startObj, .key "l".toList false, .startArr 1, .startObj, .key "x".toList false, .prim (.str "p".toList), .key "y".toList false,
    .prim (.str "q".toList), .endObj, .endArr, .endObj], ?_⟩, ?_⟩ <;> decide +kernel

/-- A table and a list: every line is copied. -/
example : (copyStream (F := B64) 2 true ["t[2]{a,b}:".toList, "  1,2".toList, "  3,4".toList, "l[1]:".toList, "  - x: 1".toList]).steps = 134 ∧
    ((copyStream (F := B64) 2 true ["t[2]{a,b}:".toList, "  1,2".toList, "  3,4".toList, "l[1]:".toList, "  - x: 1".toList]).result matches .ok _) := by
  decide +kernel

end Toon
