import Verif.Spec.JsonNum
import Verif.Spec.Events
import Verif.Spec.Values

/-! The two JSON printers write the same layout, and the layout is JSON. -/

namespace Toon

/-! ## Layout is JSON -/

/-- A way of writing strings that is JSON. -/
def GoodStr (str : Str → Str) : Prop := ∀ s, ∃ e, str s = '"' :: (e ++ ['"']) ∧ JsonChars e s

theorem jsonBreak_ws (indent depth : Nat) : JsonWs (jsonBreak indent depth) := by
  unfold jsonBreak
  split
  · intro c hc; simp at hc
  · intro c hc
    rcases List.mem_cons.mp hc with rfl | hc
    · simp
    · rw [List.eq_of_mem_replicate hc]; simp

theorem commaSep_cons (t : Str) {ts : List Str} (h : ts ≠ []) : commaSep (t :: ts) = t ++ ',' :: commaSep ts := by
  cases ts with
  | nil => exact absurd rfl h
  | cons a b => rw [commaSep]; simp

theorem jsonWs_nil : JsonWs [] := by intro c hc; simp at hc

theorem jsonWs_space (indent : Nat) : JsonWs (if indent = 0 then [] else [' ']) := by
  split
  · exact jsonWs_nil
  · intro c hc; simp at hc; simp [hc]

section
variable {F : Type} [F64 F] {rd : Str → Option F} {str : Str → Str} {num : F → Str}

mutual
theorem layout_isJson (hs : GoodStr str)
    (hn : ∀ x : F, (F64.isFinite x = true → NumGrammar (num x) ∧ rd (num x) = some x) ∧
      (F64.isFinite x = false → num x = ['n', 'u', 'l', 'l'])) (indent depth : Nat) (v : Json F) :
    IsJson rd (finiteOrNull v) (jsonLayout str num indent depth v) := by
  cases v with
  | prim p =>
    cases p with
    | null => rw [finiteOrNull, jsonLayout]; exact .null; all_goals simp
    | bool b =>
      rw [finiteOrNull, jsonLayout]
      · cases b
        · exact .false
        · exact .true
      · simp
    | num x =>
      rw [finiteOrNull, jsonLayout]
      by_cases h : F64.isFinite x = true
      · rw [if_pos h]; exact .num ((hn x).1 h).1 ((hn x).1 h).2
      · rw [if_neg h, (hn x).2 (by simpa using h)]; exact .null
    | str s =>
      rw [finiteOrNull, jsonLayout]
      · obtain ⟨e, h1, h2⟩ := hs s
        rw [h1]; exact .str h2
      · simp
  | arr items =>
    rw [finiteOrNull]
    cases items with
    | nil => rw [jsonLayout, finiteOrNullItems]; exact .arr0 (w := []) jsonWs_nil
    | cons v vs =>
      rw [jsonLayout]
      have := layoutItems_isItems hs hn indent (depth + 1) v vs (jsonBreak_ws indent depth)
      have := IsJson.arr this
      simpa using this
  | obj es =>
    rw [finiteOrNull]
    cases es with
    | nil => rw [jsonLayout, finiteOrNullEntries]; exact .obj0 (w := []) jsonWs_nil
    | cons e es =>
      obtain ⟨k, v⟩ := e
      rw [jsonLayout]
      have := layoutMembers_isMembers hs hn indent (depth + 1) k v es (jsonBreak_ws indent depth)
      have := IsJson.obj this
      simpa using this
termination_by 2 * sizeOf v

theorem layoutItems_isItems (hs : GoodStr str)
    (hn : ∀ x : F, (F64.isFinite x = true → NumGrammar (num x) ∧ rd (num x) = some x) ∧
      (F64.isFinite x = false → num x = ['n', 'u', 'l', 'l'])) (indent depth : Nat) (v : Json F) (vs : List (Json F))
    {w : Str} (hw : JsonWs w) :
    IsItems rd (finiteOrNullItems (v :: vs)) (commaSep (jsonLayoutItems str num indent depth (v :: vs)) ++ w) := by
  have hv := layout_isJson hs hn indent depth v
  cases vs with
  | nil =>
    simp only [finiteOrNullItems, jsonLayoutItems, commaSep, List.append_assoc]
    exact .one (jsonBreak_ws _ _) hv hw
  | cons v' vs =>
    have hr := layoutItems_isItems hs hn indent depth v' vs hw
    have := IsItems.cons (jsonBreak_ws indent depth) hv jsonWs_nil hr
    rw [finiteOrNullItems, jsonLayoutItems, commaSep_cons _ (by simp [jsonLayoutItems])]
    simpa using this
termination_by 2 * sizeOf v + 2 * sizeOf vs + 1

theorem layoutMembers_isMembers (hs : GoodStr str)
    (hn : ∀ x : F, (F64.isFinite x = true → NumGrammar (num x) ∧ rd (num x) = some x) ∧
      (F64.isFinite x = false → num x = ['n', 'u', 'l', 'l'])) (indent depth : Nat) (k : Str) (v : Json F)
    (es : List (Str × Json F)) {w : Str} (hw : JsonWs w) :
    IsMembers rd (finiteOrNullEntries ((k, v) :: es))
      (commaSep (jsonLayoutMembers str num indent depth ((k, v) :: es)) ++ w) := by
  have hv := layout_isJson hs hn indent depth v
  obtain ⟨e, h1, h2⟩ := hs k
  cases es with
  | nil =>
    have := IsMembers.one (jsonBreak_ws indent depth) h2 jsonWs_nil (jsonWs_space indent) hv hw
    simp only [finiteOrNullEntries, jsonLayoutMembers, commaSep, h1]
    simpa using this
  | cons e' es =>
    obtain ⟨k', v'⟩ := e'
    have hr := layoutMembers_isMembers hs hn indent depth k' v' es hw
    have := IsMembers.cons (jsonBreak_ws indent depth) h2 jsonWs_nil (jsonWs_space indent) hv jsonWs_nil hr
    rw [finiteOrNullEntries, jsonLayoutMembers, commaSep_cons _ (by simp [jsonLayoutMembers]), h1]
    simpa using this
termination_by 2 * sizeOf v + 2 * sizeOf es + 1
end

end

/-! ## The tree printer -/

section
variable {F : Type} [F64 F] [JsonNum F]

theorem jsonBreak_pos {indent : Nat} (h : indent > 0) (depth : Nat) :
    jsonBreak indent depth = '\n' :: jsonIndent (depth * indent) := by
  unfold jsonBreak jsonIndent
  rw [if_neg (by omega)]

mutual
theorem jsonStringify_eq (indent depth : Nat) (v : Json F) :
    jsonStringify indent depth v = jsonLayout jsonString jsonNumber indent depth v := by
  cases v with
  | prim p =>
    cases p with
    | null => rw [jsonStringify, jsonLayout, jsonPrimitive]
    | bool b => cases b <;> rw [jsonStringify, jsonLayout, jsonPrimitive] <;> rfl
    | num x => rw [jsonStringify, jsonLayout, jsonPrimitive]
    | str s => rw [jsonStringify, jsonLayout, jsonPrimitive]
  | arr items =>
    cases items with
    | nil => rw [jsonStringify, jsonLayout]; rfl
    | cons v vs =>
      rw [jsonStringify, jsonLayout, jsonItems_eq indent depth v vs]
      simp only [List.isEmpty_cons, Bool.false_eq_true, if_false]
      by_cases h : indent > 0
      · rw [if_pos h, jsonBreak_pos h]; simp
      · rw [if_neg h, jsonBreak, if_pos (by omega)]; simp
  | obj es =>
    cases es with
    | nil => rw [jsonStringify, jsonLayout]; rfl
    | cons e es =>
      obtain ⟨k, v⟩ := e
      rw [jsonStringify, jsonLayout, jsonEntries_eq indent depth k v es]
      simp only [List.isEmpty_cons, Bool.false_eq_true, if_false]
      by_cases h : indent > 0
      · rw [if_pos h, jsonBreak_pos h]; simp
      · rw [if_neg h, jsonBreak, if_pos (by omega)]; simp
termination_by 2 * sizeOf v

theorem jsonItems_eq (indent depth : Nat) (v : Json F) (vs : List (Json F)) :
    jsonItems indent depth (v :: vs) = commaSep (jsonLayoutItems jsonString jsonNumber indent (depth + 1) (v :: vs)) := by
  have hv := jsonStringify_eq indent (depth + 1) v
  have hb : (if indent > 0 then '\n' :: jsonIndent ((depth + 1) * indent) else []) = jsonBreak indent (depth + 1) := by
    by_cases h : indent > 0
    · rw [if_pos h, jsonBreak_pos h]
    · rw [if_neg h, jsonBreak, if_pos (by omega)]
  rw [jsonItems, hb, hv]
  cases vs with
  | nil => simp [jsonItems, jsonLayoutItems, commaSep]
  | cons v' vs =>
    rw [jsonItems_eq indent depth v' vs]
    conv => rhs; rw [jsonLayoutItems, commaSep_cons _ (by simp [jsonLayoutItems])]
    simp
termination_by 2 * sizeOf v + 2 * sizeOf vs + 1

theorem jsonEntries_eq (indent depth : Nat) (k : Str) (v : Json F) (es : List (Str × Json F)) :
    jsonEntries indent depth ((k, v) :: es) =
      commaSep (jsonLayoutMembers jsonString jsonNumber indent (depth + 1) ((k, v) :: es)) := by
  have hv := jsonStringify_eq indent (depth + 1) v
  have hb : (if indent > 0 then '\n' :: jsonIndent ((depth + 1) * indent) else []) = jsonBreak indent (depth + 1) := by
    by_cases h : indent > 0
    · rw [if_pos h, jsonBreak_pos h]
    · rw [if_neg h, jsonBreak, if_pos (by omega)]
  have hc : (if indent > 0 then [':', ' '] else [':']) = ':' :: (if indent = 0 then [] else [' ']) := by
    by_cases h : indent > 0
    · rw [if_pos h, if_neg (by omega)]
    · rw [if_neg h, if_pos (by omega)]
  rw [jsonEntries, hb, hv, hc]
  cases es with
  | nil => simp [jsonEntries, jsonLayoutMembers, commaSep]
  | cons e' es =>
    obtain ⟨k', v'⟩ := e'
    rw [jsonEntries_eq indent depth k' v' es]
    conv => rhs; rw [jsonLayoutMembers, commaSep_cons _ (by simp [jsonLayoutMembers])]
    simp
termination_by 2 * sizeOf v + 2 * sizeOf es + 1
end

/-! ## The event printer -/

theorem jsonStreamSteps_append (indent : Nat) (st : JState) (es fs : List (Ev F)) :
    jsonStreamSteps indent st (es ++ fs) =
      match jsonStreamSteps indent st es with
      | .error e => .error e
      | .ok st' => jsonStreamSteps indent st' fs := by
  induction es generalizing st with
  | nil => rfl
  | cons e es ih =>
    rw [List.cons_append, jsonStreamSteps, jsonStreamSteps]
    cases jsonStreamStep indent st e with
    | error e => rfl
    | ok st' => exact ih st'

/-- The context after a value. -/
def afterValue : List JCtx → List JCtx
  | [] => []
  | .obj nc _ :: rest => .obj nc false :: rest
  | .arr _ :: rest => .arr true :: rest

/-- What is written before a value in an array. -/
def beforeValue (indent depth : Nat) : List JCtx → Str
  | .arr nc :: _ => (if nc then [','] else []) ++ jsonBreak indent depth
  | _ => []

/-- A value may follow. -/
def ValueNext : List JCtx → Prop
  | [] => True
  | .arr _ :: _ => True
  | .obj nc ev :: _ => nc = true ∧ ev = true

theorem flatten_break (indent depth : Nat) :
    (if indent > 0 then [['\n'], List.replicate (depth * indent) ' '] else []).flatten = jsonBreak indent depth := by
  unfold jsonBreak
  by_cases h : indent > 0
  · rw [if_pos h, if_neg (by omega)]; simp
  · rw [if_neg h, if_pos (by omega)]; rfl

theorem flatten_comma (b : Bool) : (if b then [[',']] else []).flatten = (if b then [','] else [] : Str) := by
  cases b <;> rfl

theorem flatten_before (indent : Nat) (st : JState) :
    (jsonBeforeContainer indent st).flatten = beforeValue indent st.depth st.stack := by
  unfold jsonBeforeContainer beforeValue
  split
  · rename_i nc rest h
    rw [List.flatten_append, flatten_break, flatten_comma, h]
  · rename_i h
    split
    · rename_i nc rest h'; exact absurd h' (h nc rest)
    · rfl

theorem afterContainer_eq {stack : List JCtx} (h : ValueNext stack) : jsonAfterContainer stack = afterValue stack := by
  cases stack with
  | nil => rfl
  | cons c rest =>
    cases c with
    | arr nc => rfl
    | obj nc ev => rw [jsonAfterContainer, afterValue, h.1]

mutual
theorem stream_value (indent : Nat) (t : ETree F) (stack : List JCtx) (depth : Nat) (out : List Str)
    (hs : ValueNext stack) :
    ∃ cs, jsonStreamSteps indent ⟨stack, depth, out⟩ t.events = .ok ⟨afterValue stack, depth, out ++ cs⟩ ∧
      cs.flatten = beforeValue indent depth stack ++ jsonLayout serdeString jsonNumber indent depth t.json := by
  cases t with
  | prim p =>
    have hp : streamPrimitive p = jsonLayout serdeString jsonNumber indent depth (.prim p) := by
      cases p with
      | null => rw [jsonLayout, streamPrimitive]
      | bool b => cases b <;> rw [jsonLayout, streamPrimitive] <;> rfl
      | num x => rw [jsonLayout, streamPrimitive]
      | str s => rw [jsonLayout, streamPrimitive]
    rw [ETree.events, ETree.json, jsonStreamSteps, ← hp]
    cases stack with
    | nil => exact ⟨[streamPrimitive p], rfl, by simp [beforeValue]⟩
    | cons c rest =>
      cases c with
      | arr nc =>
        refine ⟨_, rfl, ?_⟩
        rw [List.flatten_append, List.flatten_append, flatten_comma, flatten_break]
        simp [beforeValue]
      | obj nc ev =>
        obtain ⟨rfl, rfl⟩ := hs
        exact ⟨[streamPrimitive p], rfl, by simp [beforeValue]⟩
  | arr n items =>
    rw [ETree.events, ETree.json, List.cons_append, jsonStreamSteps, jsonStreamStep]
    simp only
    obtain ⟨cs, h1, h2⟩ := stream_items indent items stack (depth + 1) (out ++ (jsonBeforeContainer indent ⟨stack, depth, out⟩ ++ [['[']])) false
    rw [jsonStreamSteps_append, h1]
    simp only [jsonStreamSteps, jsonStreamStep, afterContainer_eq hs, Nat.add_sub_cancel]
    refine ⟨_, by rw [List.append_assoc, List.append_assoc], ?_⟩
    rw [List.flatten_append, List.flatten_append, List.flatten_append, h2, flatten_before]
    cases items with
    | nil => simp [ETree.jsonItems, jsonLayout, jsonLayoutItems, commaSep]
    | cons t ts =>
      rw [ETree.jsonItems, jsonLayout]
      simp only [Bool.false_or, List.isEmpty_cons, Bool.not_false, and_true, List.flatten_append, flatten_break]
      simp
  | obj es =>
    rw [ETree.events, ETree.json, List.cons_append, jsonStreamSteps, jsonStreamStep]
    simp only
    obtain ⟨cs, h1, h2⟩ := stream_entries indent es stack (depth + 1) (out ++ (jsonBeforeContainer indent ⟨stack, depth, out⟩ ++ [['{']])) false
    rw [jsonStreamSteps_append, h1]
    simp only [jsonStreamSteps, jsonStreamStep, afterContainer_eq hs, Nat.add_sub_cancel]
    refine ⟨_, by rw [List.append_assoc, List.append_assoc], ?_⟩
    rw [List.flatten_append, List.flatten_append, List.flatten_append, h2, flatten_before]
    cases es with
    | nil => simp [ETree.jsonEntries, jsonLayout, jsonLayoutMembers, commaSep]
    | cons t ts =>
      rw [ETree.jsonEntries, jsonLayout]
      simp only [Bool.false_or, List.isEmpty_cons, Bool.not_false, and_true, List.flatten_append, flatten_break]
      simp
termination_by 2 * sizeOf t

theorem stream_items (indent : Nat) (ts : List (ETree F)) (stack : List JCtx) (depth : Nat) (out : List Str) (nc : Bool) :
    ∃ cs, jsonStreamSteps indent ⟨.arr nc :: stack, depth, out⟩ (ETree.eventsItems ts) =
        .ok ⟨.arr (nc || !ts.isEmpty) :: stack, depth, out ++ cs⟩ ∧
      cs.flatten = (if nc && !ts.isEmpty then [','] else []) ++
        commaSep (jsonLayoutItems serdeString jsonNumber indent depth (ETree.jsonItems ts)) := by
  cases ts with
  | nil => exact ⟨[], by simp [ETree.eventsItems, jsonStreamSteps], by simp [ETree.jsonItems, jsonLayoutItems, commaSep]⟩
  | cons t ts =>
    obtain ⟨cs, h1, h2⟩ := stream_value indent t (.arr nc :: stack) depth out trivial
    obtain ⟨ds, h3, h4⟩ := stream_items indent ts stack depth (out ++ cs) true
    rw [ETree.eventsItems, jsonStreamSteps_append, h1]
    simp only [afterValue]
    refine ⟨cs ++ ds, by rw [h3]; simp, ?_⟩
    rw [List.flatten_append, h2, h4, beforeValue, ETree.jsonItems, jsonLayoutItems]
    cases ts with
    | nil => simp [ETree.jsonItems, jsonLayoutItems, commaSep]
    | cons t' ts => rw [commaSep_cons _ (by simp [ETree.jsonItems, jsonLayoutItems])]; simp
termination_by 2 * sizeOf ts + 1

theorem stream_entries (indent : Nat) (es : List (Str × Bool × ETree F)) (stack : List JCtx) (depth : Nat) (out : List Str) (nc : Bool) :
    ∃ cs, jsonStreamSteps indent ⟨.obj nc false :: stack, depth, out⟩ (ETree.eventsEntries es) =
        .ok ⟨.obj (nc || !es.isEmpty) false :: stack, depth, out ++ cs⟩ ∧
      cs.flatten = (if nc && !es.isEmpty then [','] else []) ++
        commaSep (jsonLayoutMembers serdeString jsonNumber indent depth (ETree.jsonEntries es)) := by
  cases es with
  | nil => exact ⟨[], by simp [ETree.eventsEntries, jsonStreamSteps], by simp [ETree.jsonEntries, jsonLayoutMembers, commaSep]⟩
  | cons e es =>
    obtain ⟨k, q, t⟩ := e
    rw [ETree.eventsEntries, List.cons_append, jsonStreamSteps, jsonStreamStep]
    simp only
    have hc : (if indent > 0 then [':', ' '] else [':']) = ':' :: (if indent = 0 then [] else [' ']) := by
      by_cases h : indent > 0
      · rw [if_pos h, if_neg (by omega)]
      · rw [if_neg h, if_pos (by omega)]
    generalize hA : ((if nc then [[',']] else []) ++
          ((if indent > 0 then [['\n'], List.replicate (depth * indent) ' '] else []) ++
            [serdeString k, if indent > 0 then [':', ' '] else [':']])) = A
    obtain ⟨cs, h1, h2⟩ := stream_value indent t (.obj true true :: stack) depth (out ++ A) ⟨rfl, rfl⟩
    obtain ⟨ds, h3, h4⟩ := stream_entries indent es stack depth (out ++ A ++ cs) true
    rw [jsonStreamSteps_append, h1]
    simp only [afterValue]
    refine ⟨A ++ (cs ++ ds), by rw [h3]; simp, ?_⟩
    have hb : beforeValue indent depth (JCtx.obj true true :: stack) = [] := rfl
    rw [List.flatten_append, List.flatten_append, h2, h4, hb, ← hA, List.flatten_append, List.flatten_append,
      flatten_comma, flatten_break, hc, ETree.jsonEntries, jsonLayoutMembers]
    cases es with
    | nil => simp [ETree.jsonEntries, jsonLayoutMembers, commaSep]
    | cons e' es =>
      obtain ⟨k', q', t'⟩ := e'
      rw [commaSep_cons _ (by simp [ETree.jsonEntries, jsonLayoutMembers])]; simp
termination_by 2 * sizeOf es + 1
end

theorem stream_tree (indent : Nat) (t : ETree F) :
    ∃ cs, jsonStreamFromEvents t.events indent = .ok cs ∧
      cs.flatten = jsonLayout serdeString jsonNumber indent 0 t.json := by
  obtain ⟨cs, h1, h2⟩ := stream_value indent t [] 0 [] trivial
  refine ⟨cs, ?_, by rw [h2]; rfl⟩
  unfold jsonStreamFromEvents
  rw [h1]
  rfl

end

/-! ## Strings -/

theorem isControl_cases (c : Char) (h : isControl c = true) :
    ∃ n, n < 0xA0 ∧ c = Char.ofNat n := by
  unfold isControl at h
  refine ⟨c.toNat, ?_, (Char.ofNat_toNat c).symm⟩
  simp only [Bool.or_eq_true, Bool.and_eq_true, decide_eq_true_eq] at h
  omega

theorem hexVal4_hex4 : ∀ n : Fin 0xA0, hexVal4 (hexChar (n.val / 4096 % 16)) (hexChar (n.val / 256 % 16))
    (hexChar (n.val / 16 % 16)) (hexChar (n.val % 16)) = some n.val := by decide +kernel

theorem hexVal4_serde : ∀ n : Fin 0x20, hexVal4 '0' '0' (hexChar (n.val / 16)) (hexChar (n.val % 16)) = some n.val := by
  decide +kernel

theorem jsonChars_append {e s e' s' : Str} (h : JsonChars e s) (h' : JsonChars e' s') : JsonChars (e ++ e') (s ++ s') := by
  induction h with
  | nil => exact h'
  | plain h1 h2 h3 _ ih => exact .plain h1 h2 h3 ih
  | short hx _ ih => exact .short hx ih
  | basic hn hs _ ih => exact .basic hn hs ih
  | pair a b c d e f _ ih => exact .pair a b c d e f ih

theorem jsonEscapeChar_chars (c : Char) : JsonChars (jsonEscapeChar c) [c] := by
  unfold jsonEscapeChar
  split
  · rename_i h; subst h; exact .short (by decide) .nil
  · split
    · rename_i h; subst h; exact .short (by decide) .nil
    · split
      · rename_i h; subst h; exact .short (by decide) .nil
      · split
        · rename_i h; subst h; exact .short (by decide) .nil
        · split
          · rename_i h; subst h; exact .short (by decide) .nil
          · split
            · rename_i h
              have hlt : c.toNat < 0xA0 := by
                unfold isControl at h
                simp only [Bool.or_eq_true, Bool.and_eq_true, decide_eq_true_eq] at h
                omega
              have := hexVal4_hex4 ⟨c.toNat, hlt⟩
              have := JsonChars.basic this (by simp only; omega) .nil
              simpa [hex4] using this
            · rename_i h1 h2 h3 h4 h5 h6
              refine .plain ?_ h1 h2 .nil
              unfold isControl at h6
              simp only [Bool.or_eq_true, Bool.and_eq_true, decide_eq_true_eq] at h6
              omega

theorem eq_of_toNat {c d : Char} (h : c.toNat = d.toNat) : c = d := by
  rw [← Char.ofNat_toNat c, ← Char.ofNat_toNat d, h]

theorem serdeEscapeChar_chars (c : Char) : JsonChars (serdeEscapeChar c) [c] := by
  unfold serdeEscapeChar
  split
  · rename_i h; subst h; exact .short (by decide) .nil
  · split
    · rename_i h; subst h; exact .short (by decide) .nil
    · split
      · rename_i h; obtain rfl := eq_of_toNat (d := Char.ofNat 8) h; exact .short (by decide) .nil
      · split
        · rename_i h; obtain rfl := eq_of_toNat (d := '\t') h; exact .short (by decide) .nil
        · split
          · rename_i h; obtain rfl := eq_of_toNat (d := '\n') h; exact .short (by decide) .nil
          · split
            · rename_i h; obtain rfl := eq_of_toNat (d := Char.ofNat 12) h; exact .short (by decide) .nil
            · split
              · rename_i h; obtain rfl := eq_of_toNat (d := '\r') h; exact .short (by decide) .nil
              · split
                · rename_i h
                  have := hexVal4_serde ⟨c.toNat, h⟩
                  have := JsonChars.basic this (by simp only; omega) .nil
                  simpa using this
                · rename_i h1 h2 _ _ _ _ _ h8
                  exact .plain (by omega) h1 h2 .nil

theorem goodStr_of {f : Char → Str} (h : ∀ c, JsonChars (f c) [c]) : GoodStr fun s => '"' :: (s.flatMap f ++ ['"']) := by
  intro s
  refine ⟨s.flatMap f, rfl, ?_⟩
  induction s with
  | nil => exact .nil
  | cons c s ih => exact jsonChars_append (h c) ih

theorem goodStr_jsonString : GoodStr jsonString := goodStr_of jsonEscapeChar_chars
theorem goodStr_serdeString : GoodStr serdeString := goodStr_of serdeEscapeChar_chars

theorem jsonNumber_reads {F : Type} [F64 F] [JsonNum F] [LawfulJsonNum F] (x : F) :
    (F64.isFinite x = true → NumGrammar (jsonNumber x) ∧ exactNumber (jsonNumber x) = some x) ∧
      (F64.isFinite x = false → jsonNumber x = ['n', 'u', 'l', 'l']) := by
  constructor
  · intro h
    unfold jsonNumber exactNumber
    rw [if_pos h, LawfulJsonNum.parse_text x h]
    exact ⟨LawfulJsonNum.text_grammar x h, by simp [h]⟩
  · intro h
    unfold jsonNumber
    rw [h]
    rfl

section
variable {F : Type} [F64 F]

mutual
theorem finiteOrNull_id : (v : Json F) → AllPrims FinitePrim v → finiteOrNull v = v
  | .prim (.num x), h => by
    have h' : F64.isFinite x = true := h
    rw [finiteOrNull, if_pos h']
  | .prim .null, _ => rfl
  | .prim (.bool _), _ => rfl
  | .prim (.str _), _ => rfl
  | .arr items, h => by rw [finiteOrNull, finiteOrNullItems_id items h]
  | .obj es, h => by rw [finiteOrNull, finiteOrNullEntries_id es h]
theorem finiteOrNullItems_id : (vs : List (Json F)) → AllPrimsItems FinitePrim vs → finiteOrNullItems vs = vs
  | [], _ => rfl
  | v :: vs, h => by rw [finiteOrNullItems, finiteOrNull_id v h.1, finiteOrNullItems_id vs h.2]
theorem finiteOrNullEntries_id : (es : List (Str × Json F)) → AllPrimsEntries FinitePrim es → finiteOrNullEntries es = es
  | [], _ => rfl
  | (k, v) :: es, h => by rw [finiteOrNullEntries, finiteOrNull_id v h.1, finiteOrNullEntries_id es h.2]
end

end

end Toon
