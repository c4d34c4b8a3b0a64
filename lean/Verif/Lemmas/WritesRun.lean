import Verif.Lemmas.Writes

/-! The counted encoder, function by function. -/

namespace Toon

section
variable {F : Type} [F64 F] (opts : EncOpts)

/-- What the functions do in a stack that is large enough. -/
structure PutRuns (stack : Nat) : Prop where
  object : ∀ (es : List (Str × Json F)) depth rlk pp rem out, 3 * heightEntries es + 2 ≤ stack →
    Puts opts.indent 0 (putObject opts stack es depth rlk pp rem out) out (encodeObject opts es depth rlk pp rem)
  pair : ∀ siblings rlk pp fd key (v : Json F) depth out, 3 * height v + 1 ≤ stack →
    Puts opts.indent 0 (putPair opts stack siblings rlk pp fd key v depth out) out (encodeKeyValue opts siblings rlk pp fd key v depth)
  array : ∀ key (items : List (Json F)) depth out, 3 * heightItems items + 3 ≤ stack →
    Puts opts.indent (keySlack key) (putArray opts stack key items depth out) out (encodeArray opts key items depth)
  mixed : ∀ key (items : List (Json F)) depth out, 3 * heightItems items + 2 ≤ stack →
    Puts opts.indent (keySlack key) (putMixed opts stack key items depth out) out
      (⟨depth, formatHeader items.length key none opts.delim⟩ :: encodeItems opts items (depth + 1))
  item : ∀ (v : Json F) depth out, 3 * height v + 1 ≤ stack → Puts opts.indent 0 (putItem opts stack v depth out) out (encodeItem opts v depth)
  objectItem : ∀ (es : List (Str × Json F)) depth out, 3 * heightEntries es + 3 ≤ stack →
    Puts opts.indent 0 (putObjectItem opts stack es depth out) out (encodeObjectItem opts es depth)

theorem items_put {stack : Nat} (hi : ∀ (v : Json F) depth out, 3 * height v + 1 ≤ stack →
      Puts opts.indent 0 (putItem opts stack v depth out) out (encodeItem opts v depth))
    (items : List (Json F)) (depth : Nat) (out : List OutLine) (h : 3 * heightItems items + 1 ≤ stack) :
    Puts opts.indent 0 (overEach (fun v out => putItem opts stack v depth out) items out) out (encodeItems opts items depth) := by
  rw [encodeItems_flat]
  refine Puts.each (fun v hv out => hi v depth out ?_) out
  have := height_mem_items hv
  omega

theorem putRows_puts (rows : List (Json F)) (header : List Str) (depth : Nat) (out : List OutLine) :
    Puts opts.indent 0 (putRows opts rows header depth out) out (tabularRows rows header depth opts.delim) := by
  have : tabularRows rows header depth opts.delim = rows.flatMap fun row => match row with
      | .obj entries => [⟨depth, encodeAndJoin (rowValues entries header) opts.delim⟩]
      | _ => [] := by
    unfold tabularRows
    induction rows with
    | nil => rfl
    | cons v vs ih => cases v <;> simp [ih]
  rw [this]
  refine Puts.each (fun v _ out => ?_) out
  cases v with
  | prim p => exact Puts.none _ _
  | arr xs => exact Puts.none _ _
  | obj es => exact Puts.line (by have := rowWrites_le es header opts.delim; omega) out

theorem header_puts (length : Nat) (key : Option Str) (fields : Option (List Str)) (depth : Nat) (out : List OutLine) :
    Puts opts.indent (keySlack key) (emit opts (headerWrites length key fields opts.delim) ⟨depth, formatHeader length key fields opts.delim⟩ out)
      out [⟨depth, formatHeader length key fields opts.delim⟩] :=
  Puts.line (by have := headerWrites_le length key fields opts.delim; omega) out

theorem inlineItems_flat (items : List (Json F)) (depth : Nat) : items.filterMap (fun item => match item with
      | .arr xs => some (⟨depth, dash (encodeInlineArrayLine xs opts.delim none)⟩ : OutLine)
      | _ => none) = items.flatMap fun item => match item with
      | .arr xs => [⟨depth, dash (encodeInlineArrayLine xs opts.delim none)⟩]
      | _ => [] := by
  induction items with
  | nil => rfl
  | cons v vs ih => cases v <;> simp [ih]

theorem primEntry_puts (key : Str) (p : Prim F) (depth : Nat) (out : List OutLine) :
    Puts opts.indent 0 (emit opts (keyWrites key + primWrites p opts.delim) ⟨depth, encodeKey key ++ ':' :: ' ' :: encodePrimitive p opts.delim⟩ out)
      out [⟨depth, encodeKey key ++ ':' :: ' ' :: encodePrimitive p opts.delim⟩] := by
  have := keyWrites_le key
  have := primWrites_le p opts.delim
  exact Puts.line (by simp only [List.length_append, List.length_cons]; omega) out

theorem arrEntry_puts {s : Nat} (ih : PutRuns (F := F) opts s) (key : Str) (items : List (Json F)) (depth : Nat) (out : List OutLine)
    (h : 3 * heightItems items + 3 ≤ s) :
    Puts opts.indent 0 (do
        tick (keyWrites key)
        putArray opts s (some key) items depth out) out (encodeArray opts (some key) items depth) :=
  Puts.tick (ih.array (some key) items depth out h) (keyWrites_le key)

theorem objEntry_puts {s : Nat} (ih : PutRuns (F := F) opts s) (rlk : Option (List Str)) (pp : Option Str) (fd : Option Nat) (key : Str)
    (es : List (Str × Json F)) (depth : Nat) (out : List OutLine) (h : 3 * heightEntries es + 2 ≤ s) :
    Puts opts.indent 0 (do
        let out ← emit opts (keyWrites key) ⟨depth, encodeKey key ++ [':']⟩ out
        if es.isEmpty then pure out
        else putObject opts s es (depth + 1) rlk pp fd out) out
      (⟨depth, encodeKey key ++ [':']⟩ :: encodeObject opts es (depth + 1) rlk pp fd) := by
  have hk := keyWrites_le key
  refine Puts.bind (s1 := 0) (s2 := 0) (a := [⟨depth, encodeKey key ++ [':']⟩])
    (Puts.line (by simp only [List.length_append, List.length_cons]; omega) out) fun out => ?_
  by_cases he : es.isEmpty = true
  · obtain rfl := List.isEmpty_iff.mp he
    rw [encodeObject, encodeEntries]
    exact Puts.none _ _
  · simp only [he, if_false, Bool.false_eq_true]
    exact ih.object _ _ _ _ _ _ h

theorem putRuns (stack : Nat) : PutRuns (F := F) opts stack := by
  induction stack with
  | zero => constructor <;> intros <;> omega
  | succ s ih =>
    constructor
    · intro es depth rlk pp rem out h
      rw [putObject, encodeObject, encodeEntries_flatten]
      refine Puts.each (g := fun (e : Str × Json F) => encodeKeyValue opts (es.map Prod.fst) (rootLiterals depth rlk (es.map Prod.fst)) pp
        (rem.getD opts.flattenDepth) e.1 e.2 depth) (fun e he out => ih.pair _ _ _ _ _ _ _ _ ?_) out
      have := height_mem_entries (k := e.1) (v := e.2) he
      omega
    · intro siblings rlk pp fd key v depth out h
      rw [putPair.eq_def, encodeKeyValue_eq]
      simp only
      cases hf : tryFold key v siblings opts rlk pp fd with
      | some folded =>
        have hh := tryFold_height hf
        simp only
        cases hl : folded.leaf with
        | prim p => exact primEntry_puts opts _ p depth out
        | arr items =>
          rw [hl] at hh
          simp only [height] at hh
          exact arrEntry_puts opts ih _ items depth out (by omega)
        | obj es =>
          rw [hl] at hh
          simp only [height] at hh
          exact objEntry_puts opts ih _ _ _ _ es depth out (by omega)
      | none =>
        simp only
        cases v with
        | prim p => exact primEntry_puts opts _ p depth out
        | arr items =>
          simp only [height] at h
          exact arrEntry_puts opts ih _ items depth out (by omega)
        | obj es =>
          simp only [height] at h
          exact objEntry_puts opts ih _ _ _ _ es depth out (by omega)
    · intro key items depth out h
      rw [putArray, encodeArray_cases]
      by_cases h1 : items.isEmpty = true
      · simp only [h1, if_true]
        exact header_puts opts 0 key none depth out
      · simp only [h1, if_false, Bool.false_eq_true]
        by_cases h2 : isArrayOfPrims items = true
        · simp only [h2, if_true]
          exact Puts.line (by have := inlineWrites_le items opts.delim key; omega) out
        · simp only [h2, if_false, Bool.false_eq_true]
          by_cases h3 : arraysOfPrims items = true
          · simp only [h3, if_true]
            suffices hp : Puts opts.indent (keySlack key) _ out (⟨depth, formatHeader items.length key none opts.delim⟩ :: items.flatMap
                fun item => match item with
                  | .arr xs => [⟨depth + 1, dash (encodeInlineArrayLine xs opts.delim none)⟩]
                  | _ => []) by
              rw [← inlineItems_flat] at hp
              exact hp
            refine Puts.bind (s2 := 0) (header_puts opts items.length key none depth out) fun out => Puts.each (fun v _ out => ?_) out
            cases v with
            | prim p => exact Puts.none _ _
            | obj es => exact Puts.none _ _
            | arr xs =>
              exact Puts.line (by have := inlineWrites_le xs opts.delim none; simp only [dash, List.length_cons]; omega) out
          · simp only [h3, if_false, Bool.false_eq_true]
            cases (if isArrayOfObjs items then extractTabularHeader items else none) with
            | some header =>
              exact Puts.bind (s2 := 0) (header_puts opts items.length key (some header) depth out) fun out => putRows_puts opts _ _ _ out
            | none => exact ih.mixed _ _ _ _ (by omega)
    · intro key items depth out h
      rw [putMixed]
      exact Puts.bind (s2 := 0) (header_puts opts items.length key none depth out) fun out => items_put opts ih.item _ _ _ (by omega)
    · intro v depth out h
      cases v with
      | prim p =>
        rw [putItem, encodeItem]
        exact Puts.line (by have := primWrites_le p opts.delim; simp only [dash, List.length_cons]; omega) out
      | arr items =>
        simp only [height] at h
        rw [putItem, encodeItem]
        by_cases h2 : isArrayOfPrims items = true
        · simp only [h2, if_true]
          exact Puts.line (by have := inlineWrites_le items opts.delim none; simp only [dash, List.length_cons]; omega) out
        · simp only [h2, if_false, Bool.false_eq_true]
          refine Puts.bind (s1 := 0) (s2 := 0) (a := [⟨depth, dash (formatHeader items.length none none opts.delim)⟩])
            (Puts.line ?_ out) fun out => items_put opts ih.item _ _ _ (by omega)
          have := headerWrites_le items.length none none opts.delim
          simp only [dash, List.length_cons]
          omega
      | obj es =>
        simp only [height] at h
        rw [putItem, encodeItem]
        exact ih.objectItem _ _ _ (by omega)
    · intro es depth out h
      match es with
      | [] =>
        rw [putObjectItem, encodeObjectItem]
        exact Puts.line (by simp) out
      | (k, v) :: rest =>
        simp only [heightEntries] at h
        have hk := keyWrites_le k
        rw [putObjectItem.eq_def, encodeObjectItem.eq_def]
        have hrest : ∀ out, Puts opts.indent 0 (if rest.isEmpty = true then pure out else putObject opts s rest (depth + 1) none none none out)
            out (if rest.isEmpty = true then [] else encodeObject opts rest (depth + 1) none none none) := by
          intro out
          by_cases hr : rest.isEmpty = true
          · simp only [hr, if_true]
            exact Puts.none _ _
          · simp only [hr, if_false, Bool.false_eq_true]
            exact ih.object _ _ _ _ _ _ (by omega)
        simp only
        cases v with
        | prim p =>
          have := primWrites_le p opts.delim
          exact Puts.bind (s1 := 0) (s2 := 0) (Puts.line (by simp only [dash, List.length_append, List.length_cons]; omega) out) hrest
        | arr items =>
          simp only [height] at h ⊢
          cases (if isArrayOfObjs items then extractTabularHeader items else none) with
          | some header =>
            simp only
            refine Puts.bind (s1 := 0) (s2 := 0) (a := [⟨depth, dash (formatHeader items.length (some k) (some header) opts.delim)⟩])
              (Puts.line ?_ out) fun out => Puts.bind (s1 := 0) (s2 := 0) (putRows_puts opts _ _ _ out) hrest
            have := headerWrites_le items.length (some k) (some header) opts.delim
            simp only [dash, List.length_cons]
            omega
          | none =>
            by_cases h1 : items.isEmpty = true
            · simp only [h1, if_true]
              refine Puts.bind (s1 := 0) (s2 := 0) (Puts.line ?_ out) hrest
              have := headerWrites_le 0 none none opts.delim
              simp only [dash, List.length_append, List.length_cons]
              omega
            · simp only [h1, if_false, Bool.false_eq_true]
              by_cases h2 : isArrayOfPrims items = true
              · simp only [h2, if_true]
                refine Puts.bind (s1 := 0) (s2 := 0) (Puts.line ?_ out) hrest
                have := inlineWrites_le items opts.delim none
                simp only [dash, List.length_append, List.length_cons]
                omega
              · simp only [h2, if_false, Bool.false_eq_true]
                refine Puts.bind (s1 := 0) (s2 := 0)
                  (a := [⟨depth, dash (encodeKey k ++ formatHeader items.length none none opts.delim)⟩])
                  (Puts.line ?_ out) fun out => Puts.bind (s1 := 0) (s2 := 0) (items_put opts ih.item _ _ _ (by omega)) hrest
                have := headerWrites_le items.length none none opts.delim
                simp only [dash, List.length_append, List.length_cons]
                omega
        | obj es =>
          simp only [height] at h ⊢
          refine Puts.bind (s1 := 0) (s2 := 0) (a := [⟨depth, dash (encodeKey k ++ [':'])⟩])
            (Puts.line (by simp only [dash, List.length_append, List.length_cons]; omega) out) fun out => ?_
          by_cases h1 : es.isEmpty = true
          · simp only [h1, if_true]
            exact Puts.bind (s1 := 0) (s2 := 0) (Puts.none _ _) hrest
          · simp only [h1, if_false, Bool.false_eq_true]
            exact Puts.bind (s1 := 0) (s2 := 0) (ih.object _ _ _ _ _ _ (by omega)) hrest

theorem primWrites_ge (p : Prim F) (delim : Char) : (encodePrimitive p delim).length ≤ primWrites p delim := by
  cases p with
  | str s =>
    rw [primWrites, encodePrimitive]
    unfold stringWrites encodeStringLiteral
    split <;> omega
  | null => rw [primWrites]; omega; simp
  | bool b => rw [primWrites]; omega; simp
  | num x => rw [primWrites]; omega; simp

theorem putValue_puts (stack : Nat) (v : Json F) (h : max (3 * height v + 1) 2 ≤ stack) :
    Puts opts.indent 0 (putValue opts stack v) [] (encodeValue opts v) := by
  match stack with
  | 0 => omega
  | s + 1 =>
    rw [putValue.eq_def]
    cases v with
    | prim p =>
      have h1 := primWrites_le p opts.delim
      have h2 := primWrites_ge p opts.delim
      simp only [encodeValue]
      refine ⟨by simp [Run.result_bind], ?_, ?_⟩
      · rw [Run.steps_bind, Run.result_tick, Run.steps_tick]
        by_cases he : (encodePrimitive p opts.delim).isEmpty = true
        · simp [he, ink]
        · simp only [he, Bool.false_eq_true, if_false, ink, renderLine, List.map_cons, List.map_nil, List.sum_cons, List.sum_nil, Nat.mul_zero,
            List.replicate_zero, List.nil_append]
          omega
      · rw [Run.steps_bind, Run.result_tick, Run.steps_tick]
        simp only [Run.steps_pure]
        by_cases he : (encodePrimitive p opts.delim).isEmpty = true
        · rw [List.isEmpty_iff] at he
          rw [he] at h1
          simp only [List.length_nil] at h1
          omega
        · simp only [he, Bool.false_eq_true, if_false, ink, renderLine, List.map_cons, List.map_nil, List.sum_cons, List.sum_nil, Nat.mul_zero,
            List.replicate_zero, List.nil_append]
          omega
    | arr items =>
      simp only [height] at h
      exact (putRuns opts s).array none _ _ _ (by omega)
    | obj es =>
      simp only [height] at h
      exact (putRuns opts s).object _ _ _ _ _ _ (by omega)

theorem ink_text (ls : List OutLine) : ink opts.indent ls ≤ (joinWith '\n' (ls.map (renderLine opts.indent))).length ∧
    (joinWith '\n' (ls.map (renderLine opts.indent))).length ≤ ink opts.indent ls + ls.length := by
  constructor
  · have := sum_le_join '\n' (ls.map (renderLine opts.indent))
    rw [List.map_map] at this
    exact this
  · cases ls with
    | nil => simp [joinWith, ink]
    | cons l ls =>
      rw [List.map_cons, joinWith_cons_length, ink, List.map_cons, List.sum_cons, List.length_cons, List.map_map]
      have : (ls.map ((fun s : Str => s.length + 1) ∘ renderLine opts.indent)).sum =
          (ls.map fun l => (renderLine opts.indent l).length).sum + ls.length := by
        induction ls with
        | nil => rfl
        | cons l ls ih => simp only [List.map_cons, List.sum_cons, List.length_cons, ih, Function.comp_apply]; omega
      omega

end

end Toon
