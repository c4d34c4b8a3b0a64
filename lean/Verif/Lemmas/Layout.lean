import Verif.Spec.Layout
import Verif.Lemmas.Ident
import Verif.Lemmas.Main
import Verif.Lemmas.Cells

/-! # The encoder writes the layout -/

namespace Toon

/-! ## Tokens -/

theorem digitChar_toDigits (n : Nat) (h : n < 10) : digitChar n = Nat.digitChar n := by
  match n, h with
  | 0, _ => rfl | 1, _ => rfl | 2, _ => rfl | 3, _ => rfl | 4, _ => rfl
  | 5, _ => rfl | 6, _ => rfl | 7, _ => rfl | 8, _ => rfl | 9, _ => rfl

theorem natDigitsAux_toDigits (fuel n : Nat) (h : n < fuel) : natDigitsAux fuel n [] = Nat.toDigits 10 n := by
  induction fuel generalizing n with
  | zero => omega
  | succ f ih =>
    rw [natDigitsAux, Nat.toDigits_eq_if (by omega)]
    split
    · rename_i hn; rw [digitChar_toDigits n hn]
    · rw [natDigitsAux_acc, ih _ (by omega), digitChar_toDigits _ (by omega)]

theorem natDigits_toString (n : Nat) : natDigits n = (toString n).toList := by
  rw [natDigits, natDigitsAux_toDigits _ _ (by omega), Nat.toString_eq_repr, Nat.repr, String.toList_ofList]

theorem escapedChar_eq (c : Char) : escapedChar c = escapeChar c := by
  unfold escapedChar escapeChar legalEscapes
  by_cases h1 : c = '\\'
  · subst h1; rfl
  by_cases h2 : c = '"'
  · subst h2; rfl
  by_cases h3 : c = '\n'
  · subst h3; rfl
  by_cases h4 : c = '\r'
  · subst h4; rfl
  by_cases h5 : c = '\t'
  · subst h5; rfl
  rw [if_neg h1, if_neg h2, if_neg h3, if_neg h4, if_neg h5]
  have b : ∀ x : Char, c ≠ x → (x == c) = false := fun x h => by simp; exact fun e => h e.symm
  simp only [List.find?, b _ h1, b _ h2, b _ h3, b _ h4, b _ h5]

theorem quotedText_eq (s : Str) : quotedText s = '"' :: escapeString s ++ ['"'] := by
  unfold quotedText escapeString
  rw [show escapedChar = escapeChar from funext escapedChar_eq]

theorem keyTextOf_eq (k : Str) : keyTextOf k = encodeKey k := by
  unfold keyTextOf encodeKey
  rw [bareKey_eq, quotedText_eq]

section
variable {F : Type} [F64 F]

theorem tokenText_eq (d : Char) (p : Prim F) : tokenText d p = encodePrimitive p d := by
  cases p with
  | null => rfl
  | bool b => cases b <;> rfl
  | num x =>
    simp only [tokenText, encodePrimitive, formatNumber]
    split
    · rfl
    · cases F64.isFinite x <;> rfl
  | str s =>
    simp only [tokenText, encodePrimitive, encodeStringLiteral]
    by_cases h : isSafeUnquoted s d = true
    · rw [if_pos ((isSafeUnquoted_plain s d).mp h), if_pos h]
    · rw [if_neg (fun hp => h ((isSafeUnquoted_plain s d).mpr hp)), if_neg h, quotedText_eq]

omit [F64 F] in
theorem separated_eq (d : Char) (ws : List Str) : separated d ws = joinWith d ws := by
  fun_induction separated d ws with
  | case1 => rfl
  | case2 w => rfl
  | case3 w ws h ih => rw [joinWith, ih]; exact h

theorem cellsText_eq (d : Char) (ps : List (Prim F)) : cellsText d ps = encodeAndJoin ps d := by
  unfold cellsText encodeAndJoin
  rw [separated_eq]
  congr 1
  exact List.map_congr_left fun p _ => tokenText_eq d p

omit [F64 F] in
theorem lengthMark_eq (d : Char) (n : Nat) : lengthMark d n = '[' :: (lengthText n d ++ [']']) := by
  unfold lengthMark lengthText
  rw [natDigits_toString]
  simp

omit [F64 F] in
theorem tableText_eq (d : Char) (cols : List Str) (n : Nat) : tableText d cols n = formatHeader n none (some cols) d := by
  rw [formatHeader_eq, tableText, lengthMark_eq, separated_eq]
  rw [show cols.map keyTextOf = cols.map encodeKey from List.map_congr_left fun k _ => keyTextOf_eq k]
  simp [keyText, fieldsText]

omit [F64 F] in
theorem listText_eq (d : Char) (n : Nat) : lengthMark d n ++ [':'] = formatHeader n none none d := by
  rw [formatHeader_eq, lengthMark_eq]
  simp [keyText, fieldsText]

theorem inlineText_eq (d : Char) {items : List (Json F)} {ps : List (Prim F)} (h : ArePrims items ps) :
    inlineText d ps = encodeInlineArrayLine items d none := by
  have hp : primsOf items = ps := by
    subst h
    induction ps with
    | nil => rfl
    | cons p ps ih => simp only [List.map_cons, primsOf, ih]
  have hl : items.length = ps.length := by rw [h]; simp
  unfold inlineText encodeInlineArrayLine
  simp only [hp, hl, ← listText_eq, cellsText_eq]
  cases ps <;> simp

/-! ## Chains -/

omit [F64 F] in
theorem collectChain_longest (b : Nat) (v : Json F) :
    v = nested (collectChain b v).1 (collectChain b v).2 ∧ (collectChain b v).1.length ≤ b ∧
      ((collectChain b v).1.length = b ∨ ∀ k w, (collectChain b v).2 ≠ .obj [(k, w)]) := by
  fun_induction collectChain b v with
  | case1 v => exact ⟨rfl, Nat.le_refl _, Or.inl rfl⟩
  | case2 b k v segs leaf h ih =>
    simp only [h] at ih ⊢
    obtain ⟨i1, i2, i3⟩ := ih
    refine ⟨by rw [nested, ← i1], by simpa using i2, ?_⟩
    rcases i3 with i3 | i3
    · left; simpa using i3
    · exact Or.inr i3
  | case3 b v h =>
    refine ⟨rfl, by simp, Or.inr ?_⟩
    intro k w e
    exact h k w e

omit [F64 F] in
theorem collectChain_unique (ks : List Str) (leaf : Json F) : ∀ b, ks.length ≤ b → (ks.length = b ∨ ∀ k w, leaf ≠ .obj [(k, w)]) →
    collectChain b (nested ks leaf) = (ks, leaf) := by
  induction ks with
  | nil =>
    intro b _ h
    rw [nested]
    unfold collectChain
    split
    · rfl
    · rcases h with h | h
      · simp at h
      · exact absurd rfl (h _ _)
    · rfl
  | cons s ss ih =>
    intro b hb h
    cases b with
    | zero => simp at hb
    | succ b =>
      rw [nested, collectChain, ih b (by simp at hb; omega)]
      rcases h with h | h
      · left; simpa using h
      · exact Or.inr h

/-- The keys of the root, as the encoder keeps them. -/
def TakenIs (rlk : Option (List Str)) (taken : List Str) : Prop := rlk = some taken ∨ (rlk = none ∧ taken = [])

/-- The path, as the encoder keeps it. -/
def PathIs (pp : Option Str) (path : List Str) : Prop := pp = if path = [] then none else some (dotted path)

omit [F64 F] in
theorem dotted_append {a b : List Str} (ha : a ≠ []) (hb : b ≠ []) : dotted (a ++ b) = dotted a ++ '.' :: dotted b := by
  induction a with
  | nil => exact absurd rfl ha
  | cons x a ih =>
    cases a with
    | nil =>
      cases b with
      | nil => exact absurd rfl hb
      | cons y b => rfl
    | cons y a =>
      have := ih (by simp)
      simp only [List.cons_append, dotted] at this ⊢
      rw [this]; simp

omit [F64 F] in
theorem extendPath_is {pp : Option Str} {path : List Str} (h : PathIs pp path) (ks : List Str) (hk : ks ≠ []) :
    extendPath pp (dotted ks) = dotted (path ++ ks) := by
  unfold PathIs at h
  subst h
  by_cases hp : path = []
  · subst hp; rfl
  · rw [if_neg hp, dotted_append hp hk]; rfl

omit [F64 F] in
theorem pathIs_extend {path ks : List Str} (hk : ks ≠ []) : PathIs (some (dotted (path ++ ks))) (path ++ ks) := by
  unfold PathIs
  rw [if_neg]
  intro h
  exact hk (List.append_eq_nil_iff.mp h).2

omit [F64 F] in
theorem tryFold_foldable {opts : EncOpts} {siblings taken path : List Str} {rlk : Option (List Str)} {pp : Option Str}
    (ht : TakenIs rlk taken) (hp : PathIs pp path) (fd : Nat) (k : Str) (v : Json F) :
    (∃ ks leaf, opts.fold = true ∧ Foldable siblings taken path fd k v ks leaf ∧
      tryFold k v siblings opts rlk pp fd = some ⟨dotted (k :: ks), leaf, (k :: ks).length⟩) ∨
    ((opts.fold = true → ¬ ∃ ks leaf, Foldable siblings taken path fd k v ks leaf) ∧
      tryFold k v siblings opts rlk pp fd = none) := by
  by_cases hf : opts.fold ≠ true
  · right
    refine ⟨fun h => absurd h hf, ?_⟩
    unfold tryFold
    rw [if_pos (by simpa using hf)]
  have hf : opts.fold = true := Classical.not_not.mp hf
  by_cases hx : ∃ ks leaf, Foldable siblings taken path fd k v ks leaf
  · left
    obtain ⟨ks, leaf, hx⟩ := hx
    refine ⟨ks, leaf, hf, hx, ?_⟩
    obtain ⟨⟨rfl, h1, h2⟩, h3, h4, h5, h6⟩ := hx
    have hc := collectChain_unique ks leaf (fd - 1) (by omega) (by
      rcases h2 with h2 | h2
      · left; omega
      · exact Or.inr h2)
    have hk : ks.length ≠ 0 := by simpa using h3
    unfold tryFold
    rw [if_neg (by simp [hf]), if_neg (by
      cases ks with
      | nil => exact absurd rfl h3
      | cons => simp [nested, Json.isObj]), if_neg (by omega)]
    simp only [hc]
    rw [if_neg (by simp only [List.length_cons]; omega), if_neg (by
      simp only [Bool.not_eq_true', Bool.not_eq_false]
      apply List.all_eq_true.mpr
      intro s hs
      rw [← identifier_eq]; exact h4 s hs), ← dotted_eq, if_neg (by simpa using h5)]
    rcases ht with rfl | ⟨rfl, rfl⟩
    · dsimp only
      rw [if_neg]
      rw [extendPath_is hp _ (by simp)]
      simpa using h6
    · rfl
  · right
    refine ⟨fun _ => hx, ?_⟩
    cases hr : tryFold k v siblings opts rlk pp fd with
    | none => rfl
    | some r =>
      exfalso
      apply hx
      obtain ⟨_, h2, h3, h4, h5, h6, h7, h8, h9, h10⟩ := tryFold_some hr
      obtain ⟨c1, c2, c3⟩ := collectChain_longest (fd - 1) v
      refine ⟨_, _, ⟨c1, by omega, ?_⟩, h5, ?_, ?_, ?_⟩
      · rcases c3 with c3 | c3
        · left; omega
        · exact Or.inr c3
      · intro s hs; rw [identifier_eq]; exact h4 s hs
      · rw [dotted_eq, ← h6]; exact h9
      · rcases ht with rfl | ⟨rfl, rfl⟩
        · have := h10 _ rfl
          rw [h6, ← dotted_eq, extendPath_is hp _ (by simp)] at this
          exact this
        · simp

/-! ## The induction -/

/-- Lines as pairs. -/
def rowsIn (ls : List OutLine) : List Row := ls.map fun l => (l.depth, l.content)

omit [F64 F] in
theorem rowsIn_append (a b : List OutLine) : rowsIn (a ++ b) = rowsIn a ++ rowsIn b := by simp [rowsIn]

omit [F64 F] in
theorem rowsIn_cons (a : OutLine) (b : List OutLine) : rowsIn (a :: b) = (a.depth, a.content) :: rowsIn b := rfl

theorem arrayHead_key (opts : EncOpts) (k : Str) (items : List (Json F)) :
    arrayHead opts (some k) items = encodeKey k ++ arrayHead opts none items := by
  unfold arrayHead
  split
  · rw [keyText_inline]
  · rw [formatHeader_eq, formatHeader_eq]; simp [keyText]

omit [F64 F] in
theorem arePrims_iff (items : List (Json F)) : (∃ ps, ArePrims items ps) ↔ isArrayOfPrims items = true := by
  constructor
  · rintro ⟨ps, rfl⟩
    simp [isArrayOfPrims, Json.isPrim]
  · intro h; exact ⟨_, primsOf_all h⟩

omit [F64 F] in
theorem tableCells_of (cols : List Str) (items : List (Json F))
    (h : ∀ item ∈ items, ∃ es, item = .obj es ∧ ∀ c ∈ cols, ∃ p, lookupKey c es = some (.prim p)) :
    TableCells cols items (rowsOf items cols) ∧ (rowsOf items cols).length = items.length := by
  induction items with
  | nil => exact ⟨.nil, rfl⟩
  | cons v vs ih =>
    obtain ⟨i1, i2⟩ := ih (fun w hw => h w (by simp [hw]))
    obtain ⟨es, rfl, hc⟩ := h v (by simp)
    have hr : Pointwise (fun c p => lookupKey c es = some (.prim p)) cols (rowValues es cols) := by
      clear ih i1 i2 h
      have : ∃ ps, rowPrims es cols = .ok ps ∧ Pointwise (fun c p => lookupKey c es = some (.prim p)) cols ps := by
        induction cols with
        | nil => exact ⟨[], rfl, .nil⟩
        | cons c cols ih =>
          obtain ⟨ps, h1, h2⟩ := ih (fun c hc' => hc c (by simp [hc']))
          obtain ⟨p, hp⟩ := hc c (by simp)
          refine ⟨p :: ps, ?_, .cons hp h2⟩
          rw [rowPrims, ← lookupKey_eq, hp]
          simp only [h1]
      obtain ⟨ps, h1, h2⟩ := this
      rw [rowValues, h1]; exact h2
    have e : rowsOf (.obj es :: vs) cols = rowValues es cols :: rowsOf vs cols := by simp [rowsOf]
    rw [e]
    exact ⟨.cons ⟨es, rfl, hr⟩ i1, by simp [i2]⟩

omit [F64 F] in
theorem itemsLayout_length {fold : Bool} {n : Nat} {items : List (Json F)} {ls : List (Layout F)}
    (h : ItemsLayout fold n items ls) : ls.length = items.length := by
  induction items generalizing ls with
  | nil => cases h; rfl
  | cons v vs ih => cases h; rename_i h; simp [ih h]

/-- The first entry of an object in a list, after the text `head`. -/
def firstRows (opts : EncOpts) (head : Str) (depth : Nat) : Json F → List OutLine
  | .prim p => [⟨depth, head ++ ':' :: ' ' :: encodePrimitive p opts.delim⟩]
  | .arr items => ⟨depth, head ++ arrayHead opts none items⟩ :: arrayTail opts items (depth + 1)
  | .obj es => ⟨depth, head ++ [':']⟩ :: encodeObject opts es (depth + 2) none none none

mutual

theorem entries_layout (opts : EncOpts) (siblings taken path : List Str) (rlk : Option (List Str)) (pp : Option Str) (fd : Nat)
    (ht : TakenIs rlk taken) (hp : PathIs pp path) (entries : List (Str × Json F)) :
    ∃ ls, EntriesLayout opts.fold opts.flattenDepth siblings taken path fd entries ls ∧
      ∀ depth, rowsIn (encodeEntries opts siblings rlk pp fd entries depth) = Layout.entriesRows opts.delim depth ls := by
  match entries with
  | [] => exact ⟨[], .nil, fun depth => by rw [encodeEntries, Layout.entriesRows]; rfl⟩
  | (k, v) :: rest =>
    obtain ⟨ls, h1, h2⟩ := entries_layout opts siblings taken path rlk pp fd ht hp rest
    rcases tryFold_foldable (opts := opts) (siblings := siblings) ht hp fd k v with ⟨ks, leaf, hf, hfo, he⟩ | ⟨hn, he⟩
    · have hlt : sizeOf leaf < sizeOf v := tryFold_size he
      obtain ⟨l, g1, g2⟩ := entry_layout opts taken (path ++ k :: ks) rlk (fd - (k :: ks).length) ht (by simp) leaf
      refine ⟨(dotted (k :: ks), l) :: ls, .folded hf hfo g1 h1, ?_⟩
      intro depth
      rw [encodeEntries, Layout.entriesRows, rowsIn_append, h2, encodeKeyValue_eq, he]
      dsimp only
      rw [extendPath_is hp _ (by simp), g2]
    · obtain ⟨l, g1, g2⟩ := entry_layout opts taken (path ++ [k]) rlk fd ht (by simp) v
      refine ⟨(k, l) :: ls, .plain hn g1 h1, ?_⟩
      intro depth
      rw [encodeEntries, Layout.entriesRows, rowsIn_append, h2, encodeKeyValue_eq, he]
      dsimp only
      rw [show k = dotted [k] from rfl, extendPath_is hp _ (by simp), g2]
termination_by (sizeOf entries, 2)

theorem entry_layout (opts : EncOpts) (taken path : List Str) (rlk : Option (List Str)) (fd : Nat)
    (ht : TakenIs rlk taken) (hp : path ≠ []) (value : Json F) :
    ∃ l, ValueLayout opts.fold opts.flattenDepth taken path fd value l ∧
      ∀ key depth, rowsIn (writeEntry opts rlk (dotted path) fd key value depth) =
        l.entryRows opts.delim (keyTextOf key) depth (depth + 1) := by
  match value with
  | .prim p =>
    refine ⟨.prim p, .prim p, fun key depth => ?_⟩
    rw [writeEntry, Layout.entryRows, keyTextOf_eq, tokenText_eq]; rfl
  | .arr items =>
    obtain ⟨l, h1, h2⟩ := array_layout opts items
    refine ⟨l, h1 _ _ _, fun key depth => ?_⟩
    rw [writeEntry]
    rw [encodeArray_head_tail, rowsIn_cons, arrayHead_key, ← h2, keyTextOf_eq]
  | .obj es =>
    obtain ⟨ls, h1, h2⟩ := entries_layout opts (es.map Prod.fst) taken path rlk (some (dotted path)) fd ht
      (by unfold PathIs; rw [if_neg hp]) es
    refine ⟨.object ls, .object h1, fun key depth => ?_⟩
    rw [writeEntry, Layout.entryRows]
    rw [encodeObject, rootLiterals_pos (by omega), rowsIn_cons]
    dsimp only [Option.getD]
    rw [h2, keyTextOf_eq]
termination_by (sizeOf value, 5)

theorem array_layout (opts : EncOpts) (items : List (Json F)) :
    ∃ l, (∀ taken path fd, ValueLayout opts.fold opts.flattenDepth taken path fd (.arr items) l) ∧
      ∀ head depth inner, (depth, head ++ arrayHead opts none items) :: rowsIn (arrayTail opts items inner) =
        l.entryRows opts.delim head depth (inner + 1) := by
  by_cases hprim : isArrayOfPrims items = true
  · obtain ⟨ps, hps⟩ := (arePrims_iff items).mpr hprim
    refine ⟨.inline ps, fun _ _ _ => .inline hps, fun head depth inner => ?_⟩
    rw [arrayHead, arrayTail, if_pos hprim, if_pos hprim, Layout.entryRows, inlineText_eq _ hps]; rfl
  · have hnp : ¬ ∃ ps, ArePrims items ps := fun h => hprim ((arePrims_iff items).mp h)
    cases hh : tableHeader items with
    | some cols =>
      have htab := isTable_of_header hh
      obtain ⟨c1, c2⟩ := tableCells_of cols items (fun item hi => by
        obtain ⟨es, e1, _, e3⟩ := htab.2.2 item hi; exact ⟨es, e1, e3⟩)
      refine ⟨.table cols (rowsOf items cols), fun _ _ _ => .table htab c1, fun head depth inner => ?_⟩
      rw [arrayHead, arrayTail, if_neg hprim, if_neg hprim, hh, Layout.entryRows, tableText_eq, c2]
      dsimp only
      rw [tabularRows_eq, rowsIn, List.map_map]
      congr 1
      exact List.map_congr_left fun r _ => by simp [cellsText_eq]
    | none =>
      obtain ⟨ls, h1, h2⟩ := items_layout opts items
      refine ⟨.list ls, fun _ _ _ => .list hnp ?_ h1, fun head depth inner => ?_⟩
      · rintro ⟨cols, hc⟩
        rw [header_of_isTable hc] at hh; cases hh
      · rw [arrayHead, arrayTail, if_neg hprim, if_neg hprim, hh, Layout.entryRows, List.append_assoc, listText_eq]
        dsimp only
        rw [h2]
        rw [(itemsLayout_length h1)]
termination_by (sizeOf items, 4)

theorem items_layout (opts : EncOpts) (items : List (Json F)) :
    ∃ ls, ItemsLayout opts.fold opts.flattenDepth items ls ∧
      ∀ depth, rowsIn (encodeItems opts items depth) = Layout.itemsRows opts.delim depth ls := by
  match items with
  | [] => exact ⟨[], .nil, fun depth => by rw [encodeItems, Layout.itemsRows]; rfl⟩
  | v :: vs =>
    obtain ⟨l, h1, h2⟩ := item_layout opts v
    obtain ⟨ls, g1, g2⟩ := items_layout opts vs
    refine ⟨l :: ls, .cons h1 g1, fun depth => ?_⟩
    rw [encodeItems, rowsIn_append, h2, g2, Layout.itemsRows]
termination_by (sizeOf items, 3)

theorem item_layout (opts : EncOpts) (value : Json F) :
    ∃ l, ItemLayout opts.fold opts.flattenDepth value l ∧
      ∀ depth, rowsIn (encodeItem opts value depth) = l.itemRows opts.delim depth := by
  match value with
  | .prim p =>
    refine ⟨.prim p, .prim p, fun depth => ?_⟩
    rw [encodeItem, Layout.itemRows, tokenText_eq]; rfl
  | .arr items =>
    by_cases hprim : isArrayOfPrims items = true
    · obtain ⟨ps, hps⟩ := (arePrims_iff items).mpr hprim
      refine ⟨.inline ps, .inline hps, fun depth => ?_⟩
      rw [encodeItem, if_pos hprim, Layout.itemRows, inlineText_eq _ hps]; rfl
    · have hnp : ¬ ∃ ps, ArePrims items ps := fun h => hprim ((arePrims_iff items).mp h)
      obtain ⟨ls, h1, h2⟩ := items_layout opts items
      refine ⟨.list ls, .list hnp h1, fun depth => ?_⟩
      rw [encodeItem, if_neg hprim, Layout.itemRows, rowsIn_cons, h2, listText_eq, itemsLayout_length h1]; rfl
  | .obj [] =>
    refine ⟨.object [], .empty, fun depth => ?_⟩
    rw [encodeItem, encodeObjectItem, Layout.itemRows]; rfl
  | .obj ((k, v) :: es) =>
    obtain ⟨l, h1, h2⟩ := first_layout opts v
    obtain ⟨ls, g1, g2⟩ := entries_layout opts (es.map Prod.fst) [] [] none none opts.flattenDepth (.inr ⟨rfl, rfl⟩) rfl es
    refine ⟨.object ((k, l) :: ls), .object h1 g1, fun depth => ?_⟩
    rw [encodeItem, encodeObjectItem_cons, rowsIn_append, Layout.itemRows]
    have e : encodeObject opts es (depth + 1) none none none =
        encodeEntries opts (es.map Prod.fst) none none opts.flattenDepth es (depth + 1) := by
      rw [encodeObject, rootLiterals_pos (by omega)]; rfl
    rw [e, g2, ← h2]
    congr 1
    rw [keyTextOf_eq]
    unfold firstRows
    cases v <;> simp only [dash, List.cons_append, arrayHead_key, List.append_assoc]
termination_by (sizeOf value, 1)

theorem first_layout (opts : EncOpts) (value : Json F) :
    ∃ l, ValueLayout opts.fold opts.flattenDepth [] [] opts.flattenDepth value l ∧
      ∀ head depth, rowsIn (firstRows opts head depth value) = l.entryRows opts.delim head depth (depth + 2) := by
  match value with
  | .prim p =>
    refine ⟨.prim p, .prim p, fun key depth => ?_⟩
    rw [firstRows, Layout.entryRows, tokenText_eq]; rfl
  | .arr items =>
    obtain ⟨l, h1, h2⟩ := array_layout opts items
    refine ⟨l, h1 _ _ _, fun key depth => ?_⟩
    rw [firstRows, rowsIn_cons, ← h2]
  | .obj es =>
    obtain ⟨ls, h1, h2⟩ := entries_layout opts (es.map Prod.fst) [] [] none none opts.flattenDepth (.inr ⟨rfl, rfl⟩) rfl es
    refine ⟨.object ls, .object h1, fun key depth => ?_⟩
    rw [firstRows, Layout.entryRows, encodeObject, rootLiterals_pos (by omega), rowsIn_cons]
    dsimp only [Option.getD]
    rw [h2]
termination_by (sizeOf value, 5)

end

/-! ## There is one layout -/

omit [F64 F] in
theorem pointwise_unique {α β : Type} {R : α → β → Prop} (hR : ∀ a b b', R a b → R a b' → b = b') {as : List α} {bs bs' : List β}
    (h : Pointwise R as bs) (h' : Pointwise R as bs') : bs = bs' := by
  induction h generalizing bs' with
  | nil => cases h'; rfl
  | cons hab _ ih => cases h' with
    | cons hab' ht => rw [hR _ _ _ hab hab', ih ht]

omit [F64 F] in
theorem arePrims_unique {items : List (Json F)} {ps ps' : List (Prim F)} (h : ArePrims items ps) (h' : ArePrims items ps') :
    ps = ps' := by
  unfold ArePrims at h h'
  rw [h] at h'
  clear h
  induction ps generalizing ps' with
  | nil => cases ps' with
    | nil => rfl
    | cons => simp at h'
  | cons p ps ih => cases ps' with
    | nil => simp at h'
    | cons p' ps' =>
      simp only [List.map_cons, List.cons.injEq, Json.prim.injEq] at h'
      rw [h'.1, ih h'.2]

omit [F64 F] in
theorem tableCells_unique {cols : List Str} {items : List (Json F)} {rows rows' : List (List (Prim F))}
    (h : TableCells cols items rows) (h' : TableCells cols items rows') : rows = rows' := by
  refine pointwise_unique ?_ h h'
  rintro item r r' ⟨es, rfl, h1⟩ ⟨es', e, h2⟩
  cases e
  refine pointwise_unique ?_ h1 h2
  intro c p p' hp hp'
  rw [hp] at hp'
  simpa using hp'

omit [F64 F] in
theorem isTable_unique {items : List (Json F)} {cols cols' : List Str} (h : IsTable items cols) (h' : IsTable items cols') :
    cols = cols' := by
  have a := header_of_isTable h
  rw [header_of_isTable h'] at a
  simpa using a.symm

omit [F64 F] in
theorem table_not_prims {items : List (Json F)} {cols : List Str} (h : IsTable items cols) : ¬ ∃ ps, ArePrims items ps := by
  rintro ⟨ps, hp⟩
  obtain ⟨_, ⟨es, rest, rfl, _⟩, _⟩ := h
  cases ps with
  | nil => simp [ArePrims] at hp
  | cons => simp [ArePrims] at hp

omit [F64 F] in
theorem foldable_unique {siblings taken path : List Str} {fd : Nat} {k : Str} {v : Json F} {ks ks' : List Str} {leaf leaf' : Json F}
    (h : Foldable siblings taken path fd k v ks leaf) (h' : Foldable siblings taken path fd k v ks' leaf') :
    ks = ks' ∧ leaf = leaf' := by
  have key : ∀ {ks leaf}, Foldable siblings taken path fd k v ks leaf → collectChain (fd - 1) v = (ks, leaf) := by
    rintro ks leaf ⟨⟨rfl, h1, h2⟩, _⟩
    apply collectChain_unique ks leaf (fd - 1) (by omega)
    rcases h2 with h2 | h2
    · left; omega
    · exact Or.inr h2
  have a := key h
  rw [key h'] at a
  simp only [Prod.mk.injEq] at a
  exact ⟨a.1.symm, a.2.symm⟩

omit [F64 F] in
theorem nested_size (ks : List Str) (leaf : Json F) (h : ks ≠ []) : sizeOf leaf < sizeOf (nested ks leaf) := by
  induction ks with
  | nil => exact absurd rfl h
  | cons k ks ih =>
    cases ks with
    | nil => simp only [nested]; simp; omega
    | cons k' ks =>
      have := ih (by simp)
      rw [nested]
      simp only [Json.obj.sizeOf_spec, List.cons.sizeOf_spec, Prod.mk.sizeOf_spec, List.nil.sizeOf_spec]
      omega

omit [F64 F] in
mutual

theorem value_unique {fold : Bool} {n : Nat} {taken path : List Str} {fd : Nat} (v : Json F) {l l' : Layout F}
    (h : ValueLayout fold n taken path fd v l) (h' : ValueLayout fold n taken path fd v l') : l = l' := by
  match v with
  | .prim p => cases h; cases h'; rfl
  | .arr items =>
    cases h with
    | inline h1 => cases h' with
      | inline g1 => rw [arePrims_unique h1 g1]
      | table g1 _ => exact absurd ⟨_, h1⟩ (table_not_prims g1)
      | list g1 _ _ => exact absurd ⟨_, h1⟩ g1
    | table h1 h2 => cases h' with
      | inline g1 => exact absurd ⟨_, g1⟩ (table_not_prims h1)
      | table g1 g2 =>
        obtain rfl := isTable_unique h1 g1
        rw [tableCells_unique h2 g2]
      | list _ g2 _ => exact absurd ⟨_, h1⟩ g2
    | list h1 h2 h3 => cases h' with
      | inline g1 => exact absurd ⟨_, g1⟩ h1
      | table g1 _ => exact absurd ⟨_, g1⟩ h2
      | list _ _ g3 => rw [items_unique items h3 g3]
  | .obj es =>
    cases h with
    | object h1 => cases h' with
      | object g1 => rw [entries_unique es h1 g1]
termination_by sizeOf v

theorem entries_unique {fold : Bool} {n : Nat} {siblings taken path : List Str} {fd : Nat} (es : List (Str × Json F))
    {ls ls' : List (Str × Layout F)} (h : EntriesLayout fold n siblings taken path fd es ls)
    (h' : EntriesLayout fold n siblings taken path fd es ls') : ls = ls' := by
  match es with
  | [] => cases h; cases h'; rfl
  | (k, v) :: es =>
    cases h with
    | @folded _ _ _ _ _ _ ks leaf l _ ls h1 h2 h3 h4 => cases h' with
      | folded g1 g2 g3 g4 =>
        have hlt : sizeOf leaf < sizeOf v := by
          have := nested_size ks leaf h2.2.1
          rw [← h2.1.1] at this; exact this
        obtain ⟨rfl, rfl⟩ := foldable_unique h2 g2
        rw [value_unique leaf h3 g3, entries_unique es h4 g4]
      | plain g1 _ _ => exact absurd ⟨_, _, h2⟩ (g1 h1)
    | plain h1 h2 h3 => cases h' with
      | folded g1 g2 _ _ => exact absurd ⟨_, _, g2⟩ (h1 g1)
      | plain _ g2 g3 => rw [value_unique v h2 g2, entries_unique es h3 g3]
termination_by sizeOf es

theorem item_unique {fold : Bool} {n : Nat} (v : Json F) {l l' : Layout F}
    (h : ItemLayout fold n v l) (h' : ItemLayout fold n v l') : l = l' := by
  match v with
  | .prim p => cases h; cases h'; rfl
  | .arr items =>
    cases h with
    | inline h1 => cases h' with
      | inline g1 => rw [arePrims_unique h1 g1]
      | list g1 _ => exact absurd ⟨_, h1⟩ g1
    | list h1 h2 => cases h' with
      | inline g1 => exact absurd ⟨_, g1⟩ h1
      | list _ g2 => rw [items_unique items h2 g2]
  | .obj [] => cases h; cases h'; rfl
  | .obj ((k, v) :: es) =>
    cases h with
    | object h1 h2 => cases h' with
      | object g1 g2 => rw [value_unique v h1 g1, entries_unique es h2 g2]
termination_by sizeOf v

theorem items_unique {fold : Bool} {n : Nat} (vs : List (Json F)) {ls ls' : List (Layout F)}
    (h : ItemsLayout fold n vs ls) (h' : ItemsLayout fold n vs ls') : ls = ls' := by
  match vs with
  | [] => cases h; cases h'; rfl
  | v :: vs =>
    cases h with
    | cons h1 h2 => cases h' with
      | cons g1 g2 => rw [item_unique v h1 g1, items_unique vs h2 g2]
termination_by sizeOf vs

end

/-! ## The whole value -/

theorem encodePrimitive_ne_nil [LawfulF64 F] (p : Prim F) (d : Char) : encodePrimitive p d ≠ [] := by
  cases p with
  | null => simp [encodePrimitive]
  | bool b => cases b <;> simp [encodePrimitive]
  | str s =>
    simp only [encodePrimitive, encodeStringLiteral]
    split
    · rename_i h
      exact ((isSafeUnquoted_plain s d).mp h).1
    · simp
  | num x =>
    simp only [encodePrimitive, formatNumber]
    split
    · simp
    · split
      · simp
      · rename_i h1 h2
        simp only [Bool.not_eq_true, Bool.not_eq_eq_eq_not, Bool.not_true, Bool.not_eq_false] at h1 h2
        exact plainDecimal_ne_nil (LawfulF64.display_plain x h2 h1)

theorem document_layout [LawfulF64 F] (opts : EncOpts) (v : Json F) :
    ∃ l, DocumentLayout opts.fold opts.flattenDepth v l ∧ rowsIn (encodeValue opts v) = l.documentRows opts.delim := by
  match v with
  | .prim p =>
    refine ⟨.prim p, .prim p, ?_⟩
    have hne : (encodePrimitive p opts.delim).isEmpty = false := by
      rw [← Bool.not_eq_true, List.isEmpty_iff]
      exact encodePrimitive_ne_nil p opts.delim
    rw [encodeValue]
    simp only [hne]
    rw [Layout.documentRows, tokenText_eq]; rfl
  | .arr items =>
    obtain ⟨l, h1, h2⟩ := array_layout opts items
    refine ⟨l, h1 _ _ _, ?_⟩
    rw [encodeValue]
    rw [encodeArray_head_tail, rowsIn_cons, ← List.nil_append (arrayHead opts none items), h2]
    cases h1 [] [] 0 <;> rfl
  | .obj es =>
    obtain ⟨ls, h1, h2⟩ := entries_layout opts (es.map Prod.fst) (dottedKeys (.obj es)) [] (some (dottedKeys (.obj es))) none
      opts.flattenDepth (.inl rfl) rfl es
    refine ⟨.object ls, .object h1, ?_⟩
    rw [encodeValue]
    rw [encodeObject, Layout.documentRows, ← h2]
    congr 2
    simp [rootLiterals, dottedKeys]

end

end Toon
