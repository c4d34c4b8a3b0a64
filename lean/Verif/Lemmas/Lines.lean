import Verif.Lemmas.Main

/-! The form of written lines, and scanning them. -/

namespace Toon

/-- Line content: not empty, no white space at the ends, no line break. -/
structure LineOk (c : Str) : Prop where
  ne : c ≠ []
  edge : NoEdgeWs c
  lf : '\n' ∉ c
  cr : '\r' ∉ c

theorem LineOk.append {a m b : Str} (ha : LineOk a) (hlf : '\n' ∉ m) (hcr : '\r' ∉ m) (hb : LineOk b) :
    LineOk (a ++ m ++ b) := by
  refine ⟨by simp [ha.ne], ⟨?_, ?_⟩, by simp [ha.lf, hb.lf, hlf], by simp [ha.cr, hb.cr, hcr]⟩
  · intro c hc
    apply ha.edge.1 c
    cases a with
    | nil => exact absurd rfl ha.ne
    | cons x a => simpa using hc
  · intro c hc
    apply hb.edge.2 c
    rw [List.getLast?_append] at hc
    cases hb' : b.getLast? with
    | none => exact absurd (List.getLast?_eq_none_iff.mp hb') hb.ne
    | some x => rw [hb'] at hc; simpa using hc

theorem LineOk.append' {a b : Str} (ha : LineOk a) (hb : LineOk b) : LineOk (a ++ b) := by
  simpa using LineOk.append ha (m := []) (by simp) (by simp) hb

theorem lineOk_char {c : Char} (h : isWs c = false) : LineOk [c] := by
  refine ⟨by simp, ⟨?_, ?_⟩, ?_, ?_⟩
  · intro x hx; simp at hx; subst hx; exact h
  · intro x hx; simp at hx; subst hx; exact h
  · intro hx; simp at hx; subst hx; exact absurd h (by decide)
  · intro hx; simp at hx; subst hx; exact absurd h (by decide)

theorem TokForm.lineOk {d : Char} {t : Str} (h : TokForm d t) : LineOk t := ⟨h.ne_nil, h.edge, h.lf, h.cr⟩

theorem lineOk_join {d : Char} (hd : GoodDelim d) {ts : List Str} (hne : ts ≠ []) (h : ∀ t ∈ ts, TokForm d t) :
    LineOk (joinWith d ts) := by
  have hg := goodDelim_ne hd
  refine ⟨joinWith_ne_nil hne fun t ht => (h t ht).ne_nil,
    joinWith_noEdgeWs fun t ht => ⟨(h t ht).ne_nil, (h t ht).edge⟩, ?_, ?_⟩
  · intro hm
    rcases mem_joinWith hm with h1 | ⟨t, ht, hc⟩
    · exact hg.2.2.2.2.2.2.2.1 h1.symm
    · exact (h t ht).lf hc
  · intro hm
    rcases mem_joinWith hm with h1 | ⟨t, ht, hc⟩
    · exact hg.2.2.2.2.2.2.2.2.2 h1.symm
    · exact (h t ht).cr hc

theorem lineOk_header (n : Nat) (key : Option Str) (fields : Option (List Str)) {d : Char} (hd : GoodDelim d) :
    LineOk (formatHeader n key fields d) := by
  have hg := goodDelim_ne hd
  have hlf := lengthText_not_mem (n := n) hd (c := '\n') (by decide) (by decide)
  have hcr := lengthText_not_mem (n := n) hd (c := '\r') (by decide) (by decide)
  have h1 : LineOk ('[' :: lengthText n d ++ [']']) :=
    LineOk.append (lineOk_char (c := '[') (by decide)) hlf hcr (lineOk_char (c := ']') (by decide))
  have h2 : LineOk ('[' :: lengthText n d ++ [']'] ++ fieldsText fields d ++ [':']) := by
    have hc : LineOk [':'] := lineOk_char (by decide)
    refine LineOk.append h1 ?_ ?_ hc
    · cases fields with
      | none => simp [fieldsText]
      | some fs =>
        simp only [fieldsText]
        intro hm
        simp only [List.cons_append, List.mem_cons, List.mem_append, List.not_mem_nil, or_false] at hm
        rcases hm with hm | hm | hm
        · exact absurd hm (by decide)
        · rcases mem_joinWith hm with h1 | ⟨t, ht, hc⟩
          · exact hg.2.2.2.2.2.2.2.1 h1.symm
          · obtain ⟨f, _, rfl⟩ := List.mem_map.mp ht
            exact (encodeKey_tok hd f).lf hc
        · exact absurd hm (by decide)
    · cases fields with
      | none => simp [fieldsText]
      | some fs =>
        simp only [fieldsText]
        intro hm
        simp only [List.cons_append, List.mem_cons, List.mem_append, List.not_mem_nil, or_false] at hm
        rcases hm with hm | hm | hm
        · exact absurd hm (by decide)
        · rcases mem_joinWith hm with h1 | ⟨t, ht, hc⟩
          · exact hg.2.2.2.2.2.2.2.2.2 h1.symm
          · obtain ⟨f, _, rfl⟩ := List.mem_map.mp ht
            exact (encodeKey_tok hd f).cr hc
        · exact absurd hm (by decide)
  rw [formatHeader_eq]
  have e : '[' :: (lengthText n d ++ ']' :: (fieldsText fields d ++ [':'])) =
    '[' :: lengthText n d ++ [']'] ++ fieldsText fields d ++ [':'] := by simp
  rw [e]
  cases key with
  | none => simpa [keyText] using h2
  | some k => exact LineOk.append' (encodeKey_tok hd k).lineOk h2

theorem lineOk_dash {c : Str} (h : LineOk c) : LineOk (dash c) := by
  have := LineOk.append (lineOk_char (c := '-') (by decide)) (m := [' ']) (by simp) (by simp) h
  simpa [dash] using this

section
variable {F : Type} [F64 F] [LawfulF64 F]

theorem lineOk_joinPrims {d : Char} (hd : GoodDelim d) {ps : List (Prim F)} (hne : ps ≠ []) :
    LineOk (encodeAndJoin ps d) := by
  apply lineOk_join hd (by simpa using hne)
  intro t ht
  obtain ⟨p, _, rfl⟩ := List.mem_map.mp ht
  exact encodePrimitive_tok hd p

theorem lineOk_inline {d : Char} (hd : GoodDelim d) (items : List (Json F)) (key : Option Str) :
    LineOk (encodeInlineArrayLine items d key) := by
  unfold encodeInlineArrayLine
  simp only
  split
  · exact lineOk_header _ _ _ hd
  · rename_i h
    have := LineOk.append (lineOk_header items.length key none hd) (m := [' ']) (by simp) (by simp)
      (lineOk_joinPrims hd (ps := primsOf items) (by simpa using h))
    simpa using this

theorem lineOk_keyPrim {d : Char} (hd : GoodDelim d) (k : Str) (p : Prim F) :
    LineOk (encodeKey k ++ ':' :: ' ' :: encodePrimitive p d) := by
  have := LineOk.append (encodeKey_tok hd k).lineOk (m := [':', ' ']) (by simp) (by simp) (encodePrimitive_tok hd p).lineOk
  simpa using this

omit F [F64 F] [LawfulF64 F] in
theorem lineOk_keyColon (k : Str) : LineOk (encodeKey k ++ [':']) :=
  LineOk.append' (encodeKey_tok (d := ',') (Or.inl rfl) k).lineOk (lineOk_char (by decide))

theorem lineOk_arrayHead {opts : EncOpts} (hd : GoodDelim opts.delim) (key : Option Str) (items : List (Json F)) :
    LineOk (arrayHead opts key items) := by
  unfold arrayHead
  split
  · exact lineOk_inline hd items key
  · exact lineOk_header _ _ _ hd

/-- Lines between two depths, well formed. -/
def LinesIn (lo hi : Nat) (ls : List OutLine) : Prop :=
  ∀ l ∈ ls, LineOk l.content ∧ lo ≤ l.depth ∧ l.depth ≤ hi

omit F [F64 F] [LawfulF64 F] in
theorem LinesIn.nil (lo hi : Nat) : LinesIn lo hi [] := by intro l hl; simp at hl

omit F [F64 F] [LawfulF64 F] in
theorem LinesIn.cons {lo hi : Nat} {l : OutLine} {ls : List OutLine} (h : LineOk l.content) (h1 : lo ≤ l.depth)
    (h2 : l.depth ≤ hi) (hs : LinesIn lo hi ls) : LinesIn lo hi (l :: ls) := by
  intro x hx
  rcases List.mem_cons.mp hx with rfl | hx
  · exact ⟨h, h1, h2⟩
  · exact hs x hx

omit F [F64 F] [LawfulF64 F] in
theorem LinesIn.append {lo hi : Nat} {ls ls' : List OutLine} (h : LinesIn lo hi ls) (h' : LinesIn lo hi ls') :
    LinesIn lo hi (ls ++ ls') := by
  intro x hx
  rcases List.mem_append.mp hx with hx | hx
  · exact h x hx
  · exact h' x hx

omit F [F64 F] [LawfulF64 F] in
theorem LinesIn.mono {lo lo' hi hi' : Nat} (h1 : lo' ≤ lo) (h2 : hi ≤ hi') {ls : List OutLine} (h : LinesIn lo hi ls) :
    LinesIn lo' hi' ls := fun x hx => ⟨(h x hx).1, Nat.le_trans h1 (h x hx).2.1, Nat.le_trans (h x hx).2.2 h2⟩

omit [F64 F] [LawfulF64 F] in
theorem collectChain_height (budget : Nat) (v : Json F) : height (collectChain budget v).2 ≤ height v := by
  fun_induction collectChain budget v with
  | case1 v => exact Nat.le_refl _
  | case2 budget k v segs leaf hc ih =>
    simp only [hc] at ih ⊢
    simp only [height, heightEntries]
    omega
  | case3 => exact Nat.le_refl _

theorem linesIn_rows {opts : EncOpts} (hd : GoodDelim opts.delim) {items : List (Json F)} {cols : List Str}
    (h : tableHeader items = some cols) (depth : Nat) :
    LinesIn depth depth (tabularRows items cols depth opts.delim) := by
  obtain ⟨hc, htab, _⟩ := tableHeader_some h
  intro l hl
  unfold tabularRows at hl
  obtain ⟨row, hrow, he⟩ := List.mem_filterMap.mp hl
  cases row with
  | prim _ => simp at he
  | arr _ => simp at he
  | obj es =>
    simp only [Option.some.injEq] at he
    subst he
    have := List.all_eq_true.mp htab _ hrow
    simp only [isTabularRow, Bool.and_eq_true] at this
    obtain ⟨ps, e1, e2, _⟩ := rowPrims_ok this.2
    refine ⟨?_, Nat.le_refl _, Nat.le_refl _⟩
    simp only [rowValues, e1]
    apply lineOk_joinPrims hd
    intro hp
    subst hp
    simp at e2
    exact hc (List.length_eq_zero_iff.mp e2.symm)

omit [F64 F] [LawfulF64 F] in
theorem table_height {items : List (Json F)} {cols : List Str} (h : tableHeader items = some cols) :
    1 ≤ heightItems items := by
  obtain ⟨_, _, es, rest, rfl, _⟩ := tableHeader_some h
  simp only [heightItems, height]
  omega

mutual
theorem linesIn_object {opts : EncOpts} (hd : GoodDelim opts.delim) (entries : List (Str × Json F)) (depth : Nat)
    (rlk : Option (List Str)) (pp : Option Str) (rem : Option Nat) :
    LinesIn depth (depth + heightEntries entries) (encodeObject opts entries depth rlk pp rem) := by
  rw [encodeObject]
  exact linesIn_entries hd _ _ _ _ entries depth
termination_by (sizeOf entries, 3)

theorem linesIn_entries {opts : EncOpts} (hd : GoodDelim opts.delim) (siblings : List Str) (rlk : Option (List Str))
    (pp : Option Str) (fd : Nat) (entries : List (Str × Json F)) (depth : Nat) :
    LinesIn depth (depth + heightEntries entries) (encodeEntries opts siblings rlk pp fd entries depth) := by
  match entries with
  | [] => rw [encodeEntries]; exact LinesIn.nil _ _
  | (k, v) :: rest =>
    rw [encodeEntries]
    have h1 := linesIn_keyValue hd siblings rlk pp fd k v depth
    have h2 := linesIn_entries hd siblings rlk pp fd rest depth
    simp only [heightEntries]
    exact (h1.mono (Nat.le_refl _) (by omega)).append (h2.mono (Nat.le_refl _) (by omega))
termination_by (sizeOf entries, 2)

theorem linesIn_keyValue {opts : EncOpts} (hd : GoodDelim opts.delim) (siblings : List Str) (rlk : Option (List Str))
    (pp : Option Str) (fd : Nat) (key : Str) (value : Json F) (depth : Nat) :
    LinesIn depth (depth + height value) (encodeKeyValue opts siblings rlk pp fd key value depth) := by
  rw [encodeKeyValue_eq]
  cases hf : tryFold key value siblings opts rlk pp fd with
  | some folded =>
    simp only
    have hlt := tryFold_size hf
    have hh : height folded.leaf ≤ height value := by
      rw [(tryFold_some hf).2.2.2.2.2.2.1]
      exact collectChain_height _ _
    exact (linesIn_entry hd rlk _ _ folded.foldedKey folded.leaf depth).mono (Nat.le_refl _) (by omega)
  | none =>
    simp only
    exact linesIn_entry hd rlk _ _ key value depth
termination_by (sizeOf value, 1)
decreasing_by
  all_goals first
    | (apply Prod.Lex.left; assumption)
    | (apply Prod.Lex.right; decide)

theorem linesIn_entry {opts : EncOpts} (hd : GoodDelim opts.delim) (rlk : Option (List Str)) (path : Str) (fd : Nat)
    (key : Str) (value : Json F) (depth : Nat) :
    LinesIn depth (depth + height value) (writeEntry opts rlk path fd key value depth) := by
  match value with
  | .prim p =>
    simp only [writeEntry]
    exact LinesIn.cons (lineOk_keyPrim hd key p) (Nat.le_refl _) (by simp) (LinesIn.nil _ _)
  | .arr items =>
    simp only [writeEntry]
    rw [encodeArray_head_tail]
    exact LinesIn.cons (lineOk_arrayHead hd _ items) (Nat.le_refl _) (by simp)
      ((linesIn_tail hd items depth).mono (by omega) (by simp [height]))
  | .obj es =>
    simp only [writeEntry]
    exact LinesIn.cons (lineOk_keyColon key) (Nat.le_refl _) (by simp)
      ((linesIn_object hd es (depth + 1) _ _ _).mono (by omega) (by simp only [height]; omega))
termination_by (sizeOf value, 0)

theorem linesIn_tail {opts : EncOpts} (hd : GoodDelim opts.delim) (items : List (Json F)) (depth : Nat) :
    LinesIn (depth + 1) (depth + (heightItems items + 1)) (arrayTail opts items depth) := by
  rw [arrayTail]
  split
  · exact LinesIn.nil _ _
  · cases ht : tableHeader items with
    | some cols =>
      exact (linesIn_rows hd ht (depth + 1)).mono (by omega) (by omega)
    | none => exact (linesIn_items hd items (depth + 1)).mono (by omega) (by omega)
termination_by (sizeOf items, 4)

theorem linesIn_items {opts : EncOpts} (hd : GoodDelim opts.delim) (items : List (Json F)) (depth : Nat) :
    LinesIn depth (depth + heightItems items) (encodeItems opts items depth) := by
  match items with
  | [] => rw [encodeItems]; exact LinesIn.nil _ _
  | v :: vs =>
    rw [encodeItems]
    have h1 := linesIn_item hd v depth
    have h2 := linesIn_items hd vs depth
    simp only [heightItems]
    exact (h1.mono (Nat.le_refl _) (by omega)).append (h2.mono (Nat.le_refl _) (by omega))
termination_by (sizeOf items, 3)

theorem linesIn_item {opts : EncOpts} (hd : GoodDelim opts.delim) (value : Json F) (depth : Nat) :
    LinesIn depth (depth + height value) (encodeItem opts value depth) := by
  match value with
  | .prim p =>
    rw [encodeItem]
    exact LinesIn.cons (lineOk_dash (encodePrimitive_tok hd p).lineOk) (Nat.le_refl _) (by simp) (LinesIn.nil _ _)
  | .arr items =>
    rw [encodeItem]
    split
    · exact LinesIn.cons (lineOk_dash (lineOk_inline hd items none)) (Nat.le_refl _) (by simp) (LinesIn.nil _ _)
    · exact LinesIn.cons (lineOk_dash (lineOk_header _ _ _ hd)) (Nat.le_refl _) (by simp)
        ((linesIn_items hd items (depth + 1)).mono (by omega) (by simp only [height]; omega))
  | .obj es =>
    rw [encodeItem]
    exact linesIn_objectItem hd es depth
termination_by (sizeOf value, 1)

theorem linesIn_objectItem {opts : EncOpts} (hd : GoodDelim opts.delim) (entries : List (Str × Json F)) (depth : Nat) :
    LinesIn depth (depth + height (.obj entries)) (encodeObjectItem opts entries depth) := by
  match entries with
  | [] =>
    rw [encodeObjectItem]
    exact LinesIn.cons (lineOk_char (by decide)) (Nat.le_refl _) (by simp) (LinesIn.nil _ _)
  | (k, v) :: rest =>
    have hrest := linesIn_object hd rest (depth + 1) none none none
    rw [encodeObjectItem_cons]
    simp only [height, heightEntries]
    refine LinesIn.append ?_ (hrest.mono (by omega) (by omega))
    match v with
    | .prim p =>
      exact LinesIn.cons (lineOk_dash (lineOk_keyPrim hd k p)) (Nat.le_refl _) (by simp) (LinesIn.nil _ _)
    | .arr items =>
      exact LinesIn.cons (lineOk_dash (lineOk_arrayHead hd _ items)) (Nat.le_refl _) (by simp)
        ((linesIn_tail hd items (depth + 1)).mono (by omega) (by simp only [height]; omega))
    | .obj es =>
      exact LinesIn.cons (lineOk_dash (lineOk_keyColon k)) (Nat.le_refl _) (by simp)
        ((linesIn_object hd es (depth + 2) _ _ _).mono (by omega) (by simp only [height]; omega))
termination_by (sizeOf entries, 0)
end

/-- All lines of an encoding. -/
theorem linesIn_value {opts : EncOpts} (hd : GoodDelim opts.delim) (v : Json F) :
    LinesIn 0 (height v) (encodeValue opts v) := by
  unfold encodeValue
  split
  · rename_i p
    simp only
    split
    · exact LinesIn.nil _ _
    · exact LinesIn.cons (encodePrimitive_tok hd p).lineOk (Nat.le_refl _) (by simp) (LinesIn.nil _ _)
  · rename_i items
    rw [encodeArray_head_tail]
    exact LinesIn.cons (lineOk_arrayHead hd _ items) (Nat.le_refl _) (by simp)
      ((linesIn_tail hd items 0).mono (by omega) (by simp [height]))
  · rename_i es
    exact (linesIn_object hd es 0 none none none).mono (Nat.le_refl _) (by simp only [height]; omega)

end

/-! ## Scanning -/

theorem takeWhile_replicate (n : Nat) {c : Str} (h : ∀ x, c.head? = some x → x ≠ ' ') :
    (List.replicate n ' ' ++ c).takeWhile (· == ' ') = List.replicate n ' ' := by
  induction n with
  | zero =>
    cases c with
    | nil => rfl
    | cons x c => simp [h x rfl]
  | succ n ih => rw [List.replicate_succ, List.cons_append, List.takeWhile_cons]; simp [ih]

theorem takeWhile_replicate' (n : Nat) {c : Str} (h : ∀ x, c.head? = some x → x ≠ ' ' ∧ x ≠ '\t') :
    (List.replicate n ' ' ++ c).takeWhile (fun x => x == ' ' || x == '\t') = List.replicate n ' ' := by
  induction n with
  | zero =>
    cases c with
    | nil => rfl
    | cons x c => simp [h x rfl]
  | succ n ih => rw [List.replicate_succ, List.cons_append, List.takeWhile_cons]; simp [ih]

theorem parseLine_render {indent : Nat} (hi : 0 < indent) {l : OutLine} (hl : LineOk l.content) (num : Nat) (strict : Bool) :
    parseLine (renderLine indent l) num indent strict = .ok (.line ⟨l.depth, l.content, num⟩) := by
  have hh : ∀ x, l.content.head? = some x → x ≠ ' ' ∧ x ≠ '\t' := by
    intro x hx
    have := hl.edge.1 x hx
    constructor <;> (intro h; subst h; exact absurd this (by decide))
  unfold parseLine renderLine
  simp only
  rw [takeWhile_replicate _ (fun x hx => (hh x hx).1), takeWhile_replicate' _ hh]
  simp only [List.length_replicate]
  rw [List.drop_left' (by simp), trim_ne_of hl.ne hl.edge]
  have hdep : computeDepth (indent * l.depth) indent = l.depth := by
    unfold computeDepth
    rw [if_neg (by omega), Nat.mul_div_cancel_left _ hi]
  rw [hdep]
  have hnt : (List.replicate (indent * l.depth) ' ').contains '\t' = false := by
    apply Bool.eq_false_iff.mpr
    intro h
    have := List.eq_of_mem_replicate (List.elem_iff.mp h)
    exact absurd this (by decide)
  rw [hnt]
  simp only [Bool.false_eq_true, if_false, Nat.mul_mod_right, bne_self_eq_false, Bool.and_false,
    show indent ≠ 0 by omega]
  split <;> rfl

theorem parseLines_render {indent : Nat} (hi : 0 < indent) (strict : Bool) (ls : List OutLine)
    (h : ∀ l ∈ ls, LineOk l.content) (num : Nat) :
    ∃ lines, parseLines indent strict (ls.map (renderLine indent)) num = .ok (lines, []) ∧ Proj lines ls := by
  induction ls generalizing num with
  | nil => exact ⟨[], rfl, rfl⟩
  | cons l ls ih =>
    obtain ⟨lines, h1, h2⟩ := ih (fun l' hl' => h l' (by simp [hl'])) (num + 1)
    refine ⟨⟨l.depth, l.content, num + 1⟩ :: lines, ?_, Proj.cons_iff.mpr ⟨⟨rfl, rfl⟩, h2⟩⟩
    rw [List.map_cons, parseLines, parseLine_render hi (h l (by simp)), h1]

/-! ## The whole document -/

section
variable {F : Type} [F64 F] [LawfulF64 F]

omit F [F64 F] [LawfulF64 F] in
theorem tok_not_kvLine {d : Char} {t : Str} (ht : TokForm d t) : isKeyValueLine t = false := by
  unfold isKeyValueLine
  rcases ht with ⟨s, rfl⟩ | ⟨_, _, hq, _, hall⟩
  · rw [if_pos (by simp [quoted])]
    have := findClosingQuote_quoted s []
    rw [List.append_nil] at this
    rw [this]
    simp only
    rw [List.drop_of_length_le]
    · rfl
    · have := quoted_length s; omega
  · rw [if_neg (by intro h; exact hq (List.mem_of_mem_head? h))]
    simpa using hall ':' (by simp)

theorem decodeLines_written {ctx : Ctx} (hb : ctx.blanks = []) {opts : EncOpts} (hd : GoodDelim opts.delim)
    {v : Json F} (hw : Writable true v) (hn : Normal v) {lines : List Line} (hp : Proj lines (encodeValue opts v)) :
    decodeLines ctx lines = .ok (emitEvents (shape opts v)) := by
  unfold decodeLines
  cases v with
  | prim p =>
    simp only [Normal] at hn
    have ht := encodePrimitive_tok hd p
    simp only [encodeValue] at hp
    rw [if_neg (by simpa using ht.ne_nil)] at hp
    obtain ⟨l, ls, rfl, hdp, hc, hp⟩ := Proj.cons hp
    rw [Proj.nil_iff.mp hp]
    simp only [rootHeader, hc, tok_not_arr ht, Bool.false_eq_true, if_false, bind, Except.bind, List.isEmpty_nil,
      tok_not_kvLine ht, Bool.not_false, Bool.and_self, if_true, trim_eq_self ht.edge, parsePrimitive_encode p hn,
      pure, Except.pure, shape, emitEvents]
  | arr items =>
    simp only [Normal] at hn
    simp only [encodeValue] at hp
    rw [encodeArray_head_tail] at hp
    obtain ⟨l, ls, rfl, hdp, hc, hp⟩ := Proj.cons hp
    have hs := array_spec hb hd none items 0 hw hn
    obtain ⟨n, fields, d, suffix, hd', hform⟩ := hs.form
    obtain ⟨hh, hparse, _, _, hdec⟩ := hs.parse
    have harr : isArrayHeaderContent (arrayHead opts none items) = true := by
      rw [hform]; exact arrayHeader_none n fields hd' suffix
    obtain ⟨last', e⟩ := hdec ls [] (some l) (5 * (l :: ls).length + 5) hp (by intro l hl; simp at hl)
      (by simp only [List.length_cons]; omega)
    rw [List.append_nil] at e
    simp only [rootHeader, hc, harr, if_true, hparse, bind, Except.bind, e, pure, Except.pure, shape]
  | obj es =>
    simp only [Writable] at hw
    simp only [Normal] at hn
    simp only [encodeValue] at hp
    have hs := object_kvList hb hd es 0 none none none hw hn
    simp only [shape, emitEvents]
    generalize encodeObject opts es 0 none none none = os at hs hp
    generalize shapeObject opts es 0 none none none = es' at hs
    cases hs with
    | nil =>
      rw [Proj.nil_iff.mp hp]
      rfl
    | @cons c tl ls0 k v es0 h1 h2 =>
      rw [List.cons_append] at hp
      obtain ⟨l, ls, rfl, hdp, hc, hp⟩ := Proj.cons hp
      obtain ⟨l1, l2, rfl, hp1, hp2⟩ := hp.split
      have hr : RestLe 0 (l2 ++ []) := h2.restLe hp2 (by intro l hl; simp at hl)
      rw [List.append_nil] at hr
      obtain ⟨last1, e1⟩ := h1.2 l1 l2 (some l) (5 * (l :: (l1 ++ l2)).length + 5) hp1 hr
        (by simp only [List.length_cons, List.length_append]; omega)
      obtain ⟨last2, e2⟩ := h2.root l2 last1 (5 * (l :: (l1 ++ l2)).length + 5) hp2
        (by simp only [List.length_cons, List.length_append]; omega)
      simp only [rootHeader, hc, h1.1.arr, Bool.false_eq_true, if_false, bind, Except.bind, h1.1.kvl, Bool.not_true,
        Bool.and_false, e1, e2, pure, Except.pure, emitEntries, List.cons_append]

/-- The decoder reads the encoder's lines and returns the events of the denoted value. -/
theorem decodeStream_written {opts : EncOpts} (hi : 0 < opts.indent) (hd : GoodDelim opts.delim) (strict : Bool)
    {v : Json F} (hw : Writable true v) (hn : Normal v) :
    decodeStream opts.indent strict (encodeJsonValue opts v) = .ok (emitEvents (shape opts v)) := by
  obtain ⟨lines, h1, h2⟩ := parseLines_render hi strict (encodeValue opts v)
    (fun l hl => (linesIn_value hd v l hl).1) 0
  unfold decodeStream encodeJsonValue
  simp only [h1, bind, Except.bind]
  exact decodeLines_written rfl hd hw hn h2

end

end Toon
