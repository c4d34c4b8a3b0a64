import Verif.Spec.Complaints
import Verif.Lemmas.FaultRoot
import Verif.Lemmas.ResourcesSize

/-! The error of the decoder says something true about the text. -/

namespace Toon

theorem trim_infix (s : Str) : trim s <:+: s := by
  unfold trim trimEnd trimStart
  have h1 : List.dropWhile isWs s <:+ s := List.dropWhile_suffix _
  have h2 : ∀ t : Str, (List.dropWhile isWs t.reverse).reverse <+: t := by
    intro t
    have := List.dropWhile_suffix isWs (l := t.reverse)
    rw [← List.reverse_prefix, List.reverse_reverse] at this
    exact this
  exact (h2 _).isInfix.trans h1.isInfix

theorem splitsInto_infix {d : Char} {text : Str} {ps : List Str} (h : SplitsInto d text ps) : ∀ p ∈ ps, p <:+: text := by
  induction h with
  | last _ => intro p hp; simp at hp; subst hp; exact List.infix_refl _
  | @cut p rest ps _ _ _ ih =>
    intro q hq
    rcases List.mem_cons.mp hq with rfl | hq
    · exact (List.prefix_append _ _).isInfix
    · exact (ih q hq).trans (List.IsSuffix.isInfix ⟨p ++ [d], by simp⟩)

theorem cells_infix {d : Char} {text : Str} {cells : List Str} (h : Cells d text cells) : ∀ c ∈ cells, c <:+: text := by
  rcases h with ⟨rfl, rfl⟩ | ⟨_, ps, h1, rfl⟩
  · simp
  · intro c hc
    obtain ⟨p, hp, rfl⟩ := List.mem_map.mp hc
    exact (trim_infix p).trans (splitsInto_infix h1 p hp)

theorem afterBracket_infix {b after : Str} {cols : Option Str} (h : AfterBracket b cols after) :
    after <:+: b ∧ ∀ c, cols = some c → c <:+: b := by
  cases h with
  | @columns u cols w after _ _ _ _ =>
    refine ⟨⟨u ++ '{' :: cols ++ '}' :: w ++ [':'], [], by simp⟩, ?_⟩
    intro c hc
    simp only [Option.some.injEq] at hc
    subst hc
    exact ⟨u ++ ['{'], '}' :: w ++ ':' :: after, by simp⟩
  | @plain u after _ _ => exact ⟨⟨u ++ [':'], [], by simp⟩, by simp⟩
  | @unclosed u u' after _ _ _ _ _ => exact ⟨⟨u ++ '{' :: u' ++ [':'], [], by simp⟩, by simp⟩

theorem headerShape_infix {content pre seg after : Str} {cols : Option Str} (h : HeaderShape content pre seg cols after) :
    pre <:+: content ∧ ('[' :: seg ++ [']']) <:+: content ∧ after <:+: content ∧ ∀ c, cols = some c → c <:+: content := by
  obtain ⟨rest, h1, _, h2⟩ := h
  have h3 := (findBracketStart_before h1).1
  obtain ⟨h4, h5⟩ := afterBracket_infix h2
  have hr : rest <:+: content := ⟨pre ++ '[' :: seg ++ [']'], [], by rw [h3]; simp⟩
  exact ⟨⟨[], '[' :: (seg ++ ']' :: rest), by rw [h3]; simp⟩, ⟨pre, rest, by rw [h3]; simp⟩, h4.trans hr, fun c hc => (h5 c hc).trans hr⟩

theorem Appears.sub {source : List Str} {a b : Str} (h : Appears source b) (hs : a <:+: b) : Appears source a := by
  obtain ⟨raw, h1, h2⟩ := h
  exact ⟨raw, h1, hs.trans h2⟩

theorem EndsLine.appears {source : List Str} {a : Str} (h : EndsLine source a) : Appears source a := by
  obtain ⟨raw, h1, h2⟩ := h
  exact ⟨raw, h1, h2.isInfix⟩

theorem EndsLine.sub {source : List Str} {a b : Str} (h : EndsLine source b) (hs : a <:+ b) : EndsLine source a := by
  obtain ⟨raw, h1, h2⟩ := h
  exact ⟨raw, h1, hs.trans h2⟩

section
variable {strict expand : Bool} {indent : Nat} {source : List Str}

theorem literalFault_complaint {t : Str} {e : Err} (h : LiteralFault t e) (ha : Appears source t) :
    Complaint strict expand indent source e := by
  cases h with
  | unclosed h => exact ⟨_, ha, h⟩
  | followed h1 h2 => exact ⟨_, _, ha, h1, h2⟩
  | @escape a b s c h1 _ h2 => exact ⟨ha.sub ⟨'"' :: a, b ++ ['"'], by simp⟩, h2⟩

theorem tokenFault_complaint {F : Type} [F64 F] {cells : List Str} {e : Err} (h : TokenFault F cells e)
    (ha : ∀ c ∈ cells, Appears source c) : Complaint strict expand indent source e := by
  obtain ⟨good, bad, more, _, rfl, _, h⟩ := h
  exact literalFault_complaint h (ha bad (by simp))

theorem columnFault_complaint {cells : List Str} {e : Err} (h : ColumnFault cells e)
    (ha : ∀ c ∈ cells, Appears source c) : Complaint strict expand indent source e := by
  obtain ⟨good, bad, more, _, rfl, _, h⟩ := h
  exact literalFault_complaint h (ha bad (by simp))

theorem headerFault_complaint {content : Str} {e : Err} (h : HeaderFault content e) (ha : EndsLine source content) :
    Complaint strict expand indent source e := by
  have ha := ha.appears
  cases h with
  | @unclosed ws text _ h => exact ⟨text, ha.sub ⟨ws, [], by simp⟩, h⟩
  | @key _ pre _ _ _ _ hs h => exact literalFault_complaint h (ha.sub ((trim_infix pre).trans (headerShape_infix hs).1))
  | length hs _ hl hn => exact ⟨hn, _, _, ha.sub (headerShape_infix hs).2.1, hl⟩
  | columns hs _ _ _ hc hf =>
    exact columnFault_complaint hf fun c hcc => ha.sub ((cells_infix hc c hcc).trans ((headerShape_infix hs).2.2.2 _ rfl))

theorem keyFault_complaint {content : Str} {e : Err} (h : KeyFault content e) (ha : EndsLine source content) :
    Complaint strict expand indent source e := by
  cases h with
  | bare _ h => exact ⟨_, ha, Or.inl h⟩
  | @literal body rest _ _ h => exact literalFault_complaint h (ha.appears.sub ⟨[], rest, by simp⟩)
  | quoted h1 h2 => exact ⟨_, ha, Or.inr ⟨_, _, rfl, quotedDenotes_literal h1, h2⟩⟩

theorem headerMeans_inline {content text : Str} {h : Header} (hm : HeaderMeans content h) (hi : h.inline = some text) :
    text <:+: content := by
  obtain ⟨pre, seg, cols, after, hs, _, _, _, _, hx⟩ := hm
  rcases hx with ⟨_, hx⟩ | ⟨_, hx⟩
  · rw [hi] at hx; simp at hx
  · rw [hi] at hx
    simp only [Option.some.injEq] at hx
    subst hx
    exact (trim_infix after).trans (headerShape_infix hs).2.2.1

/-- The line stands in the source. -/
def Sourced (source : List Str) (l : Line) : Prop := ∃ raw, LineAt source l.num raw ∧ l.content <:+ raw ∧ ¬ BlankLine raw

theorem LineAt.mem {n : Nat} {raw : Str} (h : LineAt source n raw) : raw ∈ source := by
  obtain ⟨b, a, rfl, _⟩ := h; simp

theorem Sourced.ends {l : Line} (h : Sourced source l) : EndsLine source l.content := by
  obtain ⟨raw, h1, h2, _⟩ := h
  exact ⟨raw, h1.mem, h2⟩

theorem firstBlank_complaint {blanks : List Nat} {body : List Line} {b : Nat} {table : Bool} {h : Header}
    (hb : ∀ n ∈ blanks, ∃ raw, LineAt source n raw ∧ BlankLine raw) (hl : ∀ l ∈ body, Sourced source l) (hs : strict = true)
    (hh : HeaderIn source h) (hi : h.inline = none) (ht : table = true ↔ ∃ c cs, h.fields = some (c :: cs))
    (hf : FirstBlankWithin blanks body b) : Complaint strict expand indent source (.blankLine b table) := by
  obtain ⟨first, last, before, after, h1, h2, h3, h4, h5, _⟩ := hf
  obtain ⟨ra, ha1, _, ha2⟩ := hl first (List.mem_of_mem_head? h1)
  obtain ⟨rb, hb1, _, hb2⟩ := hl last (List.mem_of_mem_getLast? h2)
  exact ⟨hs, hb b (by rw [h3]; simp), ⟨_, _, _, _, h4, h5, ha1, hb1, ha2, hb2⟩, h, hh, hi, ht⟩

variable {F : Type} [F64 F]

theorem itemsMean_length {strict : Bool} {blanks : List Nat} : ∀ {n depth : Nat} {rest rest' : List Line} {ts : List (ETree F)},
    ItemsMean strict blanks n depth rest ts rest' → ts.length ≤ n
  | _, _, _, _, _, .stop _ => Nat.zero_le _
  | _, _, _, _, _, .item _ _ hb => by simp only [List.length_cons]; exact Nat.succ_le_succ (itemsMean_length hb)

theorem list_table {h : Header} (hf : h.fields = none ∨ h.fields = some []) : (false = true ↔ ∃ c cs, h.fields = some (c :: cs)) := by
  rcases hf with hf | hf <;> simp [hf]

theorem rows_table {h : Header} {fields : List FieldName} (hf : h.fields = some fields) (hn : fields ≠ []) :
    (true = true ↔ ∃ c cs, h.fields = some (c :: cs)) := by
  cases fields with
  | nil => exact absurd rfl hn
  | cons c cs => simp [hf]

mutual
theorem entry_complaint {blanks : List Nat} (hb : ∀ n ∈ blanks, ∃ raw, LineAt source n raw ∧ BlankLine raw) :
    ∀ {depth : Nat} {content : Str} {rest : List Line} {e : Err}, EntryFails F strict blanks depth content rest e →
    EndsLine source content → (∀ l ∈ rest, Sourced source l) → Complaint strict expand indent source e
  | _, _, _, _, .header h, hc, _ => headerFault_complaint h hc
  | _, _, _, _, .array hm _ ha, hc, hr => array_complaint hb ha hm hc hr
  | _, _, _, _, .key _ h, hc, _ => keyFault_complaint h hc
  | _, _, _, _, .value (after := after) _ hk h, hc, _ => literalFault_complaint h <| by
      refine hc.appears.sub ((trim_infix after).trans ?_)
      cases hk with
      | @quoted body _ after _ => exact ⟨'"' :: body ++ ['"', ':'], [], by simp⟩
      | @bare a after _ _ => exact ⟨a ++ [':'], [], by simp⟩
  | _, _, _, _, .object _ _ _ _ h, _, hr => block_complaint hb h hr
theorem block_complaint {blanks : List Nat} (hb : ∀ n ∈ blanks, ∃ raw, LineAt source n raw ∧ BlankLine raw) :
    ∀ {inList : Bool} {depth : Nat} {rest : List Line} {e : Err}, BlockFails F strict blanks inList depth rest e →
    (∀ l ∈ rest, Sourced source l) → Complaint strict expand indent source e
  | _, _, _, _, .here _ _ h, hr => entry_complaint hb h (hr _ List.mem_cons_self).ends (fun l hl => hr l (List.mem_cons_of_mem _ hl))
  | _, _, _, _, .later _ _ he h, hr =>
    block_complaint hb h (fun l hl => hr l (List.mem_cons_of_mem _ ((entry_suffix he).subset hl)))
theorem array_complaint {blanks : List Nat} (hb : ∀ n ∈ blanks, ∃ raw, LineAt source n raw ∧ BlankLine raw) :
    ∀ {depth : Nat} {h : Header} {content : Str} {rest : List Line} {e : Err}, ArrayFails F strict blanks depth h rest e →
    HeaderMeans content h → EndsLine source content → (∀ l ∈ rest, Sourced source l) → Complaint strict expand indent source e
  | _, _, _, _, _, .inlineToken hi hc hf, hm, hs, _ =>
    tokenFault_complaint hf fun c hcc => hs.appears.sub ((cells_infix hc c hcc).trans (headerMeans_inline hm hi))
  | _, _, _, _, _, .inlineCount hi hc _ hst hl, hm, hs, _ => ⟨hst, hl, _, _, _, ⟨_, hs, hm⟩, rfl, hi, hc, rfl⟩
  | _, _, _, _, _, .row (line := line) _ hf _ _ _ _ _ hfault, hm, hs, hr => by
      have hl : EndsLine source line.content := (hr line (by simp)).ends
      cases hfault with
      | count hc hst hne => exact ⟨hst, hne, _, _, _, _, ⟨_, hs, hm⟩, hf, rfl, hl, hc, rfl⟩
      | token hc _ ht => exact tokenFault_complaint ht fun c hcc => hl.appears.sub (cells_infix hc c hcc)
  | _, _, _, _, _, .rows hi hf hne _ _ hlt _ hst, hm, hs, _ => ⟨hst, hlt, _, _, ⟨_, hs, hm⟩, rfl, hi, hf, hne⟩
  | _, _, _, _, _, .rowsBlank hi hf hne _ _ _ hst hbl, hm, hs, hr =>
    firstBlank_complaint hb (fun l hl => hr l (List.mem_append_left _ hl)) hst ⟨_, hs, hm⟩ hi (rows_table hf hne) hbl
  | _, _, _, _, _, .rowsExtra hi hf hne _ _ _ hst _ hx, hm, hs, hr => by
      obtain ⟨line, more, rfl, _, _, hlr⟩ := hx
      exact ⟨hst, _, _, _, ⟨_, hs, hm⟩, rfl, hi, hf, hne, (hr line (by simp)).ends, hlr⟩
  | _, _, _, _, _, .item _ _ h, _, _, hr => items_complaint hb h hr
  | _, _, _, _, _, .items hi hf h hst hl, hm, hs, _ =>
    ⟨hst, Nat.lt_of_le_of_ne (itemsMean_length h) hl, _, ⟨_, hs, hm⟩, rfl, hi, hf⟩
  | _, _, _, _, _, .itemsBlank hi hf _ hst _ hbl, hm, hs, hr =>
    firstBlank_complaint hb (fun l hl => hr l (List.mem_append_left _ hl)) hst ⟨_, hs, hm⟩ hi (list_table hf) hbl
  | _, _, _, _, _, .itemsExtra hi hf _ hst _ _ hx, hm, hs, hr => by
      obtain ⟨line, more, rfl, _, hlr⟩ := hx
      exact ⟨hst, _, _, ⟨_, hs, hm⟩, rfl, hi, hf, (hr line (by simp)).ends, hlr⟩
theorem items_complaint {blanks : List Nat} (hb : ∀ n ∈ blanks, ∃ raw, LineAt source n raw ∧ BlankLine raw) :
    ∀ {n depth : Nat} {rest : List Line} {e : Err}, ItemsFail F strict blanks n depth rest e →
    (∀ l ∈ rest, Sourced source l) → Complaint strict expand indent source e
  | _, _, _, _, .here _ h, hr => item_complaint hb h (hr _ List.mem_cons_self).ends (fun l hl => hr l (List.mem_cons_of_mem _ hl))
  | _, _, _, _, .later _ hi h, hr =>
    items_complaint hb h (fun l hl => hr l (List.mem_cons_of_mem _ ((item_suffix hi).subset hl)))
theorem item_complaint {blanks : List Nat} (hb : ∀ n ∈ blanks, ∃ raw, LineAt source n raw ∧ BlankLine raw) :
    ∀ {depth : Nat} {content : Str} {rest : List Line} {e : Err}, ItemFails F strict blanks depth content rest e →
    EndsLine source content → (∀ l ∈ rest, Sourced source l) → Complaint strict expand indent source e
  | _, _, _, _, .header h, hc, _ => headerFault_complaint h (hc.sub ⟨['-', ' '], rfl⟩)
  | _, _, _, _, .array _ _ hm ha, hc, hr => array_complaint hb ha hm (hc.sub ⟨['-', ' '], rfl⟩) hr
  | _, _, _, _, .entry _ _ h, hc, hr => entry_complaint hb h (hc.sub ⟨['-', ' '], rfl⟩) hr
  | _, _, _, _, .block _ _ he h, _, hr => block_complaint hb h (fun l hl => hr l ((entry_suffix he).subset hl))
  | _, _, _, _, .token (after := after) _ _ h, hc, _ =>
    literalFault_complaint h (hc.appears.sub ((trim_infix after).trans ⟨['-', ' '], [], by simp⟩))
end

theorem document_complaint {blanks : List Nat} {lines : List Line} {e : Err}
    (hb : ∀ n ∈ blanks, ∃ raw, LineAt source n raw ∧ BlankLine raw) (hl : ∀ l ∈ lines, Sourced source l)
    (h : DocumentFails F strict blanks lines e) : Complaint strict expand indent source e := by
  cases h with
  | header _ _ h => exact headerFault_complaint h (hl _ List.mem_cons_self).ends
  | array _ _ hm ha => exact array_complaint hb ha hm (hl _ List.mem_cons_self).ends (fun l h => hl l (List.mem_cons_of_mem _ h))
  | @token line _ _ h => exact literalFault_complaint h ((hl line List.mem_cons_self).ends.appears.sub (trim_infix _))
  | entry _ _ h => exact entry_complaint hb h (hl _ List.mem_cons_self).ends (fun l h => hl l (List.mem_cons_of_mem _ h))
  | block _ he h => exact block_complaint hb h (fun l h => hl l (List.mem_cons_of_mem _ ((entry_suffix he).subset h)))

theorem scansTo_sourced {indent : Nat} {strict : Bool} {n : Nat} {rest : List Str} {ls : List Line} {bs : List Nat}
    (h : ScansTo indent strict n rest ls bs) : ∀ before, source = before ++ rest → n = before.length →
    (∀ l ∈ ls, Sourced source l) ∧ ∀ b ∈ bs, ∃ raw, LineAt source b raw ∧ BlankLine raw := by
  induction h with
  | nil => intro _ _ _; simp
  | @blank n raw rest ls bs hr _ ih =>
    intro before hs hn
    obtain ⟨h1, h2⟩ := ih (before ++ [raw]) (by simpa using hs) (by simp [hn])
    refine ⟨h1, ?_⟩
    intro b hb
    rcases List.mem_cons.mp hb with rfl | hb
    · exact ⟨raw, ⟨before, rest, hs, by rw [hn]⟩, hr⟩
    · exact h2 b hb
  | @line n spaces content rest ls bs hr _ _ _ ih =>
    intro before hs hn
    obtain ⟨h1, h2⟩ := ih (before ++ [List.replicate spaces ' ' ++ content]) (by simpa using hs) (by simp [hn])
    refine ⟨?_, h2⟩
    intro l hl
    rcases List.mem_cons.mp hl with rfl | hl
    · refine ⟨_, ⟨before, rest, hs, by rw [hn]⟩, List.suffix_append _ _, ?_⟩
      intro hbl
      exact hr fun c hc => hbl c (by simp [hc])
    · exact h1 l hl

theorem scanFails_complaint {e : Err} (hs : strict = true) (h : ScanFails indent source e) : Complaint strict expand indent source e := by
  cases h with
  | @tab before after spaces content ls bs _ hb hh =>
    refine ⟨hs, spaces, content.drop 1, ?_, ?_⟩
    · cases content with
      | nil => simp at hh
      | cons c content =>
        simp only [List.head?_cons, Option.some.injEq] at hh
        subst hh
        exact ⟨before, after, rfl, rfl⟩
    · cases content with
      | nil => simp at hh
      | cons c content =>
        simp only [List.head?_cons, Option.some.injEq] at hh
        subst hh
        intro hbl
        apply hb
        intro c hc
        rcases List.mem_cons.mp hc with rfl | hc
        · decide
        · exact hbl c hc
  | @spaces before after spaces content ls bs _ hb h1 h2 h3 =>
    exact ⟨hs, rfl, h3, content, ⟨before, after, rfl, rfl⟩, h1, hb⟩

theorem textFails_complaint {e : Err} (h : TextFails F strict indent source e) : Complaint strict expand indent source e := by
  cases h with
  | scan hs h => exact scanFails_complaint hs h
  | document hs hd =>
    obtain ⟨h1, h2⟩ := scansTo_sourced hs [] rfl rfl
    exact document_complaint h2 h1 hd

end

end Toon
