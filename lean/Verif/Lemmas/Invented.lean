import Verif.Spec.Mentions
import Verif.Lemmas.Mentions
import Verif.Lemmas.Complaints
import Verif.Lemmas.ExpandKeys
import Verif.Props.Grammar

/-! The strings of a decoded value come from the text (C113). -/

namespace Toon

/-- Every part of `s` without escaped characters is a part of `content`. -/
def Drawn (content s : Str) : Prop :=
  ∀ w : Str, (∀ c ∈ w, c ∉ ['\\', '"', '\n', '\r', '\t']) → w <:+: s → w <:+: content

theorem Drawn.self (s : Str) : Drawn s s := fun _ _ h => h

theorem Drawn.wider {a b s : Str} (h : Drawn a s) (hs : a <:+: b) : Drawn b s := fun w hw hi => (h w hw hi).trans hs

theorem Drawn.part {a s s' : Str} (h : Drawn a s) (hs : s' <:+: s) : Drawn a s' := fun w hw hi => h w hw (hi.trans hs)

theorem legalEscapes_special {x c : Char} (h : (x, c) ∈ legalEscapes) : c ∈ ['\\', '"', '\n', '\r', '\t'] := by
  simp only [legalEscapes, List.mem_cons, List.not_mem_nil, or_false, Prod.mk.injEq] at h
  simp only [List.mem_cons, List.not_mem_nil, or_false]
  rcases h with ⟨_, h⟩ | ⟨_, h⟩ | ⟨_, h⟩ | ⟨_, h⟩ | ⟨_, h⟩ <;> simp [h]

theorem quotedDenotes_prefix {body s : Str} (h : QuotedDenotes body s) : ∀ w : Str, (∀ c ∈ w, c ∉ ['\\', '"', '\n', '\r', '\t']) →
    w <+: s → w <+: body := by
  induction h with
  | nil => intro w _ h; exact h
  | plain _ _ _ ih =>
    intro w hw h
    cases w with
    | nil => exact List.nil_prefix
    | cons a w =>
      rw [List.cons_prefix_cons] at h ⊢
      exact ⟨h.1, ih w (fun c hc => hw c (List.mem_cons_of_mem _ hc)) h.2⟩
  | escape hl _ _ =>
    intro w hw h
    cases w with
    | nil => exact List.nil_prefix
    | cons a w =>
      rw [List.cons_prefix_cons] at h
      have := hw a List.mem_cons_self
      rw [h.1] at this
      exact absurd (legalEscapes_special hl) this

theorem quotedDenotes_drawn {body s : Str} (h : QuotedDenotes body s) : Drawn body s := by
  induction h with
  | nil => exact Drawn.self _
  | plain h1 h2 h3 ih =>
    intro w hw hi
    rcases List.infix_cons_iff.mp hi with hp | hi
    · exact (quotedDenotes_prefix (.plain h1 h2 h3) w hw hp).isInfix
    · exact List.infix_cons_iff.mpr (Or.inr (ih w hw hi))
  | escape h1 h2 ih =>
    intro w hw hi
    rcases List.infix_cons_iff.mp hi with hp | hi
    · exact (quotedDenotes_prefix (.escape h1 h2) w hw hp).isInfix
    · exact List.infix_cons_iff.mpr (Or.inr (List.infix_cons_iff.mpr (Or.inr (ih w hw hi))))

theorem literal_drawn {body s : Str} (h : QuotedDenotes body s) : Drawn ('"' :: body ++ ['"']) s :=
  (quotedDenotes_drawn h).wider ⟨['"'], ['"'], by simp⟩

theorem keyLineMeans_drawn {content k after : Str} {q : Bool} (h : KeyLineMeans content k q after) :
    Drawn content k ∧ after <:+: content := by
  cases h with
  | @quoted body _ _ hq => exact ⟨(quotedDenotes_drawn hq).wider ⟨['"'], '"' :: ':' :: after, by simp⟩, ⟨'"' :: body ++ ['"', ':'], [], by simp⟩⟩
  | @bare a _ _ _ =>
    exact ⟨(Drawn.self _).wider ((trim_infix a).trans (List.prefix_append _ _).isInfix), ⟨a ++ [':'], [], by simp⟩⟩

theorem headerKey_drawn {pre k : Str} {q : Bool} (h : HeaderKey pre (some k) q) : Drawn pre k := by
  cases h with
  | quoted ht hq =>
    have := trim_infix pre
    rw [ht] at this
    exact (literal_drawn hq).wider this
  | bare => exact (Drawn.self _).wider (trim_infix pre)

theorem names_drawn {cells : List Str} {names : List FieldName} (h : Pointwise NameMeans cells names) :
    ∀ f ∈ names, ∃ c ∈ cells, Drawn c f.name := by
  induction h with
  | nil => simp
  | cons h1 _ ih =>
    intro f hf
    rcases List.mem_cons.mp hf with rfl | hf
    · refine ⟨_, List.mem_cons_self, ?_⟩
      cases h1 with
      | quoted hq => exact literal_drawn hq
      | bare _ => exact Drawn.self _
    · obtain ⟨c, hc, h2⟩ := ih f hf
      exact ⟨c, List.mem_cons_of_mem _ hc, h2⟩

/-- The key, the columns and the elements of a header come from its line. -/
theorem headerMeans_drawn {content : Str} {h : Header} (hm : HeaderMeans content h) :
    (∀ k, h.key = some k → Drawn content k) ∧ (∀ text, h.inline = some text → text <:+: content) ∧
    (∀ fields, h.fields = some fields → ∀ f ∈ fields, Drawn content f.name) := by
  obtain ⟨pre, seg, cols, after, hs, hk, _, _, hc, hi⟩ := hm
  obtain ⟨h1, _, h3, h4⟩ := headerShape_infix hs
  refine ⟨?_, ?_, ?_⟩
  · intro k e
    rw [e] at hk
    exact (headerKey_drawn hk).wider h1
  · intro text e
    rcases hi with ⟨_, e'⟩ | ⟨_, e'⟩
    · rw [e'] at e; simp at e
    · rw [e'] at e
      simp only [Option.some.injEq] at e
      subst e
      exact (trim_infix after).trans h3
  · intro fields e f hf
    rw [e] at hc
    cases hc with
    | some hcells hnames =>
      obtain ⟨c, hc', h5⟩ := names_drawn hnames f hf
      exact h5.wider ((cells_infix hcells c hc').trans (h4 _ rfl))

section
variable {F : Type} [F64 F]

/-- A string for which `P` holds, or no string. -/
def StrOf (P : Str → Prop) (p : Prim F) : Prop := ∀ s, p = .str s → P s

theorem tokenMeans_drawn {t s : Str} (h : TokenMeans t (.str s : Prim F)) : Drawn t s := by
  cases h with
  | empty => exact Drawn.self _
  | quoted hq => exact literal_drawn hq
  | bare => exact Drawn.self _

theorem token_strOf {P : Str → Prop} {t : Str} {p : Prim F} (h : TokenMeans t p) (hP : ∀ s, Drawn t s → P s) : StrOf P p := by
  intro s e
  subst e
  exact hP s (tokenMeans_drawn h)

/-- The keys and the strings of the tree satisfy `P`. -/
def TreeOf (P : Str → Prop) (t : ETree F) : Prop := t.AllKeys (fun k _ => P k) ∧ t.AllPrims (StrOf P)
def ItemsOf (P : Str → Prop) (ts : List (ETree F)) : Prop := ETree.AllKeysItems (fun k _ => P k) ts ∧ ETree.AllPrimsItems (StrOf P) ts
def EntriesOf (P : Str → Prop) (es : List (Str × Bool × ETree F)) : Prop :=
  ETree.AllKeysEntries (fun k _ => P k) es ∧ ETree.AllPrimsEntries (StrOf P) es

omit [F64 F] in
theorem itemsOf_nil {P : Str → Prop} : ItemsOf P ([] : List (ETree F)) := by
  simp [ItemsOf, ETree.AllKeysItems, ETree.AllPrimsItems]

omit [F64 F] in
theorem entriesOf_nil {P : Str → Prop} : EntriesOf P ([] : List (Str × Bool × ETree F)) := by
  simp [EntriesOf, ETree.AllKeysEntries, ETree.AllPrimsEntries]

omit [F64 F] in
theorem itemsOf_cons {P : Str → Prop} {t : ETree F} {ts : List (ETree F)} (h1 : TreeOf P t) (h2 : ItemsOf P ts) : ItemsOf P (t :: ts) := by
  simp only [ItemsOf, ETree.AllKeysItems, ETree.AllPrimsItems]
  exact ⟨⟨h1.1, h2.1⟩, h1.2, h2.2⟩

omit [F64 F] in
theorem entriesOf_cons {P : Str → Prop} {e : Str × Bool × ETree F} {es : List (Str × Bool × ETree F)} (h0 : P e.1) (h1 : TreeOf P e.2.2)
    (h2 : EntriesOf P es) : EntriesOf P (e :: es) := by
  obtain ⟨k, q, t⟩ := e
  simp only [EntriesOf, ETree.AllKeysEntries, ETree.AllPrimsEntries]
  exact ⟨⟨h0, h1.1, h2.1⟩, h1.2, h2.2⟩

omit [F64 F] in
theorem treeOf_prim {P : Str → Prop} {p : Prim F} (h : StrOf P p) : TreeOf P (.prim p) := by
  simp only [TreeOf, ETree.AllKeys, ETree.AllPrims]; exact ⟨trivial, h⟩

omit [F64 F] in
theorem treeOf_arr {P : Str → Prop} {n : Nat} {ts : List (ETree F)} (h : ItemsOf P ts) : TreeOf P (.arr n ts) := by
  simp only [TreeOf, ETree.AllKeys, ETree.AllPrims]; exact h

omit [F64 F] in
theorem treeOf_obj {P : Str → Prop} {es : List (Str × Bool × ETree F)} (h : EntriesOf P es) : TreeOf P (.obj es) := by
  simp only [TreeOf, ETree.AllKeys, ETree.AllPrims]; exact h

theorem tokens_itemsOf {P : Str → Prop} {cells : List Str} {prims : List (Prim F)} (h : Pointwise TokenMeans cells prims)
    (hP : ∀ c ∈ cells, ∀ s, Drawn c s → P s) : ItemsOf P (prims.map .prim) := by
  induction h with
  | nil => exact itemsOf_nil
  | cons h1 _ ih =>
    exact itemsOf_cons (treeOf_prim (token_strOf h1 (hP _ List.mem_cons_self))) (ih fun c hc => hP c (List.mem_cons_of_mem _ hc))

theorem padFields_entriesOf {P : Str → Prop} (fields : List FieldName) (hf : ∀ f ∈ fields, P f.name) : ∀ {cells : List Str} {prims : List (Prim F)},
    Pointwise TokenMeans cells prims → (∀ c ∈ cells, ∀ s, Drawn c s → P s) → EntriesOf P (padFields fields prims) := by
  induction fields with
  | nil => intro cells prims _ _; simp only [padFields]; exact entriesOf_nil
  | cons f fs ih =>
    intro cells prims h hP
    have hf0 := hf f List.mem_cons_self
    have hfs : ∀ g ∈ fs, P g.name := fun g hg => hf g (List.mem_cons_of_mem _ hg)
    cases h with
    | nil =>
      simp only [padFields]
      exact entriesOf_cons hf0 (treeOf_prim fun s e => by simp at e) (ih hfs .nil (by simp))
    | cons h1 h2 =>
      simp only [padFields]
      exact entriesOf_cons hf0 (treeOf_prim (token_strOf h1 (hP _ List.mem_cons_self))) (ih hfs h2 fun c hc => hP c (List.mem_cons_of_mem _ hc))

theorem rows_itemsOf {P : Str → Prop} {strict : Bool} {fields : List FieldName} {d : Char} {body : List Line} {ts : List (ETree F)}
    (hf : ∀ f ∈ fields, P f.name) (h : Pointwise (TableRow strict fields d) body ts) (hr : ∀ l ∈ body, ∀ s, Drawn l.content s → P s) :
    ItemsOf P ts := by
  induction h with
  | nil => exact itemsOf_nil
  | cons h1 _ ih =>
    obtain ⟨cells, prims, hc, ht, _, rfl⟩ := h1
    exact itemsOf_cons (treeOf_obj (padFields_entriesOf fields hf ht fun c hcm s hs => hr _ List.mem_cons_self s (hs.wider (cells_infix hc c hcm))))
      (ih fun l hl => hr l (List.mem_cons_of_mem _ hl))

theorem infix_item (after : Str) : after <:+: '-' :: ' ' :: after := ⟨['-', ' '], [], by simp⟩

mutual
theorem entry_drawn {P : Str → Prop} {strict : Bool} {blanks : List Nat} : ∀ {depth : Nat} {content : Str} {rest rest' : List Line} {e : Str × Bool × ETree F},
    (∀ s, Drawn content s → P s) → (∀ l ∈ rest, ∀ s, Drawn l.content s → P s) → EntryMeans strict blanks depth content rest e rest' →
    P e.1 ∧ TreeOf P e.2.2
  | _, _, _, _, _, hc, hr, .array hm hk ha => by
    obtain ⟨h1, h2, h3⟩ := headerMeans_drawn hm
    exact ⟨hc _ (h1 _ hk), array_drawn (fun text e s hs => hc s (hs.wider (h2 text e))) (fun fs e f hf => hc _ (h3 fs e f hf)) hr ha⟩
  | _, _, _, _, _, hc, hr, .prim (after := after) _ hk _ ht => by
    obtain ⟨h1, h2⟩ := keyLineMeans_drawn hk
    exact ⟨hc _ h1, treeOf_prim (token_strOf ht fun s hs => hc s (hs.wider ((trim_infix after).trans h2)))⟩
  | _, _, _, _, _, hc, hr, .empty _ hk _ _ => ⟨hc _ (keyLineMeans_drawn hk).1, treeOf_obj entriesOf_nil⟩
  | _, _, _, _, _, hc, hr, .object _ hk _ _ hb => ⟨hc _ (keyLineMeans_drawn hk).1, treeOf_obj (block_drawn hr hb)⟩
theorem block_drawn {P : Str → Prop} {strict : Bool} {blanks : List Nat} : ∀ {inList : Bool} {depth : Nat} {rest rest' : List Line} {es : List (Str × Bool × ETree F)},
    (∀ l ∈ rest, ∀ s, Drawn l.content s → P s) → BlockMeans strict blanks inList depth rest es rest' → EntriesOf P es
  | _, _, _, _, _, _, .stop _ => entriesOf_nil
  | _, _, _, _, _, hr, .entry _ _ he hb => by
    have h1 := entry_drawn (hr _ (by simp)) (fun l hl => hr l (by simp [hl])) he
    exact entriesOf_cons h1.1 h1.2 (block_drawn (fun l hl => hr l (List.mem_cons_of_mem _ ((entry_suffix he).subset hl))) hb)
theorem array_drawn {P : Str → Prop} {strict : Bool} {blanks : List Nat} : ∀ {depth : Nat} {h : Header} {rest rest' : List Line} {t : ETree F},
    (∀ text, h.inline = some text → ∀ s, Drawn text s → P s) → (∀ fs, h.fields = some fs → ∀ f ∈ fs, P f.name) →
    (∀ l ∈ rest, ∀ s, Drawn l.content s → P s) → ArrayMeans strict blanks depth h rest t rest' → TreeOf P t
  | _, _, _, _, _, hi, _, _, .inline h1 hc ht _ =>
    treeOf_arr (tokens_itemsOf ht fun c hcm s hs => hi _ h1 s (hs.wider (cells_infix hc c hcm)))
  | _, _, _, _, _, _, hf, hr, .table _ h1 _ _ hrows _ _ _ =>
    treeOf_arr (rows_itemsOf (hf _ h1) hrows fun l hl => hr l (List.mem_append_left _ hl))
  | _, _, _, _, _, _, _, hr, .list _ _ hitems _ => treeOf_arr (items_drawn hr hitems)
theorem items_drawn {P : Str → Prop} {strict : Bool} {blanks : List Nat} : ∀ {n depth : Nat} {rest rest' : List Line} {ts : List (ETree F)},
    (∀ l ∈ rest, ∀ s, Drawn l.content s → P s) → ItemsMean strict blanks n depth rest ts rest' → ItemsOf P ts
  | _, _, _, _, _, _, .stop _ => itemsOf_nil
  | _, _, _, _, _, hr, .item _ hi hb => by
    have h1 := item_drawn (hr _ (by simp)) (fun l hl => hr l (by simp [hl])) hi
    exact itemsOf_cons h1 (items_drawn (fun l hl => hr l (List.mem_cons_of_mem _ ((item_suffix hi).subset hl))) hb)
theorem item_drawn {P : Str → Prop} {strict : Bool} {blanks : List Nat} : ∀ {depth : Nat} {content : Str} {rest rest' : List Line} {t : ETree F},
    (∀ s, Drawn content s → P s) → (∀ l ∈ rest, ∀ s, Drawn l.content s → P s) → ItemMeans' strict blanks depth content rest t rest' →
    TreeOf P t
  | _, _, _, _, _, _, _, .hyphen => treeOf_obj entriesOf_nil
  | _, _, _, _, _, _, _, .blank _ => treeOf_obj entriesOf_nil
  | _, _, _, _, _, hc, hr, .array _ _ hm ha => by
    obtain ⟨_, h2, h3⟩ := headerMeans_drawn hm
    exact array_drawn (fun text e s hs => hc s (hs.wider ((h2 text e).trans (infix_item _))))
      (fun fs e f hf => hc _ ((h3 fs e f hf).wider (infix_item _))) hr ha
  | _, _, _, _, _, hc, hr, .object _ _ he hb => by
    have h1 := entry_drawn (fun s hs => hc s (hs.wider (infix_item _))) hr he
    exact treeOf_obj (entriesOf_cons h1.1 h1.2 (block_drawn (fun l hl => hr l ((entry_suffix he).subset hl)) hb))
  | _, _, _, _, _, hc, _, .prim _ _ _ ht =>
    treeOf_prim (token_strOf ht fun s hs => hc s (hs.wider ((trim_infix _).trans (infix_item _))))
end

theorem document_drawn {P : Str → Prop} {strict : Bool} {blanks : List Nat} {lines rest' : List Line} {t : ETree F}
    (hr : ∀ l ∈ lines, ∀ s, Drawn l.content s → P s) (h : DocumentMeans strict blanks lines t rest') : TreeOf P t := by
  cases h with
  | empty => exact treeOf_obj entriesOf_nil
  | array _ _ hm ha =>
    have hc := hr _ List.mem_cons_self
    obtain ⟨_, h2, h3⟩ := headerMeans_drawn hm
    exact array_drawn (fun text e s hs => hc s (hs.wider (h2 text e))) (fun fs e f hf => hc _ (h3 fs e f hf))
      (fun l hl => hr l (List.mem_cons_of_mem _ hl)) ha
  | prim _ ht => exact treeOf_prim (token_strOf ht fun s hs => hr _ List.mem_cons_self s (hs.wider (trim_infix _)))
  | object _ he hb =>
    have h1 := entry_drawn (hr _ (by simp)) (fun l hl => hr l (by simp [hl])) he
    exact treeOf_obj (entriesOf_cons h1.1 h1.2 (block_drawn (fun l hl => hr l (List.mem_cons_of_mem _ ((entry_suffix he).subset hl))) hb))

theorem scansTo_content {indent : Nat} {strict : Bool} {n : Nat} {source : List Str} {lines : List Line} {blanks : List Nat}
    (h : ScansTo indent strict n source lines blanks) : ∀ l ∈ lines, Appears source l.content := by
  induction h with
  | nil => simp
  | blank _ _ ih =>
    intro l hl
    obtain ⟨raw, h1, h2⟩ := ih l hl
    exact ⟨raw, List.mem_cons_of_mem _ h1, h2⟩
  | line _ _ _ _ ih =>
    intro l hl
    rcases List.mem_cons.mp hl with rfl | hl
    · exact ⟨_, List.mem_cons_self, (List.suffix_append _ _).isInfix⟩
    · obtain ⟨raw, h1, h2⟩ := ih l hl
      exact ⟨raw, List.mem_cons_of_mem _ h1, h2⟩

/-- Every part without escaped characters stands in a line. -/
def DrawnFrom (source : List Str) (s : Str) : Prop :=
  ∀ w : Str, (∀ c ∈ w, c ∉ ['\\', '"', '\n', '\r', '\t']) → w <:+: s → Appears source w

theorem text_drawn {indent : Nat} {strict : Bool} {source : List Str} {t : ETree F} (h : TextMeans indent strict source t) :
    TreeOf (DrawnFrom source) t := by
  obtain ⟨lines, blanks, rest', h1, h2⟩ := h
  exact document_drawn (fun l hl s hs w hw hi => (scansTo_content h1 l hl).sub (hs w hw hi)) h2

omit [F64 F]

mutual
theorem mentions_of {P : Str → Prop} {s : Str} (v : Json F) (hk : AllKeys P v) (hp : AllPrims (StrOf P) v) (h : Mentions s v) : P s := by
  match v with
  | .prim p => simp only [Mentions, AllPrims] at h hp; exact hp s h
  | .arr items => simp only [Mentions, AllPrims, AllKeys] at h hp hk; exact mentionsItems_of items hk hp h
  | .obj es => simp only [Mentions, AllPrims, AllKeys] at h hp hk; exact mentionsEntries_of es hk hp h
termination_by sizeOf v
theorem mentionsItems_of {P : Str → Prop} {s : Str} (vs : List (Json F)) (hk : AllKeysItems P vs) (hp : AllPrimsItems (StrOf P) vs)
    (h : MentionsItems s vs) : P s := by
  match vs with
  | [] => simp only [MentionsItems] at h
  | v :: vs =>
    simp only [MentionsItems, AllPrimsItems, AllKeysItems] at h hp hk
    rcases h with h | h
    · exact mentions_of v hk.1 hp.1 h
    · exact mentionsItems_of vs hk.2 hp.2 h
termination_by sizeOf vs
theorem mentionsEntries_of {P : Str → Prop} {s : Str} (es : List (Str × Json F)) (hk : AllKeysEntries P es) (hp : AllPrimsEntries (StrOf P) es)
    (h : MentionsEntries s es) : P s := by
  match es with
  | [] => simp only [MentionsEntries] at h
  | (k, v) :: es =>
    simp only [MentionsEntries, AllPrimsEntries, AllKeysEntries] at h hp hk
    rcases h with h | h | h
    · exact h ▸ hk.1
    · exact mentions_of v hk.2.1 hp.1 h
    · exact mentionsEntries_of es hk.2.2 hp.2 h
termination_by sizeOf es
end

end

section
variable {F : Type} [F64 F] [LawfulF64 F]

theorem decode_prims {P : Prim F → Prop} {opts : DecOpts} {text : Str} {v : Json F}
    (hP : ∀ t : ETree F, TextMeans opts.indent opts.strict (splitOn '\n' text) t → t.AllPrims P) (h : decode opts text = .ok v) :
    AllPrims P v := by
  unfold decode at h
  cases hs : decodeStream (F := F) opts.indent opts.strict (splitOn '\n' text) with
  | error e => rw [decodeFromLines_error hs] at h; simp at h
  | ok evs =>
    obtain ⟨t, ht, rfl⟩ := (C58_events _ _ _ _).mp hs
    have hp : AllPrims P t.json := (allPrims_json _ t).mpr (hP t ht)
    rw [decodeFromLines_expand hs] at h
    split at h
    · split at h
      · simp at h
      · rename_i n hn
        simp only [Except.ok.injEq] at h
        subst h
        exact expandInner_prims hn (by rw [nodeToJson_node]; exact hp)
    · simp only [Except.ok.injEq] at h
      subst h
      exact hp

theorem decode_keys {P : Str → Prop} {opts : DecOpts} {text : Str} {v : Json F} (hd : ∀ segs s, P (dotted segs) → s ∈ segs → P s)
    (hP : ∀ t : ETree F, TextMeans opts.indent opts.strict (splitOn '\n' text) t → t.AllKeys (fun k _ => P k)) (h : decode opts text = .ok v) :
    AllKeys P v := by
  cases hx : opts.expand with
  | false =>
    obtain ⟨t, ht, rfl⟩ := (C58_value opts hx text v).mp h
    exact json_keys (P := fun k _ => P k) (fun _ _ h => h) t (hP t ht)
  | true =>
    obtain ⟨t, ht, rfl, _⟩ := C58_expanded opts hx text v h
    refine expanded_keys (P := fun k _ => P k) ?_ t (hP t ht)
    intro k q hk q' _ s hs
    rcases keyPath_cases q' k with e | ⟨segs, _, _, rfl, e⟩
    · rw [e] at hs
      simp only [List.mem_cons, List.not_mem_nil, or_false] at hs
      exact hs ▸ hk
    · rw [e] at hs
      exact hd segs s hk hs

end

end Toon
