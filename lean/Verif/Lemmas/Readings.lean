import Verif.Spec.Readings
import Verif.Lemmas.Invented

/-! The primitives of a decoded value are read from the text (C114). -/

namespace Toon

theorem WordOf.self (w : Str) : WordOf w w := ⟨[], [], by simp, by simp, by simp⟩

theorem WordOf.trans {x y z : Str} (h1 : WordOf x y) (h2 : WordOf y z) : WordOf x z := by
  obtain ⟨a, b, rfl, ha, hb⟩ := h1
  obtain ⟨a', b', rfl, ha', hb'⟩ := h2
  refine ⟨a' ++ a, b ++ b', by simp, ?_, ?_⟩
  · intro c hc
    rw [List.getLast?_append] at hc
    cases h : a.getLast? with
    | none => rw [h] at hc; exact ha' c (by simpa using hc)
    | some d => rw [h] at hc; exact ha c (by rw [h]; simpa using hc)
  · intro c hc
    rw [List.head?_append] at hc
    cases h : b.head? with
    | none => rw [h] at hc; exact hb' c (by simpa using hc)
    | some d => rw [h] at hc; exact hb c (by rw [h]; simpa using hc)

theorem WordOf.infix {x y : Str} (h : WordOf x y) : x <:+: y := by
  obtain ⟨a, b, rfl, _, _⟩ := h
  exact ⟨a, b, rfl⟩

/-- The end of a text, after whitespace, a colon or a delimiter. -/
theorem wordOf_end {a w : Str} (h : ∀ c, a.getLast? = some c → isWs c = true ∨ c ∈ [':', ',', '|', '\t']) : WordOf w (a ++ w) :=
  ⟨a, [], by simp, h, by simp⟩

theorem takeWhile_last {s : Str} {c : Char} (h : (s.takeWhile isWs).getLast? = some c) : isWs c = true := by
  have hm := List.mem_of_getLast? h
  have := List.all_takeWhile (p := isWs) (l := s)
  rw [List.all_eq_true] at this
  exact this c hm

theorem trimStart_word (s : Str) : WordOf (trimStart s) s := by
  have h := List.takeWhile_append_dropWhile (p := isWs) (l := s)
  refine ⟨s.takeWhile isWs, [], ?_, fun c hc => Or.inl (takeWhile_last hc), by simp⟩
  unfold trimStart
  rw [h]; simp

theorem trimEnd_word (s : Str) : WordOf (trimEnd s) s := by
  have h := List.takeWhile_append_dropWhile (p := isWs) (l := s.reverse)
  refine ⟨[], (s.reverse.takeWhile isWs).reverse, ?_, by simp, ?_⟩
  · unfold trimEnd
    rw [List.nil_append, ← List.reverse_append, h, List.reverse_reverse]
  · intro c hc
    rw [List.head?_reverse] at hc
    exact Or.inl (takeWhile_last hc)

theorem trim_word (s : Str) : WordOf (trim s) s := by
  unfold trim
  exact (trimEnd_word _).trans (trimStart_word s)

theorem splitsInto_word {d : Char} {text : Str} {ps : List Str} (hd : d ∈ [',', '|', '\t']) (h : SplitsInto d text ps) :
    ∀ p ∈ ps, WordOf p text := by
  induction h with
  | last _ => intro p hp; simp at hp; subst hp; exact WordOf.self _
  | @cut p rest ps _ _ _ ih =>
    intro q hq
    rcases List.mem_cons.mp hq with rfl | hq
    · exact ⟨[], d :: rest, by simp, by simp, fun c hc => Or.inr (by simp only [List.head?_cons, Option.some.injEq] at hc; exact hc ▸ hd)⟩
    · refine (ih q hq).trans ?_
      have := wordOf_end (a := p ++ [d]) (w := rest) (by
        intro c hc
        simp only [List.getLast?_append, List.getLast?_singleton, Option.some_or, Option.some.injEq] at hc
        exact Or.inr (List.mem_cons_of_mem _ (hc ▸ hd)))
      simpa using this

theorem cells_word {d : Char} {text : Str} {cells : List Str} (hd : d ∈ [',', '|', '\t']) (h : Cells d text cells) :
    ∀ c ∈ cells, WordOf c text := by
  rcases h with ⟨rfl, rfl⟩ | ⟨_, ps, h1, rfl⟩
  · simp
  · intro c hc
    obtain ⟨p, hp, rfl⟩ := List.mem_map.mp hc
    exact (trim_word p).trans (splitsInto_word hd h1 p hp)

theorem after_colon (a w : Str) : WordOf w (a ++ ':' :: w) := by
  have := wordOf_end (a := a ++ [':']) (w := w) (by
    intro c hc
    simp only [List.getLast?_append, List.getLast?_singleton, Option.some_or, Option.some.injEq] at hc
    exact Or.inr (by simp [← hc]))
  simpa using this

theorem keyLineMeans_word {content k after : Str} {q : Bool} (h : KeyLineMeans content k q after) : WordOf after content := by
  cases h with
  | @quoted body _ _ _ => simpa using after_colon ('"' :: body ++ ['"']) after
  | @bare a _ _ _ => exact after_colon a after

theorem afterBracket_word {b after : Str} {cols : Option Str} (h : AfterBracket b cols after) : ∃ a, b = a ++ ':' :: after := by
  cases h with
  | @columns u cols w after _ _ _ _ => exact ⟨u ++ '{' :: cols ++ '}' :: w, by simp⟩
  | @plain u after _ _ => exact ⟨u, by simp⟩
  | @unclosed u u' after _ _ _ _ _ => exact ⟨u ++ '{' :: u', by simp⟩

/-- The elements after a header are a word of its line, and its delimiter is one of the three. -/
theorem headerMeans_word {content : Str} {h : Header} (hm : HeaderMeans content h) :
    (∀ text, h.inline = some text → WordOf text content) ∧ h.delim ∈ [',', '|', '\t'] := by
  obtain ⟨pre, seg, cols, after, ⟨rest, hb, _, ha⟩, _, hl, _, _, hi⟩ := hm
  constructor
  · intro text e
    rcases hi with ⟨_, e'⟩ | ⟨_, e'⟩
    · rw [e'] at e; simp at e
    · rw [e'] at e
      simp only [Option.some.injEq] at e
      subst e
      obtain ⟨a, rfl⟩ := afterBracket_word ha
      have h3 := (findBracketStart_before hb).1
      refine (trim_word after).trans ?_
      rw [h3]
      simpa using after_colon (pre ++ '[' :: seg ++ ']' :: a) after
  · obtain ⟨_, _, _, _, _, _, _, _, h⟩ := hl
    rcases h with ⟨_, e⟩ | ⟨_, e⟩ | ⟨_, e⟩ <;> simp [e]

theorem item_word (after : Str) : WordOf after ('-' :: ' ' :: after) :=
  wordOf_end (a := ['-', ' ']) (by intro c hc; simp at hc; subst hc; exact Or.inl (by decide))

theorem scansTo_word {indent : Nat} {strict : Bool} {n : Nat} {source : List Str} {lines : List Line} {blanks : List Nat}
    (h : ScansTo indent strict n source lines blanks) : ∀ l ∈ lines, WordIn source l.content := by
  induction h with
  | nil => simp
  | blank _ _ ih =>
    intro l hl
    obtain ⟨raw, h1, h2⟩ := ih l hl
    exact ⟨raw, List.mem_cons_of_mem _ h1, h2⟩
  | @line _ spaces _ _ _ _ _ _ _ _ ih =>
    intro l hl
    rcases List.mem_cons.mp hl with rfl | hl
    · refine ⟨_, List.mem_cons_self, wordOf_end ?_⟩
      intro c hc
      have := List.eq_of_mem_replicate (List.mem_of_getLast? hc)
      subst this
      exact Or.inl (by decide)
    · obtain ⟨raw, h1, h2⟩ := ih l hl
      exact ⟨raw, List.mem_cons_of_mem _ h1, h2⟩

section
variable {F : Type} [F64 F]

theorem tokens_readings {Q : Prim F → Prop} {cells : List Str} {prims : List (Prim F)} (h : Pointwise TokenMeans cells prims)
    (hQ : ∀ c ∈ cells, ∀ p, TokenMeans c p → Q p) : ETree.AllPrimsItems Q (prims.map .prim) := by
  induction h with
  | nil => simp [ETree.AllPrimsItems]
  | cons h1 _ ih =>
    simp only [List.map_cons, ETree.AllPrimsItems, ETree.AllPrims]
    exact ⟨hQ _ List.mem_cons_self _ h1, ih fun c hc => hQ c (List.mem_cons_of_mem _ hc)⟩

theorem padFields_readings {Q : Prim F → Prop} (fields : List FieldName) : ∀ {cells : List Str} {prims : List (Prim F)},
    Pointwise TokenMeans cells prims → (∀ c ∈ cells, ∀ p, TokenMeans c p → Q p) → (cells.length = fields.length ∨ Q .null) →
    ETree.AllPrimsEntries Q (padFields fields prims) := by
  induction fields with
  | nil => intro cells prims _ _ _; simp only [padFields, ETree.AllPrimsEntries]
  | cons f fs ih =>
    intro cells prims h hQ hn
    cases h with
    | nil =>
      have h0 : Q .null := by
        rcases hn with hn | hn
        · simp at hn
        · exact hn
      simp only [padFields, ETree.AllPrimsEntries, ETree.AllPrims]
      exact ⟨h0, ih .nil (by simp) (Or.inr h0)⟩
    | cons h1 h2 =>
      simp only [padFields, ETree.AllPrimsEntries, ETree.AllPrims]
      refine ⟨hQ _ List.mem_cons_self _ h1, ih h2 (fun c hc => hQ c (List.mem_cons_of_mem _ hc)) ?_⟩
      rcases hn with hn | hn
      · exact Or.inl (by simpa using hn)
      · exact Or.inr hn

theorem rows_readings {Q : Prim F → Prop} {strict : Bool} {fields : List FieldName} {d : Char} {body : List Line} {ts : List (ETree F)}
    (hn : strict = false → Q .null) (hd : d ∈ [',', '|', '\t']) (h : Pointwise (TableRow strict fields d) body ts)
    (hr : ∀ l ∈ body, ∀ w p, WordOf w l.content → TokenMeans w p → Q p) : ETree.AllPrimsItems Q ts := by
  induction h with
  | nil => simp only [ETree.AllPrimsItems]
  | cons h1 _ ih =>
    obtain ⟨cells, prims, hc, ht, hl, rfl⟩ := h1
    simp only [ETree.AllPrimsItems, ETree.AllPrims]
    refine ⟨padFields_readings fields ht (fun c hcm p hp => hr _ List.mem_cons_self c p (cells_word hd hc c hcm) hp) ?_,
      ih fun l hl => hr l (List.mem_cons_of_mem _ hl)⟩
    cases strict with
    | true => exact Or.inl (hl rfl)
    | false => exact Or.inr (hn rfl)

mutual
theorem entry_readings {Q : Prim F → Prop} {strict : Bool} {blanks : List Nat} (hn : strict = false → Q .null) :
    ∀ {depth : Nat} {content : Str} {rest rest' : List Line} {e : Str × Bool × ETree F},
    (∀ w p, WordOf w content → TokenMeans w p → Q p) → (∀ l ∈ rest, ∀ w p, WordOf w l.content → TokenMeans w p → Q p) →
    EntryMeans strict blanks depth content rest e rest' → e.2.2.AllPrims Q
  | _, _, _, _, _, hc, hr, .array hm _ ha =>
    array_readings hn (headerMeans_word hm).2 (fun text e w p hw hp => hc w p (hw.trans ((headerMeans_word hm).1 text e)) hp) hr ha
  | _, _, _, _, _, hc, _, .prim (after := after) _ hk _ ht => by
    simp only [ETree.AllPrims]
    exact hc _ _ ((trim_word after).trans (keyLineMeans_word hk)) ht
  | _, _, _, _, _, _, _, .empty _ _ _ _ => by simp only [ETree.AllPrims, ETree.AllPrimsEntries]
  | _, _, _, _, _, _, hr, .object _ _ _ _ hb => by
    simp only [ETree.AllPrims]
    exact block_readings hn hr hb
theorem block_readings {Q : Prim F → Prop} {strict : Bool} {blanks : List Nat} (hn : strict = false → Q .null) :
    ∀ {inList : Bool} {depth : Nat} {rest rest' : List Line} {es : List (Str × Bool × ETree F)},
    (∀ l ∈ rest, ∀ w p, WordOf w l.content → TokenMeans w p → Q p) → BlockMeans strict blanks inList depth rest es rest' →
    ETree.AllPrimsEntries Q es
  | _, _, _, _, _, _, .stop _ => by simp only [ETree.AllPrimsEntries]
  | _, _, _, _, _, hr, .entry (e := e) _ _ he hb => by
    have h1 := entry_readings hn (hr _ (by simp)) (fun l hl => hr l (by simp [hl])) he
    have h2 := block_readings hn (fun l hl => hr l (List.mem_cons_of_mem _ ((entry_suffix he).subset hl))) hb
    obtain ⟨k, q, t⟩ := e
    simp only [ETree.AllPrimsEntries]
    exact ⟨h1, h2⟩
theorem array_readings {Q : Prim F → Prop} {strict : Bool} {blanks : List Nat} (hn : strict = false → Q .null) :
    ∀ {depth : Nat} {h : Header} {rest rest' : List Line} {t : ETree F},
    h.delim ∈ [',', '|', '\t'] → (∀ text, h.inline = some text → ∀ w p, WordOf w text → TokenMeans w p → Q p) →
    (∀ l ∈ rest, ∀ w p, WordOf w l.content → TokenMeans w p → Q p) → ArrayMeans strict blanks depth h rest t rest' → t.AllPrims Q
  | _, _, _, _, _, hd, hi, _, .inline h1 hc ht _ => by
    simp only [ETree.AllPrims]
    exact tokens_readings ht fun c hcm p hp => hi _ h1 c p (cells_word hd hc c hcm) hp
  | _, _, _, _, _, hd, _, hr, .table _ _ _ _ hrows _ _ _ => by
    simp only [ETree.AllPrims]
    exact rows_readings hn hd hrows fun l hl => hr l (List.mem_append_left _ hl)
  | _, _, _, _, _, _, _, hr, .list _ _ hitems _ => by
    simp only [ETree.AllPrims]
    exact items_readings hn hr hitems
theorem items_readings {Q : Prim F → Prop} {strict : Bool} {blanks : List Nat} (hn : strict = false → Q .null) :
    ∀ {n depth : Nat} {rest rest' : List Line} {ts : List (ETree F)},
    (∀ l ∈ rest, ∀ w p, WordOf w l.content → TokenMeans w p → Q p) → ItemsMean strict blanks n depth rest ts rest' → ETree.AllPrimsItems Q ts
  | _, _, _, _, _, _, .stop _ => by simp only [ETree.AllPrimsItems]
  | _, _, _, _, _, hr, .item _ hi hb => by
    simp only [ETree.AllPrimsItems]
    exact ⟨item_readings hn (hr _ (by simp)) (fun l hl => hr l (by simp [hl])) hi,
      items_readings hn (fun l hl => hr l (List.mem_cons_of_mem _ ((item_suffix hi).subset hl))) hb⟩
theorem item_readings {Q : Prim F → Prop} {strict : Bool} {blanks : List Nat} (hn : strict = false → Q .null) :
    ∀ {depth : Nat} {content : Str} {rest rest' : List Line} {t : ETree F},
    (∀ w p, WordOf w content → TokenMeans w p → Q p) → (∀ l ∈ rest, ∀ w p, WordOf w l.content → TokenMeans w p → Q p) →
    ItemMeans' strict blanks depth content rest t rest' → t.AllPrims Q
  | _, _, _, _, _, _, _, .hyphen => by simp only [ETree.AllPrims, ETree.AllPrimsEntries]
  | _, _, _, _, _, _, _, .blank _ => by simp only [ETree.AllPrims, ETree.AllPrimsEntries]
  | _, _, _, _, _, hc, hr, .array _ _ hm ha =>
    array_readings hn (headerMeans_word hm).2 (fun text e w p hw hp => hc w p ((hw.trans ((headerMeans_word hm).1 text e)).trans (item_word _)) hp) hr ha
  | _, _, _, _, _, hc, hr, .object (e := e) _ _ he hb => by
    have h1 := entry_readings hn (fun w p hw hp => hc w p (hw.trans (item_word _)) hp) hr he
    have h2 := block_readings hn (fun l hl => hr l ((entry_suffix he).subset hl)) hb
    obtain ⟨k, q, t⟩ := e
    simp only [ETree.AllPrims, ETree.AllPrimsEntries]
    exact ⟨h1, h2⟩
  | _, _, _, _, _, hc, _, .prim _ _ _ ht => by
    simp only [ETree.AllPrims]
    exact hc _ _ ((trim_word _).trans (item_word _)) ht
end

theorem document_readings {Q : Prim F → Prop} {strict : Bool} {blanks : List Nat} {lines rest' : List Line} {t : ETree F}
    (hn : strict = false → Q .null) (hr : ∀ l ∈ lines, ∀ w p, WordOf w l.content → TokenMeans w p → Q p)
    (h : DocumentMeans strict blanks lines t rest') : t.AllPrims Q := by
  cases h with
  | empty => simp only [ETree.AllPrims, ETree.AllPrimsEntries]
  | array _ _ hm ha =>
    exact array_readings hn (headerMeans_word hm).2 (fun text e w p hw hp => hr _ List.mem_cons_self w p (hw.trans ((headerMeans_word hm).1 text e)) hp)
      (fun l hl => hr l (List.mem_cons_of_mem _ hl)) ha
  | prim _ ht =>
    simp only [ETree.AllPrims]
    exact hr _ List.mem_cons_self _ _ (trim_word _) ht
  | @object _ _ _ _ e es _ he hb =>
    have h1 := entry_readings hn (hr _ (by simp)) (fun l hl => hr l (by simp [hl])) he
    have h2 := block_readings hn (fun l hl => hr l (List.mem_cons_of_mem _ ((entry_suffix he).subset hl))) hb
    obtain ⟨k, q, t⟩ := e
    simp only [ETree.AllPrims, ETree.AllPrimsEntries]
    exact ⟨h1, h2⟩

theorem text_readings {indent : Nat} {strict : Bool} {source : List Str} {t : ETree F} (h : TextMeans indent strict source t) :
    t.AllPrims fun p => (∃ w, WordIn source w ∧ TokenMeans w p) ∨ (strict = false ∧ p = .null) := by
  obtain ⟨lines, blanks, rest', h1, h2⟩ := h
  exact document_readings (fun e => Or.inr ⟨e, rfl⟩) (fun l hl w p hw hp => by
    obtain ⟨raw, h3, h4⟩ := scansTo_word h1 l hl
    exact Or.inl ⟨w, ⟨raw, h3, hw.trans h4⟩, hp⟩) h2

omit [F64 F]

mutual
theorem contains_of {Q : Prim F → Prop} {p : Prim F} (v : Json F) (hp : AllPrims Q v) (h : Contains p v) : Q p := by
  match v with
  | .prim q => simp only [Contains, AllPrims] at h hp; exact h ▸ hp
  | .arr items => simp only [Contains, AllPrims] at h hp; exact containsItems_of items hp h
  | .obj es => simp only [Contains, AllPrims] at h hp; exact containsEntries_of es hp h
termination_by sizeOf v
theorem containsItems_of {Q : Prim F → Prop} {p : Prim F} (vs : List (Json F)) (hp : AllPrimsItems Q vs) (h : ContainsItems p vs) : Q p := by
  match vs with
  | [] => simp only [ContainsItems] at h
  | v :: vs =>
    simp only [ContainsItems, AllPrimsItems] at h hp
    rcases h with h | h
    · exact contains_of v hp.1 h
    · exact containsItems_of vs hp.2 h
termination_by sizeOf vs
theorem containsEntries_of {Q : Prim F → Prop} {p : Prim F} (es : List (Str × Json F)) (hp : AllPrimsEntries Q es) (h : ContainsEntries p es) :
    Q p := by
  match es with
  | [] => simp only [ContainsEntries] at h
  | (k, v) :: es =>
    simp only [ContainsEntries, AllPrimsEntries] at h hp
    rcases h with h | h
    · exact contains_of v hp.1 h
    · exact containsEntries_of es hp.2 h
termination_by sizeOf es
end

end

end Toon
