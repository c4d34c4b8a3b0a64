import Verif.Spec.Mark
import Verif.Lemmas.GrammarRoot
import Verif.Spec.Expansion
import Verif.Model.JsonRead

/-!
# Documents that begin with a byte order mark
-/

namespace Toon

local notation "bom" => byteOrderMark

theorem bom_ws : isWs bom = false := by decide +kernel

theorem bom_ne {c : Char} (h : c.toNat < 65279) : bom ≠ c := by
  intro h'
  rw [← h'] at h
  exact absurd h (by decide +kernel)

theorem trimEnd_cons {c : Char} (hc : isWs c = false) (s : Str) : trimEnd (c :: s) = c :: trimEnd s := by
  have key : ∀ l : Str, (l ++ [c]).dropWhile isWs = l.dropWhile isWs ++ [c] := by
    intro l
    induction l with
    | nil => simp [hc]
    | cons x xs ih =>
      simp only [List.cons_append, List.dropWhile_cons]
      split
      · exact ih
      · rfl
  simp [trimEnd, key]

theorem trim_cons_visible {c : Char} (hc : isWs c = false) (s : Str) : trim (c :: s) = c :: trimEnd s := by
  rw [trim, trimStart_eq_self (by simpa using hc), trimEnd_cons hc]

theorem trim_mark {c : Char} (hc : isWs c = false) (s : Str) : trim (bom :: c :: s) = bom :: trim (c :: s) := by
  rw [trim_cons_visible bom_ws, trim_cons_visible hc, trimEnd_cons hc]

theorem not_visibleFirst {c x : Char} (hc : isWs c = false) (hx : c ≠ x) (s : Str) : ¬ VisibleFirst x (c :: s) := by
  rintro ⟨ws, rest, hb, he⟩
  cases ws with
  | nil => simp at he; exact hx he.1
  | cons w ws =>
    simp at he
    have := hb w (by simp)
    rw [← he.1, hc] at this
    simp at this

theorem not_blank_cons {c : Char} (hc : isWs c = false) (s : Str) : ¬ BlankLine (c :: s) := by
  intro h
  have := h c (by simp)
  rw [hc] at this
  simp at this

theorem beforeBracket_mark {content pre rest : Str} (hv : ¬ VisibleFirst '"' content) :
    BeforeBracket (bom :: content) pre rest ↔ ∃ pre', pre = bom :: pre' ∧ BeforeBracket content pre' rest := by
  have hq : ¬ VisibleFirst '"' (bom :: content) := not_visibleFirst bom_ws (bom_ne (by decide)) _
  constructor
  · intro h
    generalize hs : bom :: content = s at h hq
    cases h with
    | @quoted ws body rest hb _ => exact absurd ⟨ws, body ++ '"' :: '[' :: rest, hb, by simp⟩ hq
    | @bare pre rest h1 h2 =>
      cases pre with
      | nil => simp at hs; exact absurd hs.1 (bom_ne (by decide))
      | cons p pre =>
        simp at hs
        obtain ⟨rfl, rfl⟩ := hs
        exact ⟨pre, rfl, .bare hv (fun h => h2 (by simp [h]))⟩
  · rintro ⟨pre', rfl, h⟩
    cases h with
    | @quoted ws body rest hb _ => exact absurd ⟨ws, body ++ '"' :: '[' :: rest, hb, by simp⟩ hv
    | bare h1 h2 =>
      have := BeforeBracket.bare (pre := bom :: pre') (rest := rest) (by simpa using hq)
        (by simp [h2, (bom_ne (c := '[') (by decide)).symm])
      simpa using this

theorem headerShape_mark {content pre seg after : Str} {cols : Option Str} (hv : ¬ VisibleFirst '"' content) :
    HeaderShape (bom :: content) pre seg cols after ↔ ∃ pre', pre = bom :: pre' ∧ HeaderShape content pre' seg cols after := by
  constructor
  · rintro ⟨rest, h1, h2, h3⟩
    obtain ⟨pre', rfl, h⟩ := (beforeBracket_mark hv).mp h1
    exact ⟨pre', rfl, rest, h, h2, h3⟩
  · rintro ⟨pre', rfl, rest, h1, h2, h3⟩
    exact ⟨rest, (beforeBracket_mark hv).mpr ⟨pre', rfl, h1⟩, h2, h3⟩

/-- A key that begins with a visible character other than a quote. -/
theorem headerKey_visible {c : Char} (hc : isWs c = false) (hq : c ≠ '"') (s : Str) (k : Option Str) (q : Bool) :
    HeaderKey (c :: s) k q ↔ k = some (trim (c :: s)) ∧ q = false := by
  constructor
  · intro h
    cases h with
    | none h => exact absurd h (not_blank_cons hc s)
    | quoted h _ => rw [trim_cons_visible hc] at h; simp at h; exact absurd h.1 hq
    | bare _ _ => exact ⟨rfl, rfl⟩
  · rintro ⟨rfl, rfl⟩
    refine .bare ?_ ?_ <;> rw [trim_cons_visible hc] <;> simp [hq]

/-- The part before the bracket begins with the first character, unless that is the bracket. -/
theorem headerShape_first {c : Char} (hb : c ≠ '[') {s pre seg after : Str} {cols : Option Str}
    (h : HeaderShape (c :: s) pre seg cols after) : ∃ pre', pre = c :: pre' := by
  obtain ⟨rest, h, _, _⟩ := h
  generalize hs : c :: s = t at h
  cases h with
  | @quoted ws body rest _ _ =>
    cases ws with
    | nil => simp at hs; exact ⟨_, by rw [hs.1]; rfl⟩
    | cons w ws => simp at hs; exact ⟨_, by rw [hs.1]; rfl⟩
  | bare _ _ =>
    cases pre with
    | nil => simp at hs; exact absurd hs.1 hb
    | cons p pre => simp at hs; exact ⟨pre, by rw [hs.1]⟩

section
variable {c : Char} (hc : isWs c = false) (hq : c ≠ '"') (hb : c ≠ '[')
include hc hq hb

theorem headerMeans_mark (s : Str) (h' : Header) :
    HeaderMeans (bom :: c :: s) h' ↔
      ∃ h k, HeaderMeans (c :: s) h ∧ h.key = some k ∧ h' = { h with key := some (bom :: k) } := by
  have hv := not_visibleFirst hc hq s
  constructor
  · rintro ⟨pre, seg, cols, after, h1, h2, h3⟩
    obtain ⟨pre', rfl, h4⟩ := (headerShape_mark hv).mp h1
    obtain ⟨p, rfl⟩ := headerShape_first hb h4
    obtain ⟨hk, hkq⟩ := (headerKey_visible bom_ws (bom_ne (by decide)) _ _ _).mp h2
    refine ⟨{ h' with key := some (trim (c :: p)) }, trim (c :: p), ⟨c :: p, seg, cols, after, h4, ?_, h3⟩, rfl, ?_⟩
    · exact (headerKey_visible hc hq _ _ _).mpr ⟨rfl, hkq⟩
    · rw [trim_mark hc] at hk
      cases h'
      simp_all
  · rintro ⟨h, k, ⟨pre, seg, cols, after, h1, h2, h3⟩, hk, rfl⟩
    obtain ⟨p, rfl⟩ := headerShape_first hb h1
    obtain ⟨hk', hkq⟩ := (headerKey_visible hc hq _ _ _).mp h2
    refine ⟨bom :: c :: p, seg, cols, after, (headerShape_mark hv).mpr ⟨_, rfl, h1⟩, ?_, h3⟩
    refine (headerKey_visible bom_ws (bom_ne (by decide)) _ _ _).mpr ⟨?_, hkq⟩
    rw [trim_mark hc, ← (Option.some.inj (hk.symm.trans hk'))]

theorem noHeader_mark (s : Str) : NoHeader (bom :: c :: s) ↔ NoHeader (c :: s) := by
  have hv := not_visibleFirst hc hq s
  have hvb : ¬ VisibleFirst '"' (bom :: c :: s) := not_visibleFirst bom_ws (bom_ne (by decide)) _
  constructor
  · rintro ⟨_, h⟩
    refine ⟨fun h => absurd h hv, fun pre seg cols after hs => ?_⟩
    obtain ⟨p, rfl⟩ := headerShape_first hb hs
    exact ⟨⟨_, _, (headerKey_visible hc hq _ _ _).mpr ⟨rfl, rfl⟩⟩, (h _ _ _ _ ((headerShape_mark hv).mpr ⟨_, rfl, hs⟩)).2⟩
  · rintro ⟨_, h⟩
    refine ⟨fun h => absurd h hvb, fun pre seg cols after hs => ?_⟩
    obtain ⟨pre', rfl, hs'⟩ := (headerShape_mark hv).mp hs
    exact ⟨⟨_, _, (headerKey_visible bom_ws (bom_ne (by decide)) _ _ _).mpr ⟨rfl, rfl⟩⟩, (h _ _ _ _ hs').2⟩

theorem header_keyed (s : Str) (h : Header) (hh : HeaderMeans (c :: s) h) : h.key ≠ none := by
  obtain ⟨pre, seg, cols, after, h1, h2, _⟩ := hh
  obtain ⟨p, rfl⟩ := headerShape_first hb h1
  rw [((headerKey_visible hc hq _ _ _).mp h2).1]
  simp

theorem noKeyedHeader_mark (s : Str) : NoKeyedHeader (bom :: c :: s) ↔ NoKeyedHeader (c :: s) := by
  constructor
  · rintro (h | ⟨h, h1, h2⟩)
    · exact .inl ((noHeader_mark hc hq hb s).mp h)
    · obtain ⟨h', k, _, _, rfl⟩ := (headerMeans_mark hc hq hb s h).mp h1
      simp at h2
  · rintro (h | ⟨h, h1, h2⟩)
    · exact .inl ((noHeader_mark hc hq hb s).mpr h)
    · exact absurd h2 (header_keyed hc hq hb s h h1)

theorem keyLine_mark (hcol : c ≠ ':') (s k after : Str) (q : Bool) :
    KeyLineMeans (bom :: c :: s) k q after ↔ ∃ k', k = bom :: k' ∧ KeyLineMeans (c :: s) k' q after := by
  constructor
  · intro h
    generalize ht : bom :: c :: s = t at h
    cases h with
    | quoted _ => simp at ht; exact absurd ht.1 (bom_ne (by decide))
    | @bare a after h1 h2 =>
      match a with
      | [] => simp at ht; exact absurd ht.1 (bom_ne (by decide))
      | [x] => simp at ht; exact absurd ht.2.1 hcol
      | x :: y :: a =>
        simp at ht
        obtain ⟨rfl, rfl, rfl⟩ := ht
        refine ⟨trim (c :: a), trim_mark hc a, ?_⟩
        have := KeyLineMeans.bare (a := c :: a) (after := after) (fun h => h1 (by simp at h ⊢; exact .inr h)) (by simp [hq])
        simpa using this
  · rintro ⟨k', rfl, h⟩
    generalize ht : c :: s = t at h
    cases h with
    | quoted _ => simp at ht; exact absurd ht.1 hq
    | @bare a after h1 h2 =>
      match a with
      | [] => simp at ht; exact absurd ht.1 hcol
      | y :: a =>
        simp at ht
        obtain ⟨rfl, rfl⟩ := ht
        rw [← trim_mark hc a]
        have := KeyLineMeans.bare (a := bom :: c :: a) (after := after)
          (by intro h; simp only [List.mem_cons] at h h1; rcases h with h | h
              · exact bom_ne (by decide) h.symm
              · exact h1 h)
          (by simpa using bom_ne (c := '"') (by decide))
        simpa using this

end

section
variable {F : Type} [F64 F] {strict : Bool} {blanks : List Nat}

/-- What an array is does not depend on its key. -/
theorem arrayMeans_key {depth : Nat} {h : Header} {rest rest' : List Line} {t : ETree F} (k : Option Str) (q : Bool)
    (ha : ArrayMeans strict blanks depth h rest t rest') :
    ArrayMeans strict blanks depth { h with key := k, keyQuoted := q } rest t rest' := by
  cases ha with
  | inline h1 h2 h3 h4 => exact .inline (h := { h with key := k, keyQuoted := q }) h1 h2 h3 h4
  | table h1 h2 h3 h4 h5 h6 h7 h8 => exact .table (h := { h with key := k, keyQuoted := q }) h1 h2 h3 h4 h5 h6 h7 h8
  | list h1 h2 h3 h4 => exact .list (h := { h with key := k, keyQuoted := q }) h1 h2 h3 h4

theorem entryMeans_mark {c : Char} (hc : isWs c = false) (hq : c ≠ '"') (hb : c ≠ '[') (hcol : c ≠ ':') {depth : Nat} {s : Str}
    {rest rest' : List Line} {e : Str × Bool × ETree F} :
    EntryMeans strict blanks depth (bom :: c :: s) rest e rest' ↔
      ∃ k q t, e = (bom :: k, q, t) ∧ EntryMeans strict blanks depth (c :: s) rest (k, q, t) rest' := by
  constructor
  · intro h
    cases h with
    | array h1 h2 h3 =>
      obtain ⟨h', k', h4, h5, rfl⟩ := (headerMeans_mark hc hq hb s _).mp h1
      simp at h2
      subst h2
      have h6 := arrayMeans_key h'.key h'.keyQuoted h3
      exact ⟨k', _, _, rfl, .array (h := h') h4 h5 h6⟩
    | prim h1 h2 h3 h4 =>
      obtain ⟨k', rfl, h6⟩ := (keyLine_mark hc hq hb hcol s _ _ _).mp h2
      exact ⟨k', _, _, rfl, .prim ((noKeyedHeader_mark hc hq hb s).mp h1) h6 h3 h4⟩
    | empty h1 h2 h3 h4 =>
      obtain ⟨k', rfl, h6⟩ := (keyLine_mark hc hq hb hcol s _ _ _).mp h2
      exact ⟨k', _, _, rfl, .empty ((noKeyedHeader_mark hc hq hb s).mp h1) h6 h3 h4⟩
    | object h1 h2 h3 h4 h5 =>
      obtain ⟨k', rfl, h6⟩ := (keyLine_mark hc hq hb hcol s _ _ _).mp h2
      exact ⟨k', _, _, rfl, .object ((noKeyedHeader_mark hc hq hb s).mp h1) h6 h3 h4 h5⟩
  · rintro ⟨k, q, t, rfl, h⟩
    cases h with
    | @array _ _ _ _ h _ _ h1 h2 h3 =>
      exact .array (h := { h with key := some (bom :: k) }) ((headerMeans_mark hc hq hb s _).mpr ⟨h, k, h1, h2, rfl⟩) rfl
        (arrayMeans_key _ _ h3)
    | prim h1 h2 h3 h4 =>
      exact .prim ((noKeyedHeader_mark hc hq hb s).mpr h1) ((keyLine_mark hc hq hb hcol s _ _ _).mpr ⟨k, rfl, h2⟩) h3 h4
    | empty h1 h2 h3 h4 =>
      exact .empty ((noKeyedHeader_mark hc hq hb s).mpr h1) ((keyLine_mark hc hq hb hcol s _ _ _).mpr ⟨k, rfl, h2⟩) h3 h4
    | object h1 h2 h3 h4 h5 =>
      exact .object ((noKeyedHeader_mark hc hq hb s).mpr h1) ((keyLine_mark hc hq hb hcol s _ _ _).mpr ⟨k, rfl, h2⟩) h3 h4 h5

/-- The key of an entry that begins with a mark begins with it. -/
theorem entryMeans_marked {depth : Nat} {s : Str} {rest rest' : List Line} {e : Str × Bool × ETree F}
    (h : EntryMeans strict blanks depth (bom :: s) rest e rest') : ∃ k, e.1 = bom :: k := by
  have key : ∀ k q after, KeyLineMeans (bom :: s) k q after → ∃ k', k = bom :: k' := by
    intro k q after h
    generalize ht : bom :: s = t at h
    cases h with
    | quoted _ => simp at ht; exact absurd ht.1 (bom_ne (by decide))
    | @bare a after h1 h2 =>
      cases a with
      | nil => simp at ht; exact absurd ht.1 (bom_ne (by decide))
      | cons x a => simp at ht; rw [← ht.1]; exact ⟨_, trim_cons_visible bom_ws _⟩
  cases h with
  | array h1 h2 h3 =>
    obtain ⟨pre, seg, cols, after, h5, h4, _⟩ := h1
    obtain ⟨p, rfl⟩ := headerShape_first (bom_ne (by decide)) h5
    rw [((headerKey_visible bom_ws (bom_ne (by decide)) _ _ _).mp h4).1, trim_cons_visible bom_ws] at h2
    exact ⟨_, (Option.some.inj h2).symm⟩
  | prim _ h _ _ => exact key _ _ _ h
  | empty _ h _ _ => exact key _ _ _ h
  | object _ h _ _ _ => exact key _ _ _ h

omit [F64 F] in
theorem not_numGrammar_bom (s : Str) : ¬ NumGrammar (bom :: s) := by
  rintro ⟨sign, int, frac, exp, h, hs, ⟨hne, hd⟩, _⟩
  rcases hs with rfl | rfl
  · cases int with
    | nil => simp at hne
    | cons d ds =>
      have h1 := hd d (by simp)
      rw [← (List.cons.inj h).1] at h1
      exact absurd h1 (by decide +kernel)
  · exact absurd (List.cons.inj h).1 (bom_ne (by decide))

/-- A token that begins with a mark is a string. -/
theorem tokenMeans_bom (s : Str) (p : Prim F) : TokenMeans (bom :: s) p ↔ p = .str (bom :: s) := by
  constructor
  · intro h
    generalize ht : bom :: s = t at h
    cases h with
    | empty => simp at ht
    | quoted _ => simp at ht; exact absurd ht.1 (bom_ne (by decide))
    | true => have := (List.cons.inj (ht.trans (show "true".toList = 't' :: "rue".toList from rfl))).1; exact absurd this (bom_ne (by decide))
    | false => have := (List.cons.inj (ht.trans (show "false".toList = 'f' :: "alse".toList from rfl))).1; exact absurd this (bom_ne (by decide))
    | null => have := (List.cons.inj (ht.trans (show "null".toList = 'n' :: "ull".toList from rfl))).1; exact absurd this (bom_ne (by decide))
    | number h _ _ => rw [← ht] at h; exact absurd h (not_numGrammar_bom s)
    | bare _ _ _ _ _ _ => rfl
  · rintro rfl
    refine .bare (by simp) (by simpa using bom_ne (c := '"') (by decide)) ?_ ?_ ?_ (fun h => absurd h (not_numGrammar_bom s))
    · intro h; exact absurd (List.cons.inj (h.trans (show "true".toList = 't' :: "rue".toList from rfl))).1 (bom_ne (by decide))
    · intro h; exact absurd (List.cons.inj (h.trans (show "false".toList = 'f' :: "alse".toList from rfl))).1 (bom_ne (by decide))
    · intro h; exact absurd (List.cons.inj (h.trans (show "null".toList = 'n' :: "ull".toList from rfl))).1 (bom_ne (by decide))

end

/-- A first line that begins with a visible character. -/
theorem scansTo_visible {indent : Nat} {strict : Bool} {n : Nat} {c : Char} (hc : isWs c = false) {s : Str} {rest : List Str}
    {lines : List Line} {blanks : List Nat} :
    ScansTo indent strict n ((c :: s) :: rest) lines blanks ↔
      ∃ ls, lines = ⟨0, c :: s, n + 1⟩ :: ls ∧ ScansTo indent strict (n + 1) rest ls blanks := by
  have h1 : c ≠ ' ' := by rintro rfl; revert hc; decide
  have h2 : c ≠ '\t' := by rintro rfl; revert hc; decide
  constructor
  · intro h
    generalize hr : (c :: s) :: rest = src at h
    cases h with
    | nil => simp at hr
    | blank hbl _ => simp at hr; rw [← hr.1] at hbl; exact absurd hbl (not_blank_cons hc s)
    | @line _ spaces content _ ls _ a1 a2 a3 a4 =>
      cases spaces with
      | zero =>
        simp at hr
        obtain ⟨rfl, rfl⟩ := hr
        exact ⟨ls, by simp, a4⟩
      | succ m => simp [List.replicate_succ] at hr; exact absurd hr.1.1 h1
  · rintro ⟨ls, rfl, h⟩
    have := ScansTo.line (indent := indent) (strict := strict) (n := n) (spaces := 0) (content := c :: s) (rest := rest)
      (not_blank_cons hc s) (by simpa using h1) (fun _ => ⟨by simpa using h2, by simp⟩) h
    simpa using this

theorem scansTo_indented {indent : Nat} {strict : Bool} (hi : 0 < indent) {n : Nat} {src : List Str} {lines : List Line}
    {blanks : List Nat} (h : ScansTo indent strict n src lines blanks)
    (hr : ∀ raw ∈ src, BlankLine raw ∨ ∃ s, raw = List.replicate indent ' ' ++ s) : ∀ l ∈ lines, 0 < l.depth := by
  induction h with
  | nil => simp
  | blank _ _ ih => exact ih (fun raw h => hr raw (by simp [h]))
  | @line n spaces content rest ls bs a1 a2 a3 a4 ih =>
    intro l hl
    rcases List.mem_cons.mp hl with rfl | hl
    · rcases hr _ List.mem_cons_self with h | ⟨s, h⟩
      · exact absurd (fun c hc => h c (by simp [hc])) a1
      · apply Nat.div_pos _ hi
        apply Classical.byContradiction
        intro hlt
        have hlt : spaces < indent := by omega
        obtain ⟨m, rfl⟩ := Nat.exists_eq_add_of_lt hlt
        rw [show spaces + m + 1 = spaces + (m + 1) by omega, ← List.replicate_append_replicate, List.append_assoc] at h
        have := List.append_cancel_left h
        rw [this] at a2
        simp [List.replicate_succ] at a2
    · exact ih (fun raw h => hr raw (by simp [h])) l hl

theorem scansTo_nil_blank {indent : Nat} {strict : Bool} {n : Nat} {src : List Str} {lines : List Line} {blanks : List Nat}
    (h : ScansTo indent strict n src lines blanks) (hn : lines = []) : ∀ raw ∈ src, BlankLine raw := by
  induction h with
  | nil => simp
  | blank h _ ih =>
    intro raw hr
    rcases List.mem_cons.mp hr with rfl | hr
    · exact h
    · exact ih hn raw hr
  | line _ _ _ _ _ => simp at hn

/-- If all pieces but the first are blank, the text is the first piece and white space. -/
theorem splitOn_blank_rest (s : Str) : ∀ w ws, splitOn '\n' s = w :: ws → (∀ x ∈ ws, BlankLine x) →
    ∃ r, s = w ++ r ∧ r.all isWs = true := by
  induction s with
  | nil => intro w ws h _; simp [splitOn] at h; exact ⟨[], by simp [h.1], rfl⟩
  | cons x xs ih =>
    intro w ws h hb
    by_cases hx : x = '\n'
    · subst hx
      simp [splitOn] at h
      obtain ⟨rfl, h⟩ := h
      cases hs : splitOn '\n' xs with
      | nil => exact absurd hs (splitOn_ne_nil _ _)
      | cons w' ws' =>
        rw [hs] at h
        subst h
        obtain ⟨r, rfl, hr⟩ := ih w' ws' hs (fun x hx => hb x (by simp [hx]))
        refine ⟨_, rfl, ?_⟩
        have hw : w'.all isWs = true := List.all_eq_true.mpr (hb w' (by simp))
        simp [hw, hr]
        decide
    · cases hs : splitOn '\n' xs with
      | nil => exact absurd hs (splitOn_ne_nil _ _)
      | cons w' ws' =>
        simp [splitOn, hx, hs] at h
        obtain ⟨rfl, rfl⟩ := h
        obtain ⟨r, rfl, hr⟩ := ih w' ws' hs hb
        exact ⟨r, by simp, hr⟩

theorem splitOn_cons_ne {c x : Char} (h : x ≠ c) (s : Str) :
    ∃ w ws, splitOn c s = w :: ws ∧ splitOn c (x :: s) = (x :: w) :: ws := by
  cases hs : splitOn c s with
  | nil => exact absurd hs (splitOn_ne_nil c s)
  | cons w ws => exact ⟨w, ws, rfl, by simp [splitOn, h, hs]⟩


/-! ## Documents -/

section
variable {F : Type} [F64 F] {strict : Bool} {blanks : List Nat}

theorem document_marked {s : Str} {n : Nat} {rest rest' : List Line} {t : ETree F}
    (h : DocumentMeans strict blanks (⟨0, bom :: s, n⟩ :: rest) t rest') :
    t = .prim (.str (bom :: trimEnd s)) ∨ ∃ k q t₁ es, t = .obj ((bom :: k, q, t₁) :: es) := by
  cases h with
  | array h _ _ _ => exact absurd h (not_visibleFirst bom_ws (bom_ne (by decide)) _)
  | prim _ h =>
    refine .inl ?_
    simp only [trim_cons_visible bom_ws] at h
    rw [(tokenMeans_bom _ _).mp h]
  | @object _ _ _ _ e es _ h _ =>
    obtain ⟨k, hk⟩ := entryMeans_marked h
    obtain ⟨k', q, t₁⟩ := e
    simp at hk
    subst hk
    exact .inr ⟨k, q, t₁, es, rfl⟩

theorem document_object_mark {c : Char} (hc : isWs c = false) (hq : c ≠ '"') (hb : c ≠ '[') (hcol : c ≠ ':') {s k : Str}
    {n : Nat} {q : Bool} {t : ETree F} {rest rest' : List Line} {es : List (Str × Bool × ETree F)} :
    DocumentMeans strict blanks (⟨0, bom :: c :: s, n⟩ :: rest) (.obj ((bom :: k, q, t) :: es)) rest' ↔
      DocumentMeans strict blanks (⟨0, c :: s, n⟩ :: rest) (.obj ((k, q, t) :: es)) rest' := by
  have hv := not_visibleFirst hc hb s
  have hvb : ¬ VisibleFirst '[' (bom :: c :: s) := not_visibleFirst bom_ws (bom_ne (by decide)) _
  have noArr : ∀ {h : Header} {es' : List (Str × Bool × ETree F)} {r r'},
      ¬ ArrayMeans (F := F) strict blanks 0 h r (.obj es') r' := by
    intro h es' r r' ha; cases ha
  constructor
  · intro h
    cases h with
    | array h _ _ _ => exact absurd h hvb
    | object _ h1 h2 =>
      obtain ⟨k', q', t', he, h3⟩ := (entryMeans_mark hc hq hb hcol).mp h1
      simp at he
      obtain ⟨rfl, rfl, rfl⟩ := he
      exact .object (fun h => absurd h hv) h3 h2
  · intro h
    cases h with
    | array h _ _ _ => exact absurd h hv
    | object _ h1 h2 =>
      exact .object (fun h => absurd h hvb) ((entryMeans_mark hc hq hb hcol).mpr ⟨k, q, t, rfl, h1⟩) h2

theorem document_array_mark {s : Str} {n : Nat} {m : Nat} {ts : List (ETree F)} {rest rest' : List Line}
    (hr : ∀ l ∈ rest, 0 < l.depth)
    (h : DocumentMeans strict blanks (⟨0, '[' :: s, n⟩ :: rest) (.arr m ts) rest') :
    DocumentMeans strict blanks (⟨0, bom :: '[' :: s, n⟩ :: rest) (.obj [([bom], false, .arr m ts)]) rest' := by
  have hvb : ¬ VisibleFirst '[' (bom :: '[' :: s) := not_visibleFirst bom_ws (bom_ne (by decide)) _
  have hv : ¬ VisibleFirst '"' ('[' :: s) := not_visibleFirst (by decide) (by decide) _
  cases h with
  | @array _ _ _ h _ _ _ h1 h2 =>
    obtain ⟨pre, seg, cols, after, h3, h4, h5⟩ := h1
    have hp : pre = [] := by
      obtain ⟨r, h3, _⟩ := h3
      generalize hs : '[' :: s = t at h3
      cases h3 with
      | @quoted ws _ _ hb _ =>
        cases ws with
        | nil => simp at hs
        | cons w ws =>
          simp at hs
          have := hb w (by simp)
          rw [← hs.1] at this
          exact absurd this (by decide)
      | bare _ hn =>
        cases pre with
        | nil => rfl
        | cons p pre => simp at hs; exact absurd (by rw [hs.1]; exact List.mem_cons_self) hn
    subst hp
    have hm : HeaderMeans (bom :: '[' :: s) { h with key := some [bom], keyQuoted := false } :=
      ⟨[bom], seg, cols, after, (headerShape_mark hv).mpr ⟨[], rfl, h3⟩,
        (headerKey_visible bom_ws (bom_ne (by decide)) _ _ _).mpr ⟨by rw [trim_cons_visible bom_ws]; rfl, rfl⟩, h5⟩
    refine .object (fun h => absurd h hvb) (.array hm rfl (arrayMeans_key _ _ h2)) (.stop ?_)
    rintro ⟨line, more, hl, hd, _⟩
    have hsub : ∀ l ∈ rest', l ∈ rest := by
      intro l hl
      cases h2 with
      | inline _ _ _ _ => exact hl
      | table _ _ _ _ _ _ _ _ => simp [hl]
      | list _ _ _ _ => simp [hl]
    have := hr line (hsub line (by rw [hl]; simp))
    omega

theorem document_prim_mark {c : Char} (hc : isWs c = false) (hq : c ≠ '"') {s : Str} {n : Nat} {p : Prim F} {rest rest' : List Line}
    (h : DocumentMeans strict blanks (⟨0, c :: s, n⟩ :: rest) (.prim p) rest') :
    DocumentMeans (F := F) strict blanks (⟨0, bom :: c :: s, n⟩ :: rest) (.prim (.str (bom :: trim (c :: s)))) rest' := by
  cases h with
  | array _ _ _ h => cases h
  | prim h1 h2 =>
    refine .prim (.inr ?_) (by simp only [trim_mark hc]; exact (tokenMeans_bom _ _).mpr rfl)
    rcases h1 with h1 | h1
    · simp at h1; exact absurd h1 hq
    · simp only [List.mem_cons, not_or] at h1 ⊢
      exact ⟨(bom_ne (by decide)).symm, h1⟩

end

/-! ## Path expansion -/

section
variable {F : Type}

theorem replaceKey_first (k : Str) (v : Json F) (k' : Str) (v' : Json F) (es : List (Str × Json F)) :
    ∃ w ws, replaceKey k v ((k', v') :: es) = (k', w) :: ws := by
  rw [replaceKey]; split <;> exact ⟨_, _, rfl⟩

theorem mergeObj_first (b : List (Str × Json F)) : ∀ (k : Str) (v : Json F) (a : List (Str × Json F)),
    ∃ w ws, mergeObj ((k, v) :: a) b = (k, w) :: ws := by
  induction b with
  | nil => intro k v a; exact ⟨v, a, by rw [mergeObj]⟩
  | cons e b ih =>
    obtain ⟨k', v'⟩ := e
    intro k v a
    rw [mergeObj]
    split
    · exact ih k v _
    · rename_i c _
      obtain ⟨w, ws, h⟩ := replaceKey_first k' (deepMerge c v') k v a
      rw [h]
      exact ih k w ws

theorem expandedEntries_first (quoted : Str → Bool) (es : List (Str × Bool × ETree F)) :
    ∀ (k : Str) (v : Json F) (a : List (Str × Json F)), ∃ w ws, expandedEntries quoted es ((k, v) :: a) = (k, w) :: ws := by
  induction es with
  | nil => intro k v a; exact ⟨v, a, by rw [expandedEntries]⟩
  | cons e es ih =>
    obtain ⟨k', q, t⟩ := e
    intro k v a
    rw [expandedEntries]
    obtain ⟨w, ws, h⟩ := mergeObj_first (atPath (keyPath (quoted k') k') (expanded t)) k v a
    rw [h]
    exact ih k w ws

theorem keyPath_bom (q : Bool) (k : Str) : keyPath q (bom :: k) = [bom :: k] := by
  have h : (splitDots (bom :: k)).all identifier = false := by
    rw [splitDots, if_neg (bom_ne (by decide))]
    have hi : ∀ w, identifier (bom :: w) = false := by
      intro w
      rw [identifier, show (byteOrderMark.isAlpha || byteOrderMark == '_') = false by decide +kernel, Bool.false_and]
    cases splitDots k <;> simp [hi]
  simp [keyPath, h]

theorem expanded_marked (k : Str) (q : Bool) (t : ETree F) (es : List (Str × Bool × ETree F)) :
    ∃ w ws, expanded (.obj ((bom :: k, q, t) :: es)) = .obj ((bom :: k, w) :: ws) := by
  rw [expanded, expandedEntries, keyPath_bom]
  simp only [atPath, nested, mergeObj, lookupKey, List.nil_append]
  obtain ⟨w, ws, h⟩ := expandedEntries_first (quotedIn ((bom :: k, q, t) :: es)) es (bom :: k) (expanded t) []
  exact ⟨w, ws, by rw [h]⟩

/-! ## JSON -/

theorem readJson_bom (rd : Str → Option F) (s : Str) : readJson rd (bom :: s) = none := by
  have h1 : skipJsonWs (bom :: s) = bom :: s := by
    rw [skipJsonWs, List.dropWhile_cons, show isJsonWs bom = false by decide +kernel]; rfl
  have h2 : ∀ n, readValue rd (n + 1) (bom :: s) = none := by
    intro n
    rw [readValue, if_neg (bom_ne (by decide)), if_neg (bom_ne (by decide)), if_neg (bom_ne (by decide)),
      if_neg (bom_ne (by decide)), if_neg (bom_ne (by decide)), if_neg (bom_ne (by decide)), readNumber,
      List.takeWhile_cons, show isJsonNumChar bom = false by decide +kernel]
    rfl
  rw [readJson, h1, h2]

end

end Toon
