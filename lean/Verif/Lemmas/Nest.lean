import Verif.Lemmas.GrammarRoot
import Verif.Lemmas.Mark
import Verif.Lemmas.Reindent
import Verif.Lemmas.JoinText
import Verif.Spec.Nest

/-!
# Moving lines to the right and to the left

A derivation of the grammar stays one when all its lines are moved by the same number of levels.
-/

namespace Toon

section
variable {F : Type} [F64 F]

/-- Lines with `P`, at depths with `D`, are moved by `f` to the depths given by `g`; `bs'` are the blank lines then.  The lines
`more`, which begin further left, follow. -/
structure Moves (P : Line → Prop) (D : Nat → Prop) (f : Line → Line) (g : Nat → Nat) (bs bs' : List Nat) (more : List Line) :
    Prop where
  content : ∀ l, (f l).content = l.content
  depth : ∀ l, (f l).depth = g l.depth
  dom : ∀ l, P l → D l.depth
  succ : ∀ d, D d → D (d + 1) ∧ g (d + 1) = g d + 1
  lt : ∀ d d', D d → D d' → (g d < g d' ↔ d < d')
  blank : ∀ body, (∀ l ∈ body, P l) → NoBlankWithin bs body → NoBlankWithin bs' (body.map f)
  left : ∀ l ls, more = l :: ls → ∀ d, D d → l.depth < g d

variable {P : Line → Prop} {D : Nat → Prop} {f : Line → Line} {g : Nat → Nat} {bs bs' : List Nat} {more : List Line}
  {strict : Bool}

omit [F64 F] in
theorem Moves.inj (m : Moves P D f g bs bs' more) {d d' : Nat} (h : D d) (h' : D d') (he : g d = g d') : d = d' := by
  have h1 := m.lt d d' h h'
  have h2 := m.lt d' d h' h
  omega

omit [F64 F] in
theorem Moves.next (m : Moves P D f g bs bs' more) {d : Nat} (hd : D d) {p : Str → Prop} {rest : List Line} (hr : ∀ l ∈ rest, P l)
    (h : ¬ NextIs d p rest) : ¬ NextIs (g d) p (rest.map f ++ more) := by
  rintro ⟨line, more', h1, h2, h3⟩
  cases rest with
  | nil =>
    have := m.left line more' (by simpa using h1) d hd
    omega
  | cons l ls =>
    simp only [List.map_cons, List.cons_append, List.cons.injEq] at h1
    obtain ⟨rfl, rfl⟩ := h1
    refine h ⟨l, ls, rfl, ?_, by rw [← m.content]; exact h3⟩
    rw [m.depth] at h2
    exact m.inj (m.dom l (hr l (by simp))) hd h2

theorem Moves.rows (m : Moves P D f g bs bs' more) {fields : List FieldName} {dl : Char} {body : List Line} {ts : List (ETree F)}
    (h : Pointwise (TableRow strict fields dl) body ts) : Pointwise (TableRow strict fields dl) (body.map f) ts := by
  induction h with
  | nil => exact .nil
  | @cons l t _ _ h _ ih =>
    refine .cons ?_ ih
    obtain ⟨cells, prims, h1, h2, h3, h4⟩ := h
    exact ⟨cells, prims, by rw [m.content]; exact h1, h2, h3, h4⟩

/-- An entry of moved lines. -/
theorem moves_entry (m : Moves P D f g bs bs' more) {depth : Nat} {content : Str} {rest rest' : List Line} {e : Str × Bool × ETree F}
    (h : EntryMeans strict bs depth content rest e rest') : D depth → (∀ l ∈ rest, P l) →
    (∀ l ∈ rest', P l) ∧ EntryMeans strict bs' (g depth) content (rest.map f ++ more) e (rest'.map f ++ more) := by
  refine EntryMeans.rec (strict := strict) (blanks := bs)
    (motive_1 := fun depth content rest e rest' _ => D depth → (∀ l ∈ rest, P l) →
      (∀ l ∈ rest', P l) ∧ EntryMeans strict bs' (g depth) content (rest.map f ++ more) e (rest'.map f ++ more))
    (motive_2 := fun inList depth rest es rest' _ => D depth → (∀ l ∈ rest, P l) →
      (∀ l ∈ rest', P l) ∧ BlockMeans strict bs' inList (g depth) (rest.map f ++ more) es (rest'.map f ++ more))
    (motive_3 := fun depth h rest t rest' _ => D depth → (∀ l ∈ rest, P l) →
      (∀ l ∈ rest', P l) ∧ ArrayMeans strict bs' (g depth) h (rest.map f ++ more) t (rest'.map f ++ more))
    (motive_4 := fun n depth rest ts rest' _ => D depth → (∀ l ∈ rest, P l) →
      (∀ l ∈ rest', P l) ∧ ItemsMean strict bs' n (g depth) (rest.map f ++ more) ts (rest'.map f ++ more))
    (motive_5 := fun depth content rest t rest' _ => D depth → (∀ l ∈ rest, P l) →
      (∀ l ∈ rest', P l) ∧ ItemMeans' strict bs' (g depth) content (rest.map f ++ more) t (rest'.map f ++ more))
    ?_ ?_ ?_ ?_ ?_ ?_ ?_ ?_ ?_ ?_ ?_ ?_ ?_ ?_ ?_ ?_ h
  · intro depth content rest rest' h k t h1 h2 _ ih hd hp
    obtain ⟨h3, h4⟩ := ih hd hp
    exact ⟨h3, .array h1 h2 h4⟩
  · intro depth content after k q rest p h1 h2 h3 h4 _ hp
    exact ⟨hp, .prim h1 h2 h3 h4⟩
  · intro depth content after k q rest h1 h2 h3 h4 hd hp
    refine ⟨hp, .empty h1 h2 h3 ?_⟩
    intro line more' he
    cases rest with
    | nil => exact Nat.le_of_lt (m.left line more' (by simpa using he) depth hd)
    | cons l ls =>
      simp only [List.map_cons, List.cons_append, List.cons.injEq] at he
      rw [← he.1, m.depth]
      have := h4 l ls rfl
      have h5 := m.lt depth l.depth hd (m.dom l (hp l (by simp)))
      omega
  · intro depth content after k q line rest rest' es h1 h2 h3 h4 _ ih hd hp
    have hl := m.dom line (hp line (by simp))
    obtain ⟨h5, h6⟩ := ih hl hp
    refine ⟨h5, .object h1 h2 h3 ?_ ?_⟩
    · rw [m.depth]; exact (m.lt _ _ hd hl).mpr h4
    · rw [m.depth]; exact h6
  · intro inList depth rest h hd hp
    exact ⟨hp, .stop (m.next hd hp h)⟩
  · intro inList depth line rest rest₁ rest₂ e es h1 h2 _ _ ih1 ih2 hd hp
    obtain ⟨h3, h4⟩ := ih1 hd (fun l hl => hp l (by simp [hl]))
    obtain ⟨h5, h6⟩ := ih2 hd h3
    exact ⟨h5, .entry (by rw [m.depth, h1]) (by rw [m.content]; exact h2) (by rw [m.content]; exact h4) h6⟩
  · intro depth h rest text cells prims h1 h2 h3 h4 _ hp
    exact ⟨hp, .inline h1 h2 h3 h4⟩
  · intro depth h body rest fields ts h1 h2 h3 h4 h5 h6 h7 h8 hd hp
    have hb : ∀ l ∈ body, P l := fun l hl => hp l (by simp [hl])
    have hr : ∀ l ∈ rest, P l := fun l hl => hp l (by simp [hl])
    obtain ⟨hd1, hd2⟩ := m.succ depth hd
    refine ⟨hr, ?_⟩
    rw [List.map_append, List.append_assoc]
    refine .table h1 h2 h3 ?_ (m.rows h5) (by simpa using h6) ?_ ?_
    · intro l hl
      obtain ⟨l', hl', rfl⟩ := List.mem_map.mp hl
      rw [m.depth, h4 l' hl', hd2]
    · intro hlt
      rw [← hd2]
      exact m.next hd1 hr (h7 (by simpa using hlt))
    · intro hs
      obtain ⟨h9, h10, h11⟩ := h8 hs
      refine ⟨by simpa using h9, m.blank body hb h10, ?_⟩
      rw [← hd2]
      exact m.next hd1 hr h11
  · intro depth h body rest ts h1 h2 _ h4 ih hd hp
    have hb : ∀ l ∈ body, P l := fun l hl => hp l (by simp [hl])
    obtain ⟨hd1, hd2⟩ := m.succ depth hd
    obtain ⟨hr, h5⟩ := ih hd1 hp
    refine ⟨hr, ?_⟩
    rw [List.map_append, List.append_assoc] at h5 ⊢
    refine .list h1 h2 (by rw [← hd2]; exact h5) ?_
    intro hs
    obtain ⟨h9, h10, h11⟩ := h4 hs
    refine ⟨h9, m.blank body hb h10, ?_⟩
    rw [← hd2]
    exact m.next hd1 hr h11
  · intro n depth rest h hd hp
    refine ⟨hp, .stop ?_⟩
    rcases h with h | h
    · exact .inl h
    · exact .inr (m.next hd hp h)
  · intro n depth line rest rest₁ rest₂ t ts h1 _ _ ih1 ih2 hd hp
    obtain ⟨h3, h4⟩ := ih1 hd (fun l hl => hp l (by simp [hl]))
    obtain ⟨h5, h6⟩ := ih2 hd h3
    exact ⟨h5, .item (by rw [m.depth, h1]) (by rw [m.content]; exact h4) h6⟩
  · intro depth rest _ hp
    exact ⟨hp, .hyphen⟩
  · intro depth after rest h _ hp
    exact ⟨hp, .blank h⟩
  · intro depth after rest rest' h t h1 h2 h3 _ ih hd hp
    obtain ⟨h4, h5⟩ := ih hd hp
    exact ⟨h4, .array h1 h2 h3 h5⟩
  · intro depth after rest rest₁ rest₂ e es h1 h2 _ _ ih1 ih2 hd hp
    obtain ⟨hd1, hd2⟩ := m.succ depth hd
    obtain ⟨h3, h4⟩ := ih1 hd1 hp
    obtain ⟨h5, h6⟩ := ih2 hd1 h3
    rw [hd2] at h4 h6
    exact ⟨h5, .object h1 h2 h4 h6⟩
  · intro depth after rest p h1 h2 h3 h4 _ hp
    exact ⟨hp, .prim h1 h2 h3 h4⟩

/-- A block of moved lines. -/
theorem moves_block (m : Moves P D f g bs bs' more) {inList : Bool} {depth : Nat} {rest rest' : List Line}
    {es : List (Str × Bool × ETree F)} (h : BlockMeans strict bs inList depth rest es rest') : D depth → (∀ l ∈ rest, P l) →
    (∀ l ∈ rest', P l) ∧ BlockMeans strict bs' inList (g depth) (rest.map f ++ more) es (rest'.map f ++ more) := by
  induction es generalizing rest with
  | nil =>
    intro hd hp
    cases h with
    | stop h => exact ⟨hp, .stop (m.next hd hp h)⟩
  | cons e es ih =>
    intro hd hp
    cases h with
    | entry h1 h2 h3 h4 =>
      obtain ⟨h5, h6⟩ := moves_entry m h3 hd (fun l hl => hp l (by simp [hl]))
      obtain ⟨h7, h8⟩ := ih h4 hd h5
      exact ⟨h7, .entry (by rw [m.depth, h1]) (by rw [m.content]; exact h2) (by rw [m.content]; exact h6) h8⟩

end

/-! ## The lines of an indented text -/

/-- One level deeper and one line further down. -/
def oneDeeper (l : Line) : Line := ⟨l.depth + 1, l.content, l.num + 1⟩

theorem blank_pad (n : Nat) (raw : Str) : BlankLine (List.replicate n ' ' ++ raw) ↔ BlankLine raw := by
  constructor
  · intro h c hc; exact h c (by simp [hc])
  · intro h c hc
    rcases List.mem_append.mp hc with hc | hc
    · rw [(List.mem_replicate.mp hc).2]; decide
    · exact h c hc

theorem scansTo_deeper {indent : Nat} (hi : 0 < indent) {strict : Bool} {n : Nat} {src : List Str} {lines : List Line}
    {blanks : List Nat} (h : ScansTo indent strict n src lines blanks) :
    ScansTo indent strict (n + 1) (src.map (List.replicate indent ' ' ++ ·)) (lines.map oneDeeper) (blanks.map (· + 1)) := by
  induction h with
  | nil => exact .nil _
  | blank hb _ ih => exact .blank ((blank_pad _ _).mpr hb) ih
  | @line n spaces content rest ls bs h1 h2 h3 _ ih =>
    have := ScansTo.line (indent := indent) (strict := strict) (n := n + 1) (spaces := indent + spaces) (content := content)
      h1 h2 (fun hs => ⟨(h3 hs).1, by rw [Nat.add_mod_left]; exact (h3 hs).2⟩) ih
    rw [← List.replicate_append_replicate, List.append_assoc, Nat.add_div_left _ hi] at this
    exact this

theorem replicate_prefix {c : Char} {n m : Nat} {s t : Str} (h : List.replicate n c ++ s = List.replicate m c ++ t)
    (ht : t.head? ≠ some c) : n ≤ m ∧ s = List.replicate (m - n) c ++ t := by
  induction n generalizing m with
  | zero => exact ⟨Nat.zero_le _, by simpa using h⟩
  | succ n ih =>
    cases m with
    | zero =>
      simp only [List.replicate_zero, List.nil_append] at h
      rw [← h] at ht
      simp [List.replicate_succ] at ht
    | succ m =>
      simp only [List.replicate_succ, List.cons_append, List.cons.injEq, true_and] at h
      obtain ⟨h1, h2⟩ := ih h
      exact ⟨by omega, by rw [h2]; simp⟩

theorem scansTo_shallower {indent : Nat} (hi : 0 < indent) {strict : Bool} (src : List Str) : ∀ {n : Nat} {lines : List Line}
    {blanks : List Nat}, ScansTo indent strict (n + 1) (src.map (List.replicate indent ' ' ++ ·)) lines blanks →
    ∃ ls bs, lines = ls.map oneDeeper ∧ blanks = bs.map (· + 1) ∧ ScansTo indent strict n src ls bs := by
  induction src with
  | nil =>
    intro n lines blanks h
    cases h
    exact ⟨[], [], rfl, rfl, .nil _⟩
  | cons raw src ih =>
    intro n lines blanks h
    generalize hs : List.map (List.replicate indent ' ' ++ ·) (raw :: src) = s at h
    cases h with
    | nil => simp at hs
    | blank hb hr =>
      simp only [List.map_cons, List.cons.injEq] at hs
      obtain ⟨rfl, rfl⟩ := hs
      obtain ⟨ls, bs, rfl, rfl, h4⟩ := ih hr
      exact ⟨ls, (n + 1) :: bs, rfl, rfl, .blank ((blank_pad _ _).mp hb) h4⟩
    | @line _ spaces content rest ls bs h1 h2 h3 hr =>
      simp only [List.map_cons, List.cons.injEq] at hs
      obtain ⟨hs, rfl⟩ := hs
      obtain ⟨ls, bs, rfl, rfl, h4⟩ := ih hr
      obtain ⟨h5, rfl⟩ := replicate_prefix hs h2
      obtain ⟨m, rfl⟩ : ∃ m, spaces = indent + m := ⟨spaces - indent, by omega⟩
      refine ⟨⟨m / indent, content, n + 1⟩ :: ls, bs, ?_, rfl, ?_⟩
      · simp only [List.map_cons, oneDeeper, Nat.add_div_left _ hi]
      · rw [Nat.add_sub_cancel_left]
        exact .line h1 h2 (fun hs => ⟨(h3 hs).1, by have := (h3 hs).2; rwa [Nat.add_mod_left] at this⟩) h4

theorem noBlank_map {bs : List Nat} {body : List Line} {f : Line → Line} {bs' : List Nat}
    (hf : ∀ first ∈ body, ∀ last ∈ body, ∀ b' ∈ bs', (f first).num < b' → b' < (f last).num →
      ∃ b ∈ bs, first.num < b ∧ b < last.num) (h : NoBlankWithin bs body) : NoBlankWithin bs' (body.map f) := by
  intro first last h1 h2 b' hb ⟨h3, h4⟩
  rw [List.head?_map] at h1
  rw [List.getLast?_map] at h2
  cases hh : body.head? with
  | none => rw [hh] at h1; simp at h1
  | some x =>
    cases hl : body.getLast? with
    | none => rw [hl] at h2; simp at h2
    | some y =>
      rw [hh] at h1; rw [hl] at h2
      simp only [Option.map_some, Option.some.injEq] at h1 h2
      subst h1 h2
      obtain ⟨b, k1, k2⟩ := hf x (List.mem_of_mem_head? hh) y (List.mem_of_mem_getLast? hl) b' hb h3 h4
      exact h x y hh hl b k1 k2

theorem moves_deeper (bs : List Nat) : Moves (fun _ => True) (fun _ => True) oneDeeper (· + 1) bs (bs.map (· + 1)) [] where
  content _ := rfl
  depth _ := rfl
  dom _ _ := trivial
  succ _ _ := ⟨trivial, rfl⟩
  lt _ _ _ _ := by omega
  blank body _ h := by
    refine noBlank_map ?_ h
    intro first _ last _ b' hb h1 h2
    obtain ⟨b, hb', rfl⟩ := List.mem_map.mp hb
    simp only [oneDeeper] at h1 h2
    exact ⟨b, hb', by omega, by omega⟩
  left := by simp

/-- One level back. -/
def oneShallower (l : Line) : Line := ⟨l.depth - 1, l.content, l.num - 1⟩

theorem shallower_deeper (ls : List Line) : (ls.map oneDeeper).map oneShallower = ls := by
  induction ls with
  | nil => rfl
  | cons l ls ih => rw [List.map_cons, List.map_cons, ih]; rfl

theorem moves_shallower (bs : List Nat) :
    Moves (fun l => 0 < l.depth ∧ 0 < l.num) (0 < ·) oneShallower (· - 1) (bs.map (· + 1)) bs [] where
  content _ := rfl
  depth _ := rfl
  dom _ h := h.1
  succ d h := ⟨by omega, by omega⟩
  lt d d' h h' := by omega
  blank body hp h := by
    refine noBlank_map ?_ h
    intro first hf last hl b hb h1 h2
    have := (hp first hf).2
    have := (hp last hl).2
    simp only [oneShallower] at h1 h2
    exact ⟨b + 1, List.mem_map.mpr ⟨b, hb, rfl⟩, by omega, by omega⟩
  left := by simp

theorem deeper_positive (ls : List Line) : ∀ l ∈ ls.map oneDeeper, 0 < l.depth ∧ 0 < l.num := by
  intro l hl
  obtain ⟨l', _, rfl⟩ := List.mem_map.mp hl
  simp [oneDeeper]

/-! ## Documents -/

section
variable {F : Type} [F64 F] {strict : Bool} {bs : List Nat}

/-- The object under a key. -/
theorem document_underKey {content k : Str} {q : Bool} (hn : NoKeyedHeader content) (hk : KeyLineMeans content k q [])
    (hb : ¬ VisibleFirst '[' content) {line : Line} {rest rest' : List Line} {es : List (Str × Bool × ETree F)} {n : Nat}
    (h0 : line.depth = 0) (h : DocumentMeans strict bs (line :: rest) (.obj es) rest') :
    DocumentMeans strict (bs.map (· + 1)) (⟨0, content, n⟩ :: (line :: rest).map oneDeeper) (.obj [(k, q, .obj es)]) (rest'.map oneDeeper) := by
  have hstop : ∀ {r : List Line}, BlockMeans (F := F) strict (bs.map (· + 1)) false 0 (r.map oneDeeper) [] (r.map oneDeeper) := by
    intro r
    refine .stop ?_
    rintro ⟨l, more, h1, h2, _⟩
    have := (deeper_positive r l (by rw [h1]; simp)).1
    omega
  cases h with
  | array _ _ _ h => cases h
  | @object _ _ _ _ e es _ h1 h2 =>
    have hblock : BlockMeans strict bs false 0 (line :: rest) (e :: es) rest' := .entry h0 (by simp) h1 h2
    obtain ⟨_, h3⟩ := moves_block (moves_deeper bs) hblock trivial (by simp)
    rw [List.append_nil, List.append_nil] at h3
    refine .object (fun h => absurd h hb) (.object (line := oneDeeper line) hn hk (by simp [BlankLine]) (by simp [oneDeeper]) ?_) hstop
    have : (oneDeeper line).depth = 0 + 1 := by simp [oneDeeper, h0]
    rw [this]
    exact h3

/-- What a document under a key stands for. -/
theorem document_underKey_inv {content k : Str} {q : Bool} (hn : NoKeyedHeader content) (hk : KeyLineMeans content k q [])
    (hb : ¬ VisibleFirst '[' content) {line : Line} {rest rest' : List Line} {t : ETree F} {n : Nat}
    (h0 : line.depth = 0) (hv : ¬ VisibleFirst '[' line.content)
    (h : DocumentMeans strict (bs.map (· + 1)) (⟨0, content, n⟩ :: (line :: rest).map oneDeeper) t rest') :
    ∃ es r, t = .obj [(k, q, .obj es)] ∧ DocumentMeans strict bs (line :: rest) (.obj es) r := by
  cases h with
  | array h _ _ _ => exact absurd h hb
  | @object _ _ rest₁ _ e es _ h1 h2 =>
    generalize hc : (⟨0, content, n⟩ : Line).content = c' at h1
    generalize hr : (line :: rest).map oneDeeper = R at h1
    cases h1 with
    | array h3 h4 _ => subst hc; exact (header_notKeyless h3 h4 hn).elim
    | prim _ h3 h4 _ =>
      subst hc
      obtain ⟨_, _, rfl⟩ := keyLine_unique hk h3
      simp [BlankLine] at h4
    | empty _ _ _ h3 =>
      have := h3 (oneDeeper line) (rest.map oneDeeper) (by rw [← hr]; rfl)
      simp [oneDeeper] at this
    | @object _ _ after k' q' l r _ es' _ h3 h4 h5 h6 =>
      subst hc
      obtain ⟨rfl, rfl, rfl⟩ := keyLine_unique hk h3
      have hl : l = oneDeeper line := by simp at hr; exact hr.1.symm
      have hld : l.depth = 1 := by rw [hl]; simp [oneDeeper, h0]
      rw [hld, ← hr] at h6
      obtain ⟨h7, h8⟩ := moves_block (moves_shallower bs) h6 (by simp) (deeper_positive _)
      rw [shallower_deeper, List.append_nil, List.append_nil] at h8
      have hes : es = [] := by
        cases h2 with
        | stop _ => rfl
        | entry h9 _ _ _ =>
          have := (h7 _ List.mem_cons_self).1
          omega
      subst hes
      refine ⟨es', rest₁.map oneShallower, rfl, ?_⟩
      generalize rest₁.map oneShallower = r' at h8
      cases h8 with
      | stop h9 => exact absurd ⟨line, rest, rfl, h0, by simp⟩ h9
      | entry _ _ h9 h10 => exact .object (fun h => absurd h hv) h9 h10

end

/-! ## Elements of a list -/

/-- Some levels deeper and some lines further down. -/
def movedBy (j m : Nat) (l : Line) : Line := ⟨l.depth + j, l.content, l.num + m⟩

theorem scansTo_movedBy {indent : Nat} (hi : 0 < indent) {strict : Bool} (j m : Nat) {n : Nat} {src : List Str}
    {lines : List Line} {blanks : List Nat} (h : ScansTo indent strict n src lines blanks) :
    ScansTo indent strict (n + m) (src.map (List.replicate (j * indent) ' ' ++ ·)) (lines.map (movedBy j m))
      (blanks.map (· + m)) := by
  induction h with
  | nil => exact .nil _
  | @blank n _ _ _ _ hb _ ih =>
    rw [Nat.add_right_comm] at ih
    have := ScansTo.blank ((blank_pad (j * indent) _).mpr hb) ih
    rw [List.map_cons, List.map_cons, Nat.add_right_comm n 1 m]
    exact this
  | @line n spaces content rest ls bs h1 h2 h3 _ ih =>
    rw [Nat.add_right_comm] at ih
    have := ScansTo.line (indent := indent) (strict := strict) (n := n + m) (spaces := j * indent + spaces) (content := content)
      h1 h2 (fun hs => ⟨(h3 hs).1, by rw [Nat.mul_add_mod_self_right]; exact (h3 hs).2⟩) ih
    rw [← List.replicate_append_replicate, List.append_assoc, Nat.add_comm (j * indent), Nat.add_mul_div_right _ _ hi] at this
    rw [List.map_cons, List.map_cons, movedBy, Nat.add_right_comm n 1 m]
    exact this

theorem scansTo_followed {indent : Nat} {strict : Bool} {n : Nat} {src : List Str} {lines : List Line} {blanks : List Nat}
    (h : ScansTo indent strict n src lines blanks) {src' : List Str} {lines' : List Line} {blanks' : List Nat}
    (h' : ScansTo indent strict (n + src.length) src' lines' blanks') :
    ScansTo indent strict n (src ++ src') (lines ++ lines') (blanks ++ blanks') := by
  induction h with
  | nil => simpa using h'
  | blank hb _ ih =>
    exact .blank hb (ih (by rw [List.length_cons] at h'; rwa [Nat.add_assoc, Nat.add_comm 1]))
  | line h1 h2 h3 _ ih =>
    exact .line h1 h2 h3 (ih (by rw [List.length_cons] at h'; rwa [Nat.add_assoc, Nat.add_comm 1]))

theorem scansTo_noBlank {indent : Nat} {strict : Bool} {n : Nat} {src : List Str} {lines : List Line} {blanks : List Nat}
    (h : ScansTo indent strict n src lines blanks) (hb : ∀ line ∈ src, ¬ BlankLine line) : blanks = [] := by
  induction h with
  | nil => rfl
  | blank h _ _ => exact absurd h (hb _ (by simp))
  | line _ _ _ _ ih => exact ih (fun l hl => hb l (by simp [hl]))

/-- Lines of depth 0 have less than one unit of indentation. -/
theorem scansTo_margin {indent : Nat} (hi : 0 < indent) {strict : Bool} {n : Nat} {src : List Str} {lines : List Line}
    {blanks : List Nat} (h : ScansTo indent strict n src lines blanks) :
    ∀ l ∈ lines, l.depth = 0 → ∃ k, k < indent ∧ List.replicate k ' ' ++ l.content ∈ src := by
  induction h with
  | nil => simp
  | blank _ _ ih =>
    intro l hl hd
    obtain ⟨k, h1, h2⟩ := ih l hl hd
    exact ⟨k, h1, by simp [h2]⟩
  | @line n spaces content rest ls bs h1 h2 h3 _ ih =>
    intro l hl hd
    rcases List.mem_cons.mp hl with rfl | hl
    · refine ⟨spaces, ?_, List.mem_cons_self⟩
      simp only [Nat.div_eq_zero_iff] at hd
      omega
    · obtain ⟨k, h1, h2⟩ := ih l hl hd
      exact ⟨k, h1, List.mem_cons_of_mem _ h2⟩

section
variable {F : Type} [F64 F] {strict : Bool}

theorem moves_list (m : Nat) (more : List Line) (hm : ∀ l ls, more = l :: ls → l.depth ≤ 1) :
    Moves (fun l => l.depth = 0 → ¬ HyphenSpace l.content) (fun _ => True) (movedBy 2 m) (· + 2) [] [] more where
  content _ := rfl
  depth _ := rfl
  dom _ _ := trivial
  succ _ _ := ⟨trivial, rfl⟩
  lt _ _ _ _ := by omega
  blank body _ _ := by intro _ _ _ _ b hb; simp at hb
  left l ls h d _ := by have := hm l ls h; omega

theorem block_inList {rest rest' : List Line} {es : List (Str × Bool × ETree F)} (h : BlockMeans strict [] false 0 rest es rest')
    (hp : ∀ l ∈ rest, l.depth = 0 → ¬ HyphenSpace l.content) : BlockMeans strict [] true 0 rest es rest' := by
  induction es generalizing rest with
  | nil =>
    cases h with
    | stop h => exact .stop (fun ⟨l, more, h1, h2, h3⟩ => h ⟨l, more, h1, h2, by simp⟩)
  | cons e es ih =>
    cases h with
    | entry h1 h2 h3 h4 =>
      obtain ⟨h5, _⟩ := moves_entry (moves_list 0 [] (by simp)) h3 trivial (fun l hl => hp l (by simp [hl]))
      exact .entry h1 (fun _ => hp _ (by simp) h1) h3 (ih h4 h5)

/-- An object as an element of a list. -/
theorem element_item {c : Char} {s : Str} (hc : isWs c = false) (hb : c ≠ '[') (hcol : HasColon (c :: s)) {ls rest₁ : List Line}
    {e : Str × Bool × ETree F} {es : List (Str × Bool × ETree F)} (hE : EntryMeans strict [] 0 (c :: s) ls e rest₁)
    (hB : BlockMeans strict [] false 0 rest₁ es []) (hp : ∀ l ∈ ls, l.depth = 0 → ¬ HyphenSpace l.content) (m : Nat)
    (more : List Line) (hm : ∀ l ls, more = l :: ls → l.depth ≤ 1) :
    ItemMeans' strict [] 1 ('-' :: ' ' :: c :: s) (ls.map (movedBy 2 m) ++ more) (.obj (e :: es)) more := by
  obtain ⟨h1, h2⟩ := moves_entry (moves_list m more hm) hE trivial hp
  obtain ⟨_, h3⟩ := moves_block (moves_list m more hm) (block_inList hB h1) trivial h1
  exact .object (fun h => not_visibleFirst hc hb s h.1) (.inl hcol) h2 h3

/-- The texts, the trees they stand for, and nothing left unread. -/
theorem elements_items {indent : Nat} (hi : 0 < indent) {texts : List Str} {ts : List (ETree F)}
    (hl : ∀ text ∈ texts, Listable indent text)
    (ht : Pointwise (fun text t => ReadsTo indent strict (splitOn '\n' text) t 0 ∧ ∃ es, t = .obj es) texts ts) :
    ∀ n, ∃ lines, ScansTo indent strict n (texts.flatMap (elementLines indent)) lines [] ∧
      (∀ l ls, lines = l :: ls → l.depth = 1) ∧ ItemsMean strict [] texts.length 1 lines ts [] := by
  induction ht with
  | nil => intro n; exact ⟨[], .nil _, by simp, .stop (.inl rfl)⟩
  | @cons text t texts ts h _ ih =>
    intro n
    obtain ⟨⟨lines, blanks, r, h1, h2, h3⟩, es, rfl⟩ := h
    obtain ⟨c, rest, rfl, hc, hb⟩ := (hl text (by simp)).first
    have hL := hl (c :: rest) (by simp)
    have hnl : c ≠ '\n' := by rintro rfl; revert hc; decide
    obtain ⟨w, ws, _, hs⟩ := splitOn_cons_ne hnl rest
    obtain rfl : r = [] := List.length_eq_zero_iff.mp h3
    rw [hs] at h1
    obtain rfl : blanks = [] := scansTo_noBlank h1 (by rw [← hs]; exact hL.visible)
    obtain ⟨ls, rfl, h4⟩ := (scansTo_visible hc).mp h1
    have hp : ∀ l ∈ ls, l.depth = 0 → ¬ HyphenSpace l.content := by
      rintro l hl' hd ⟨t, ht⟩
      obtain ⟨k, h5, h6⟩ := scansTo_margin hi h4 l hl' hd
      refine hL.hyphen _ ?_ ⟨k, t, h5, rfl⟩
      rw [hs, ← ht]
      exact h6
    obtain ⟨more, h5, h6, h7⟩ := ih (fun text h => hl text (by simp [h])) (n + 1 + ws.length)
    cases h2 with
    | array _ _ _ h => cases h
    | @object _ _ rest₁ _ e es _ hE hB =>
      refine ⟨⟨1, '-' :: ' ' :: c :: w, n + 1⟩ :: (ls.map (movedBy 2 n) ++ more), ?_, ?_, ?_⟩
      · rw [List.flatMap_cons]
        have h8 := scansTo_movedBy hi 2 n h4
        rw [Nat.zero_add, Nat.add_comm 1 n] at h8
        have h9 := scansTo_followed h8 (by rw [List.length_map]; exact h5)
        have h10 := ScansTo.line (indent := indent) (strict := strict) (n := n) (spaces := indent) (content := '-' :: ' ' :: c :: w)
          (not_blank_cons (by decide) _) (by simp) (fun _ => ⟨by simp, Nat.mod_self _⟩) h9
        rw [Nat.div_self hi] at h10
        simpa [elementLines, hs] using h10
      · intro l ls' he
        simp only [List.cons.injEq] at he
        rw [← he.1]
      · rw [List.length_cons]
        refine .item rfl (element_item hc hb (hL.colon _ _ hs) hE hB hp n more ?_) h7
        intro l ls' he
        rw [h6 l ls' he]
        exact Nat.le_refl _

omit [F64 F] in
theorem state_noQuote {s : Str} (h : '"' ∉ s) : quoteState s = .out := by
  unfold quoteState
  induction s with
  | nil => rfl
  | cons c s ih =>
    simp only [List.mem_cons, not_or] at h
    rw [List.foldl_cons, QState.step, if_neg (fun e => h.1 e.symm)]
    exact ih h.2

omit [F64 F] in
/-- The header of a list. -/
theorem listHeader (n : Nat) (hn : n ≤ 100000000) :
    ∃ h, HeaderMeans ('[' :: natDigits n ++ "]:".toList) h ∧ h.length = n ∧ h.fields = none ∧ h.inline = none := by
  have h1 := parseHeader_format (n := n) (by simpa [maxDeclaredLength] using hn) none (fields := none) (d := ',') (.inl rfl) (by simp) []
  have e : formatHeader n none none ',' ++ [] = '[' :: natDigits n ++ "]:".toList := by simp [formatHeader]
  rw [e] at h1
  exact ⟨_, (headerMeans_iff _ _).mp h1, rfl, rfl, rfl⟩

theorem list_document {indent : Nat} (hi : 0 < indent) {texts : List Str} {ts : List (ETree F)}
    (hl : ∀ text ∈ texts, Listable indent text) (hn : texts.length ≤ 100000000)
    (ht : Pointwise (fun text t => ReadsTo indent strict (splitOn '\n' text) t 0 ∧ ∃ es, t = .obj es) texts ts) :
    TextMeans indent strict (('[' :: natDigits texts.length ++ "]:".toList) :: texts.flatMap (elementLines indent))
      (.arr texts.length ts) := by
  obtain ⟨lines, h1, h2, h3⟩ := elements_items hi hl ht 1
  obtain ⟨h, h4, h5, h6, h7⟩ := listHeader texts.length hn
  refine ⟨⟨0, '[' :: (natDigits texts.length ++ "]:".toList), 1⟩ :: lines, [], [],
    (scansTo_visible (by decide)).mpr ⟨lines, rfl, h1⟩, ?_⟩
  have hlen : ts.length = texts.length := ht.length_eq.symm
  refine .array ⟨[], _, by simp [BlankLine], rfl⟩ ⟨'[' :: (natDigits texts.length ++ [']']), [], by simp, ?_⟩ h4 ?_
  · refine state_noQuote ?_
    simp only [List.mem_cons, List.mem_append, List.not_mem_nil, or_false, not_or]
    exact ⟨by decide, fun h => absurd (natDigits_mem h) (by decide), by decide⟩
  · rw [← h5]
    have := ArrayMeans.list (strict := strict) (blanks := []) (depth := 0) (h := h) (body := lines) (rest := []) (ts := ts) h7 (.inl h6)
      (by rw [h5, List.append_nil]; exact h3)
      (fun _ => ⟨by rw [h5, hlen], by intro _ _ _ _ b hb; simp at hb, by rintro ⟨_, _, h, _⟩; simp at h⟩)
    simpa using this

end

/-! ## A key before an array -/

theorem beforeBracket_nil {s pre rest : Str} (h : BeforeBracket ('[' :: s) pre rest) : pre = [] ∧ rest = s := by
  generalize hs : '[' :: s = t at h
  cases h with
  | @quoted ws _ _ hb _ =>
    cases ws with
    | nil => simp at hs
    | cons w ws =>
      simp at hs
      have := hb w (by simp)
      rw [← hs.1] at this
      exact absurd this (by decide)
  | bare _ hn =>
    cases pre with
    | nil => simp at hs; exact ⟨rfl, hs.symm⟩
    | cons p pre => simp at hs; exact absurd (by rw [hs.1]; exact List.mem_cons_self) hn

theorem escape_denotes {k : Str} (hv : isValidUnquotedKey k = false) : QuotedDenotes (escapeString k) k := by
  have h := keyLine_iff _ _ _ _ (parseKeyToken_encode k [])
  have e : List.drop ((encodeKey k).length + 1) (encodeKey k ++ [':']) = [] := by simp
  rw [e, hv] at h
  have hk : encodeKey k ++ [':'] = '"' :: escapeString k ++ '"' :: ':' :: [] := by simp [encodeKey, hv]
  rw [hk] at h
  generalize ht : '"' :: escapeString k ++ '"' :: ':' :: [] = t at h
  generalize ha : ([] : Str) = after at h
  cases h with
  | @quoted body _ _ hq =>
    subst ha
    have := List.append_cancel_right (List.cons.inj ht).2
    rwa [this]

theorem header_prefixed (k s : Str) {h : Header} (hm : HeaderMeans ('[' :: s) h) :
    HeaderMeans (encodeKey k ++ '[' :: s) { h with key := some k, keyQuoted := !isValidUnquotedKey k } := by
  obtain ⟨pre, seg, cols, after, ⟨rest, h1, h2, h3⟩, _, h5⟩ := hm
  obtain ⟨rfl, h6⟩ := beforeBracket_nil h1
  refine ⟨encodeKey k, seg, cols, after, ⟨rest, ?_, h2, h3⟩, ?_, h5⟩
  · rw [h6]
    cases hv : isValidUnquotedKey k with
    | true =>
      rw [encodeKey_valid hv]
      obtain ⟨c, r, rfl, hc⟩ := validKey_head hv
      have hq : '"' ∉ c :: r := validKey_not_mem hv (by decide)
      exact .bare (not_visibleFirst ((validKey_noEdgeWs hv).1 c rfl) (fun e => hq (by simp [e])) _) (validKey_not_mem hv (by decide))
    | false =>
      have := BeforeBracket.quoted (ws := []) (body := escapeString k) (rest := s) (by simp [BlankLine])
        (quotedDenotes_literal (escape_denotes hv))
      simpa [encodeKey, hv] using this
  · cases hv : isValidUnquotedKey k with
    | true =>
      rw [encodeKey_valid hv]
      have ht := trim_eq_self (validKey_noEdgeWs hv)
      have hq : '"' ∉ k := validKey_not_mem hv (by decide)
      have := HeaderKey.bare (pre := k) (by rw [ht]; exact validKey_ne_nil hv)
        (by rw [ht]; intro h; exact hq (List.mem_of_mem_head? h))
      rw [ht] at this
      exact this
    | false =>
      have e : encodeKey k = '"' :: escapeString k ++ ['"'] := by simp [encodeKey, hv]
      refine .quoted ?_ (escape_denotes hv)
      rw [e]
      refine trim_eq_self ⟨by simp; decide, ?_⟩
      intro c hc
      rw [List.getLast?_append] at hc
      simp at hc
      rw [← hc]
      decide

section
variable {F : Type} [F64 F] {strict : Bool} {blanks : List Nat}

theorem document_array_key (k : Str) {s : Str} {n : Nat} {m : Nat} {ts : List (ETree F)} {rest rest' : List Line}
    (hr : ∀ l ∈ rest, 0 < l.depth)
    (h : DocumentMeans strict blanks (⟨0, '[' :: s, n⟩ :: rest) (.arr m ts) rest') :
    DocumentMeans strict blanks (⟨0, encodeKey k ++ '[' :: s, n⟩ :: rest) (.obj [(k, !isValidUnquotedKey k, .arr m ts)]) rest' := by
  obtain ⟨x, r, hx, hxw, hxb, _⟩ := encodeKey_head_cases k
  have hvb : ¬ VisibleFirst '[' (encodeKey k ++ '[' :: s) := by rw [hx]; exact not_visibleFirst hxw hxb _
  cases h with
  | @array _ _ _ h _ _ _ h1 h2 =>
    refine .object (fun h => absurd h hvb) (.array (header_prefixed k s h1) rfl (arrayMeans_key _ _ h2)) (.stop ?_)
    rintro ⟨line, more, hl, hd, _⟩
    have hsub : ∀ l ∈ rest', l ∈ rest := by
      intro l hl
      cases h2 with
      | inline _ _ _ _ => exact hl
      | table _ _ _ _ _ _ _ _ => simp [hl]
      | list _ _ _ _ => simp [hl]
    have := hr line (hsub line (by rw [hl]; simp))
    omega

end

end Toon
