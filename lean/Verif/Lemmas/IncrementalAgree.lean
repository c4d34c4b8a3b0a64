import Verif.Lemmas.Incremental

/-! The documents the incremental reader reads without an error. -/

namespace Toon

variable {F : Type} [F64 F] {indent : Nat} {strict : Bool}

theorem deleteBlank_blank {raw : Str} {rest : List Str} (h : BlankLine raw) : deleteBlank (raw :: rest) = deleteBlank rest := by
  simp [deleteBlank, h]

theorem deleteBlank_line {raw content : Str} {rest : List Str} (h : Indented indent strict raw content) :
    deleteBlank (raw :: rest) = raw :: deleteBlank rest := by
  obtain ⟨k, rfl, hb, _⟩ := h
  have : ¬ BlankLine (List.replicate k ' ' ++ content) := fun h => hb (blank_replicate.mp h)
  simp [deleteBlank, this]

theorem indented_unique {raw c₁ c₂ : Str} (h₁ : Indented indent strict raw c₁) (h₂ : Indented indent strict raw c₂) : c₁ = c₂ := by
  obtain ⟨k₁, rfl, hb₁, hh₁, _⟩ := h₁
  obtain ⟨k₂, he, _, hh₂, _⟩ := h₂
  have e : ∀ {k : Nat} {c : Str}, c.head? ≠ some ' ' → (List.replicate k ' ' ++ c).dropWhile (· == ' ') = c := by
    intro k c hc
    have h1 := List.takeWhile_append_dropWhile (p := (· == ' ')) (l := List.replicate k ' ' ++ c)
    rw [takeWhile_replicate_append hc] at h1
    exact List.append_cancel_left h1
  have := congrArg (List.dropWhile (· == ' ')) he
  rw [e hh₁, e hh₂] at this
  exact this

/-- All items are events. -/
def AllOk (items : List (Except Err (Ev F) × Nat)) : Prop := ∀ x ∈ items, ∃ ev, x.1 = .ok ev

omit [F64 F] in
theorem allOk_append {a b : List (Except Err (Ev F) × Nat)} : AllOk (a ++ b) ↔ AllOk a ∧ AllOk b := by
  unfold AllOk
  constructor
  · intro h; exact ⟨fun x hx => h x (by simp [hx]), fun x hx => h x (by simp [hx])⟩
  · rintro ⟨h1, h2⟩ x hx
    rcases List.mem_append.mp hx with hx | hx
    · exact h1 x hx
    · exact h2 x hx

omit [F64 F] in
theorem allOk_error {e : Err} {n : Nat} (h : AllOk (F := F) ([Except.error e].map (·, n))) : False := by
  obtain ⟨ev, hev⟩ := h (.error e, n) (by simp)
  simp at hev

theorem allOk_fault {fault : Option Err} {evs : List (Ev F)} {n : Nat} (h : AllOk (F := F) ((answers F fault evs).map (·, n))) :
    fault = none := by
  cases fault with
  | none => rfl
  | some e =>
    obtain ⟨ev, hev⟩ := h (.error e, n) (by simp [answers])
    simp at hev

/-- An entry without a fault. -/
theorem entry_ok {content : Str} {evs : List (Ev F)} {stage : Stage} (h : EntryYields F content none evs stage) :
    (stage = .buffering ∧ evs = []) ∨ (stage = .object ∧ ¬ HyphenSpace content ∧ ∃ k q p after, evs = [.key k q, .prim p] ∧
      KeyLineMeans content k q after ∧ ¬ BlankLine after ∧ TokenMeans (trim after) p) := by
  cases h with
  | hyphen h => exact Or.inl ⟨rfl, rfl⟩
  | nested h1 h2 h3 => exact Or.inl ⟨rfl, rfl⟩
  | entry h1 h2 h3 h4 => exact Or.inr ⟨rfl, h1, _, _, _, _, rfl, h2, h3, h4⟩

theorem takes_buffering {after n : Nat} {stage stage' : Stage} {kept kept' lines : List Str} {items : List (Except Err (Ev F) × Nat)}
    (h : TakesLines F indent strict after stage kept n lines items stage' kept') (hs : stage = .buffering) (hok : AllOk items) :
    items = [] ∧ stage' = .buffering ∧ kept' = kept ++ deleteBlank lines := by
  induction h with
  | nil => exact ⟨rfl, hs, by simp [deleteBlank]⟩
  | cons hy _ ih =>
    subst hs
    obtain ⟨h1, h2⟩ := allOk_append.mp hok
    cases hy with
    | blank _ hb =>
      obtain ⟨e1, e2, e3⟩ := ih rfl h2
      exact ⟨by simp [e1], e2, by rw [e3, deleteBlank_blank hb, List.append_nil]⟩
    | indentation => exact absurd h1 allOk_error
    | buffered hi =>
      obtain ⟨e1, e2, e3⟩ := ih rfl h2
      exact ⟨by simp [e1], e2, by rw [e3, deleteBlank_line hi]; simp⟩
    | header h => simp at h
    | headerFault h => simp at h

/-- The lines of the object, as far as they are plain entries. -/
def ObjectPart (F : Type) [F64 F] (indent : Nat) (strict : Bool) (lines : List Str) (items : List (Except Err (Ev F))) (stage : Stage)
    (kept : List Str) : Prop :=
  (stage = .object ∧ kept = [] ∧ ∃ entries, Pointwise (PlainEntry indent strict) lines entries ∧
    items = (plainEvents entries).map .ok) ∨
  (stage = .buffering ∧ ∃ pre raw post entries, lines = pre ++ raw :: post ∧ Pointwise (PlainEntry indent strict) pre entries ∧
    kept = raw :: post ∧ items = (plainEvents entries).map .ok)

theorem ObjectPart.cons {lines kept : List Str} {items : List (Except Err (Ev F))} {stage : Stage} {raw : Str} {k : Str} {q : Bool} {p : Prim F}
    (h1 : PlainEntry indent strict raw (k, q, p)) (h : ObjectPart F indent strict lines items stage kept) :
    ObjectPart F indent strict (raw :: lines) (.ok (.key k q) :: .ok (.prim p) :: items) stage kept := by
  rcases h with ⟨rfl, rfl, entries, h2, rfl⟩ | ⟨rfl, pre, raw', post, entries, rfl, h2, rfl, rfl⟩
  · exact Or.inl ⟨rfl, rfl, (k, q, p) :: entries, .cons h1 h2, by simp [plainEvents]⟩
  · exact Or.inr ⟨rfl, raw :: pre, raw', post, (k, q, p) :: entries, rfl, .cons h1 h2, rfl, by simp [plainEvents]⟩

theorem takes_object {after n : Nat} {stage stage' : Stage} {kept kept' lines : List Str} {items : List (Except Err (Ev F) × Nat)}
    (h : TakesLines F indent strict after stage kept n lines items stage' kept') (hs : stage = .object) (hk : kept = [])
    (hok : AllOk items) : ObjectPart F indent strict (deleteBlank lines) (items.map Prod.fst) stage' kept' := by
  induction h with
  | nil => exact Or.inl ⟨hs, hk, [], by simpa [deleteBlank] using .nil, rfl⟩
  | cons hy ht ih =>
    subst hs; subst hk
    obtain ⟨h1, h2⟩ := allOk_append.mp hok
    cases hy with
    | blank _ hb =>
      rw [deleteBlank_blank hb]
      exact ih rfl rfl h2
    | indentation => exact absurd h1 allOk_error
    | headerFault => exact absurd h1 allOk_error
    | header hs hi hb hm =>
      obtain ⟨e1, e2, e3⟩ := takes_buffering ht rfl h2
      rw [deleteBlank_line hi]
      exact Or.inr ⟨e2, [], _, _, [], rfl, .nil, by simpa using e3, by simp [e1, plainEvents]⟩
    | next hi hn hy =>
      have hf := allOk_fault h1
      subst hf
      rw [deleteBlank_line hi]
      rcases entry_ok hy with ⟨rfl, rfl⟩ | ⟨rfl, hd, k, q, p, a, rfl, hm, hb, ht'⟩
      · obtain ⟨e1, e2, e3⟩ := takes_buffering ht rfl h2
        exact Or.inr ⟨e2, [], _, _, [], rfl, .nil, by simpa [keep] using e3, by simp [e1, plainEvents, answers]⟩
      · have := ObjectPart.cons (k := k) (q := q) (p := p) ⟨_, a, hi, hn, hd, hm, hb, ht'⟩ (ih rfl rfl h2)
        simpa [answers] using this

/-- The parts of a document that is read without an error. -/
def StartPart (F : Type) [F64 F] (indent : Nat) (strict : Bool) (lines : List Str) (items : List (Except Err (Ev F))) (stage : Stage)
    (kept : List Str) : Prop :=
  (stage = .start ∧ lines = [] ∧ items = []) ∨
  (stage = .finished ∧ ∃ raw more content p, lines = raw :: more ∧ Indented indent strict raw content ∧
    (Bracketed content → NoHeader content) ∧ ¬ EntryLike content ∧ TokenMeans (trim content) p ∧ items = [.ok (.prim p)]) ∨
  (stage = .buffering ∧ kept = lines ∧ items = [] ∧ ∃ raw more content h, lines = raw :: more ∧ Indented indent strict raw content ∧
    Bracketed content ∧ HeaderMeans content h) ∨
  ∃ raw more content items', lines = raw :: more ∧ Indented indent strict raw content ∧ EntryLike content ∧
    items = .ok .startObj :: items' ∧ ObjectPart F indent strict lines items' stage kept

theorem takes_finished {after n : Nat} {stage stage' : Stage} {kept kept' lines : List Str} {items : List (Except Err (Ev F) × Nat)}
    (h : TakesLines F indent strict after stage kept n lines items stage' kept') (hs : stage = .finished) :
    items = [] ∧ stage' = .finished ∧ lines = [] := by
  cases h with
  | nil => exact ⟨rfl, hs, rfl⟩
  | cons hy _ =>
    subst hs
    cases hy with
    | blank h _ => exact absurd rfl h
    | indentation h _ => exact absurd rfl h
    | header h => simp at h
    | headerFault h => simp at h

theorem takes_start {after n : Nat} {stage stage' : Stage} {kept kept' lines more : List Str} {items : List (Except Err (Ev F) × Nat)}
    (h : TakesLines F indent strict after stage kept n lines items stage' kept') (hs : stage = .start) (hk : kept = [])
    (hm : stage' ≠ .finished → more = []) (hok : AllOk items) :
    StartPart F indent strict (deleteBlank (lines ++ more)) (items.map Prod.fst) stage' kept' := by
  induction h with
  | nil => subst hs; rw [hm (by simp)]; exact Or.inl ⟨rfl, by simp [deleteBlank], rfl⟩
  | cons hy ht ih =>
    subst hs; subst hk
    obtain ⟨h1, h2⟩ := allOk_append.mp hok
    rw [List.cons_append]
    cases hy with
    | blank _ hb =>
      rw [deleteBlank_blank hb]
      exact ih rfl rfl hm h2
    | indentation => exact absurd h1 allOk_error
    | headerFault => exact absurd h1 allOk_error
    | rootFault => exact absurd h1 allOk_error
    | header hs hi hb hh =>
      obtain ⟨e1, e2, e3⟩ := takes_buffering ht rfl h2
      rw [hm (by simp [e2]), List.append_nil, deleteBlank_line hi]
      exact Or.inr (Or.inr (Or.inl ⟨e2, by simpa using e3, by simp [e1], _, _, _, _, rfl, hi, hb, hh⟩))
    | root hi hn he hp =>
      obtain ⟨e1, e2, e3⟩ := takes_finished ht rfl
      rw [deleteBlank_line hi]
      exact Or.inr (Or.inl ⟨e2, _, _, _, _, rfl, hi, hn, he, hp, by simp [e1]⟩)
    | first hi hn he hy =>
      have hf := allOk_fault h1
      subst hf
      refine Or.inr (Or.inr (Or.inr ?_))
      rcases entry_ok hy with ⟨rfl, rfl⟩ | ⟨rfl, hd, k, q, p, a, rfl, hmn, hb, ht'⟩
      · obtain ⟨e1, e2, e3⟩ := takes_buffering ht rfl h2
        rw [hm (by simp [e2]), List.append_nil, deleteBlank_line hi]
        refine ⟨_, _, _, [], rfl, hi, he, by simp [e1, answers], ?_⟩
        exact Or.inr ⟨e2, [], _, _, [], rfl, .nil, by simpa [keep] using e3, by simp [plainEvents]⟩
      · have ho := takes_object ht rfl rfl h2
        have hnf : ∀ {ls its s k}, ObjectPart F indent strict ls its s k → s ≠ .finished := by
          rintro ls its s k (⟨rfl, _⟩ | ⟨rfl, _⟩) <;> simp
        rw [hm (hnf ho), List.append_nil, deleteBlank_line hi]
        refine ⟨_, _, _, .ok (.key k q) :: .ok (.prim p) :: _, rfl, hi, he, by simp [answers]; rfl, ?_⟩
        exact ObjectPart.cons ⟨_, a, hi, hn, hd, hmn, hb, ht'⟩ ho

/-! ## The whole document -/

/-- A stream that ends after these events. -/
theorem streams_of_polls [LawfulF64 F] {lines : List Str} {evs : List (Ev F)}
    (h : Polls (DecodeStream.poll indent strict) (DecodeStream.new lines) (evs.map .ok)) :
    ∃ items u, Streams F indent strict lines items (none, u) ∧ items.map Prod.fst = evs.map .ok := by
  obtain ⟨items, ⟨x, u⟩, hs⟩ := streams_total (F := F) indent strict lines
  have ho := streams_observes hs
  have hp : ∀ n i : Nat, i < n → ((items[i]?.map fun (y : Except Err (Ev F) × Nat) => (some y.1, y.2)).getD (x, u)).1 = (evs.map (Except.ok (ε := Err)))[i]? := by
    intro n i hi
    have h1 := congrArg (List.map Prod.fst) (ho n)
    rw [observe_pollN, h n] at h1
    have := congrArg (fun l => l[i]?) h1
    simpa [hi] using this.symm
  have hx : x = none := by
    have := hp (items.length + evs.length + 1) (items.length + evs.length) (by omega)
    simpa using this
  subst hx
  refine ⟨items, u, hs, ?_⟩
  apply List.ext_getElem?
  intro i
  have := hp (i + 1) i (by omega)
  rw [← this, List.getElem?_map]
  cases items[i]? <;> rfl

omit [F64 F] in
theorem plainEvents_tree (entries : List (Str × Bool × Prim F)) :
    (ETree.obj (entries.map fun e => (e.1, e.2.1, ETree.prim e.2.2))).events = .startObj :: plainEvents entries ++ [.endObj] := by
  have : ETree.eventsEntries (entries.map fun e => (e.1, e.2.1, ETree.prim e.2.2)) = plainEvents entries := by
    induction entries with
    | nil => rfl
    | cons e es ih => obtain ⟨k, q, p⟩ := e; simp [ETree.eventsEntries, ETree.events, plainEvents, ih]
  simp [ETree.events, this]

omit [F64 F] in
theorem evBalance_plain (entries : List (Str × Bool × Prim F)) : evBalance (plainEvents entries) = 0 := by
  induction entries with
  | nil => rfl
  | cons e es ih => obtain ⟨k, q, p⟩ := e; simp [plainEvents, evBalance, ih]

/-- A document that begins with an array header is an array. -/
theorem textMeans_header {raw content : Str} {more : List Str} {h : Header} {t : ETree F} (hi : Indented indent strict raw content)
    (hb : Bracketed content) (hh : HeaderMeans content h) (ht : TextMeans indent strict (raw :: more) t) : ∃ n ts, t = .arr n ts := by
  obtain ⟨ls, bs, rest, h1, h2⟩ := ht
  have hnb : ¬ BlankLine raw := by
    obtain ⟨k, rfl, hb, _⟩ := hi
    exact fun h => hb (blank_replicate.mp h)
  cases h1 with
  | blank hbl => exact absurd hbl hnb
  | @line _ spaces c _ ls' _ hbc hhd hs _ =>
    have hc : c = content := indented_unique ⟨spaces, rfl, hbc, hhd, hs⟩ hi
    subst hc
    cases h2 with
    | array _ _ _ ha => cases ha <;> exact ⟨_, _, rfl⟩
    | prim h3 _ =>
      obtain ⟨⟨ws, r, hw, he⟩, a, b, he', _⟩ := hb
      exfalso
      rcases h3 with h3 | h3
      · simp only at h3
        rw [he] at h3
        cases ws with
        | nil => simp at h3
        | cons x xs =>
          simp at h3
          have := hw x (by simp)
          rw [h3] at this
          exact absurd this (by decide)
      · simp only at h3
        rw [he'] at h3
        simp at h3
    | object h3 _ _ =>
      have := h3 hb.1 hb.2
      rw [← noHeader_iff] at this
      rw [← headerMeans_iff, this] at hh
      simp at hh

theorem polls_shape [LawfulF64 F] {lines : List Str} {evs : List (Ev F)}
    (h : Polls (DecodeStream.poll indent strict) (DecodeStream.new lines) (evs.map .ok)) :
    (∃ t, StreamsTree indent strict (deleteBlank lines) t ∧ evs = t.events) ∨
    ∃ pre raw post entries, ∃ t : ETree F, deleteBlank lines = pre ++ raw :: post ∧ Pointwise (PlainEntry indent strict) pre entries ∧
      TextMeans indent strict (raw :: post) t ∧ evs = .startObj :: plainEvents entries ++ t.events := by
  obtain ⟨items, u, hs, he⟩ := streams_of_polls h
  have hok : ∀ {a b : List (Except Err (Ev F) × Nat)}, items = a ++ b → AllOk a := by
    rintro a b rfl x hx
    have : x.1 ∈ evs.map (Except.ok (ε := Err)) := by
      rw [← he]; exact List.mem_map.mpr ⟨x, by simp [hx], rfl⟩
    obtain ⟨ev, _, h⟩ := List.mem_map.mp this
    exact ⟨ev, h.symm⟩
  have inj : ∀ {a b : List (Ev F)}, a.map (Except.ok (ε := Err)) = b.map .ok → a = b := fun h =>
    (List.map_inj_right (fun a b h => by injection h)).mp h
  generalize hg : ((none : Option (Except Err (Ev F))), u) = g at hs
  cases hs with
  | @all _ kept its stage evs' fault ht hend =>
    have hst := takes_start (more := []) ht rfl rfl (fun _ => rfl) (hok rfl)
    rw [List.append_nil] at hst
    rw [List.map_append] at he
    have hev : (evs'.map fun e => ((Except.ok e : Except Err (Ev F)), 0)).map Prod.fst = evs'.map .ok := by simp
    rw [hev] at he
    rcases hst with ⟨rfl, h1, h2⟩ | ⟨rfl, _⟩ | ⟨rfl, h1, h2, raw, more, content, hd, h3, hi, hb, hh⟩ |
        ⟨raw, more, content, items', h1, hi, hel, h2, h3⟩
    · cases hend
      rw [h2] at he
      refine Or.inl ⟨_, by rw [h1]; exact .empty, ?_⟩
      exact (inj he).symm
    · cases hend
    · generalize hst : Stage.buffering = s at hend
      cases hend with
      | empty => simp at hst
      | object => simp at hst
      | rejected => simp at hg
      | @decoded _ t htm =>
        subst h1
        rw [h2] at he
        rw [h3] at htm ⊢
        obtain ⟨n, ts, rfl⟩ := textMeans_header hi hb hh htm
        exact Or.inl ⟨_, .array htm, (inj he).symm⟩
    · rw [h2] at he
      rcases h3 with ⟨rfl, _, entries, hp, rfl⟩ | ⟨rfl, pre, raw', post, entries, hsplit, hp, rfl, rfl⟩
      · cases hend
        refine Or.inl ⟨.obj (entries.map fun e => (e.1, e.2.1, .prim e.2.2)), ?_, ?_⟩
        · rw [h1] at hp ⊢; exact .object hp hi hel
        · rw [plainEvents_tree]
          exact (inj (by simpa using he)).symm
      · generalize hst : Stage.buffering = s at hend
        cases hend with
        | empty => simp at hst
        | object => simp at hst
        | rejected => simp at hg
        | @decoded _ t htm =>
          exact Or.inr ⟨pre, raw', post, entries, t, hsplit, hp, htm, (inj (by simpa using he)).symm⟩
  | @stops pre rest kept _ ht =>
    have hst := takes_start (more := rest) ht rfl rfl (by simp) (hok (b := []) (by simp))
    rcases hst with ⟨h, _⟩ | ⟨_, raw, more, content, p, h1, hi, hn, hel, hp, h2⟩ | ⟨h, _⟩ | ⟨_, _, _, _, _, _, _, _, h3⟩
    · simp at h
    · rw [h2] at he
      refine Or.inl ⟨.prim p, by rw [h1]; exact .prim hi hn hel hp, ?_⟩
      exact (inj (a := [.prim p]) he).symm
    · simp at h
    · rcases h3 with ⟨h, _⟩ | ⟨h, _⟩ <;> simp at h

/-! ## Reading a document as a tree -/

theorem takes_plain {lines : List Str} : ∀ {entries : List (Str × Bool × Prim F)} (n : Nat),
    Pointwise (PlainEntry indent strict) (deleteBlank lines) entries →
    ∃ items, TakesLines F indent strict 0 .object [] n lines items .object [] ∧ items.map Prod.fst = (plainEvents entries).map .ok := by
  induction lines with
  | nil =>
    intro entries n h
    cases h
    exact ⟨[], .nil _ _ _, rfl⟩
  | cons raw rest ih =>
    intro entries n h
    by_cases hb : BlankLine raw
    · rw [deleteBlank_blank hb] at h
      obtain ⟨items, h1, h2⟩ := ih (n + 1) h
      exact ⟨_, .cons (.blank (by simp) hb) h1, by simpa using h2⟩
    · rw [show deleteBlank (raw :: rest) = raw :: deleteBlank rest by simp [deleteBlank, hb]] at h
      cases h with
      | @cons _ e _ es h1 h2 =>
        obtain ⟨content, after, hi, hn, hd, hk, hbl, ht⟩ := h1
        obtain ⟨k, q, p⟩ := e
        obtain ⟨items, h3, h4⟩ := ih (n + 1) h2
        have hc : ([] : List Str) ++ keep Stage.object raw = [] := rfl
        refine ⟨_, .cons (kept := []) (.next hi hn (.entry hd hk hbl ht)) (hc.symm ▸ h3), ?_⟩
        simp [answers, plainEvents, h4]

theorem takes_blanks {after : Nat} : ∀ {lines : List Str} (n : Nat) {raw : Str} {more : List Str}, deleteBlank lines = raw :: more →
    ∃ blanks post, lines = blanks ++ raw :: post ∧ deleteBlank post = more ∧
      TakesLines F indent strict after .start [] n blanks [] .start [] := by
  intro lines
  induction lines with
  | nil => intro n raw more h; simp [deleteBlank] at h
  | cons l ls ih =>
    intro n raw more h
    by_cases hb : BlankLine l
    · rw [deleteBlank_blank hb] at h
      obtain ⟨bs, post, rfl, h1, h2⟩ := ih (n + 1) h
      exact ⟨l :: bs, post, rfl, h1, .cons (xs := []) (.blank (by simp) hb) h2⟩
    · rw [show deleteBlank (l :: ls) = l :: deleteBlank ls by simp [deleteBlank, hb]] at h
      simp only [List.cons.injEq] at h
      obtain ⟨rfl, rfl⟩ := h
      exact ⟨[], ls, rfl, rfl, .nil _ _ _⟩

/-- Observations without the counts. -/
theorem polls_of_streams [LawfulF64 F] {lines : List Str} {items : List (Except Err (Ev F) × Nat)} {u : Nat}
    (h : Streams F indent strict lines items (none, u)) :
    Polls (DecodeStream.poll indent strict) (DecodeStream.new lines) (items.map Prod.fst) := by
  intro n
  have := congrArg (List.map Prod.fst) (streams_observes h n)
  rw [observe_pollN] at this
  rw [this, List.map_map]
  apply List.map_congr_left
  intro i _
  simp only [Function.comp, List.getElem?_map]
  cases items[i]? <;> rfl

theorem streamsTree_polls [LawfulF64 F] {lines : List Str} {t : ETree F} (h : StreamsTree indent strict (deleteBlank lines) t) :
    Polls (DecodeStream.poll indent strict) (DecodeStream.new lines) (t.events.map .ok) := by
  generalize hg : deleteBlank lines = g at h
  cases h with
  | empty =>
    have ht : ∀ (ls : List Str) (n : Nat), deleteBlank ls = [] → TakesLines F indent strict 0 .start [] n ls [] .start [] := by
      intro ls
      induction ls with
      | nil => intro n _; exact .nil _ _ _
      | cons l ls ih =>
        intro n h
        have hb : BlankLine l := by
          apply Classical.byContradiction
          intro hb; simp [deleteBlank, hb] at h
        rw [deleteBlank_blank hb] at h
        exact .cons (xs := []) (.blank (by simp) hb) (ih (n + 1) h)
    have := polls_of_streams (F := F) (.all (ht lines 0 hg) .empty)
    simpa [ETree.events, ETree.eventsEntries] using this
  | @array _ n ts ht =>
    subst hg
    obtain ⟨ls, bs, r, h1, h2⟩ := ht
    have hd := (decodeStream_iff (F := F) indent strict (deleteBlank lines) _).mpr ⟨ls, bs, _, r, h1, h2, rfl⟩
    refine polls_root_array (F := F) 0 [] hd ?_ ⟨n, rfl⟩
    intro l hl
    by_cases hb : BlankLine l
    · intro m; exact ⟨_, scanLine_blank hb⟩
    · exact decodeStream_scanOk hd l (List.mem_filter.mpr ⟨hl, by simp [hb]⟩)
  | @prim raw content more p hi hn he hp =>
    obtain ⟨bs, post, rfl, _, h2⟩ := takes_blanks (F := F) (indent := indent) (strict := strict) (after := 0) 0 hg
    have h3 : TakesLines F indent strict post.length .start [] 0 (bs ++ [raw]) _ .finished _ :=
      takesLines_append (by simpa using takesLines_shift h2 ([raw].length + post.length))
        (.cons (.root hi hn he hp) (.nil _ _ _))
    have := polls_of_streams (.stops h3)
    simpa [ETree.events] using this
  | @object raw content more entries hp hi he =>
    obtain ⟨bs, post, rfl, h1, h2⟩ := takes_blanks (F := F) (indent := indent) (strict := strict) (after := 0) 0 hg
    subst h1
    cases hp with
    | @cons _ e _ es h3 h4 =>
      obtain ⟨content', after, hi', hn, hd, hk, hbl, ht⟩ := h3
      obtain ⟨k, q, p⟩ := e
      have := indented_unique hi hi'
      subst this
      obtain ⟨items, h5, h6⟩ := takes_plain (0 + bs.length + 1) h4
      have hc : ([] : List Str) ++ keep Stage.object raw = [] := rfl
      have h7 : TakesLines F indent strict 0 .start [] (0 + bs.length) (raw :: post) _ .object [] :=
        .cons (kept := []) (.first hi hn he (.entry hd hk hbl ht)) (hc.symm ▸ h5)
      have h8 := takesLines_append (by simpa using takesLines_shift h2 ((raw :: post).length + 0)) h7
      have := polls_of_streams (.all h8 .object)
      rw [plainEvents_tree]
      simpa [answers, plainEvents, h6] using this

end Toon
