import Verif.Lemmas.GrammarComplete
import Verif.Lemmas.GrammarScan

/-! The whole document: the decoder accepts exactly the documents of the grammar. -/

namespace Toon

section
variable {F : Type} [F64 F]

theorem rootLoop_sound (ctx : Ctx) : ∀ fuel cur (evs : List (Ev F)) cur', rootLoop ctx fuel cur = .ok (evs, cur') →
    ∃ es, BlockMeans ctx.strict ctx.blanks false 0 cur.rest es cur'.rest ∧ evs = ETree.eventsEntries es := by
  intro fuel
  induction fuel with
  | zero => intro cur evs cur' h; rw [rootLoop] at h; simp at h
  | succ fuel ih =>
    intro cur evs cur' h
    rw [rootLoop] at h
    cases hR : cur.rest with
    | nil =>
      rw [hR] at h
      simp only [Except.ok.injEq, Prod.mk.injEq] at h
      obtain ⟨rfl, rfl⟩ := h
      rw [hR]
      exact ⟨[], .stop notNext_nil, rfl⟩
    | cons line rest =>
      rw [hR] at h
      simp only at h
      split at h
      · rename_i hne
        simp only [Except.ok.injEq, Prod.mk.injEq] at h
        obtain ⟨rfl, rfl⟩ := h
        rw [hR]
        exact ⟨[], .stop (by rw [nextIs_cons]; exact fun hh => hne hh.1), rfl⟩
      · rename_i hne
        cases h1 : decodeKV (F := F) ctx fuel line.content ⟨rest, some line⟩ 0 with
        | error e => rw [h1] at h; simp [bind, Except.bind] at h
        | ok r =>
          obtain ⟨evs1, cur1⟩ := r
          rw [h1] at h
          simp only [bind, Except.bind] at h
          cases h2 : rootLoop (F := F) ctx fuel cur1 with
          | error e => rw [h2] at h; simp at h
          | ok r =>
            obtain ⟨evs2, cur2⟩ := r
            rw [h2] at h
            simp only [pure, Except.pure, Except.ok.injEq, Prod.mk.injEq] at h
            obtain ⟨rfl, rfl⟩ := h
            obtain ⟨⟨k, q, t, he, rfl⟩, _⟩ := (soundClaims ctx fuel).kv _ _ _ _ _ h1
            obtain ⟨es, hb, rfl⟩ := ih _ _ _ h2
            refine ⟨(k, q, t) :: es, .entry (by simpa using hne) (by simp) he hb, by simp [ETree.eventsEntries]⟩

theorem rootLoop_complete (ctx : Ctx) : ∀ fuel cur (es : List (Str × Bool × ETree F)) rest',
    BlockMeans ctx.strict ctx.blanks false 0 cur.rest es rest' → Done (rootLoop ctx fuel cur) (ETree.eventsEntries es) cur rest' := by
  intro fuel
  induction fuel with
  | zero => intros; exact Or.inl (by rw [rootLoop])
  | succ fuel ih =>
    intro cur es rest' h
    rw [rootLoop]
    generalize hR : cur.rest = R at h
    cases h with
    | stop hn =>
      cases rest' with
      | nil => simp only; rw [← hR]; exact .here rfl
      | cons line more =>
        rw [nextIs_cons] at hn
        simp only
        rw [if_pos (fun hh => hn ⟨hh, by simp⟩), ← hR]
        exact .here rfl
    | @entry _ _ line rest rest₁ _ e es hd _ he hb =>
      simp only
      rw [if_neg (by simpa using hd)]
      rcases (completeClaims ctx fuel).kv line.content ⟨rest, some line⟩ 0 e rest₁ he with h1 | ⟨b1, hb1, h1⟩
      · rw [h1]; exact Or.inl rfl
      · rw [h1]
        simp only [bind, Except.bind]
        rcases ih ⟨rest₁, lastOf b1 (some line)⟩ es rest' hb with h2 | ⟨b2, hb2, h2⟩
        · rw [h2]; exact Or.inl rfl
        · rw [h2]
          simp only at hb1 hb2
          refine Or.inr ⟨line :: (b1 ++ b2), by rw [hR, hb1, hb2]; simp, ?_⟩
          obtain ⟨k, q, t⟩ := e
          simp [ETree.eventsEntries, pure, Except.pure, lastOf_cons, lastOf_append]

theorem afterBracket_colon {b after : Str} {cols : Option Str} (h : AfterBracket b cols after) : ':' ∈ b := by
  cases h <;> simp

theorem closing_colon {body rest : Str} (h : LiteralBody body) (hc : ':' ∈ rest) :
    isKeyValueLine ('"' :: (body ++ '"' :: rest)) = true := by
  have hq := (findClosingQuote_iff (body ++ '"' :: rest) (body.length + 1)).mpr ⟨body, rest, rfl, rfl, h⟩
  unfold isKeyValueLine
  rw [if_pos (by simp), hq]
  have : ('"' :: (body ++ '"' :: rest)).drop (body.length + 1 + 1) = rest := by simp
  simp only [this]
  simpa using hc

theorem headerMeans_keyValueLine {content : Str} {h : Header} (hm : HeaderMeans content h) : isKeyValueLine content = true := by
  obtain ⟨pre, seg, cols, after, ⟨rest, hb, _, ha⟩, _⟩ := hm
  have hcol := afterBracket_colon ha
  by_cases hq : content.head? = some '"'
  · cases hb with
    | @quoted ws body rest' hws hl =>
      cases ws with
      | cons c ws =>
        simp at hq
        subst hq
        exact absurd (hws '"' (by simp)) (by decide)
      | nil =>
        have e : ([] : Str) ++ '"' :: body ++ '"' :: '[' :: (seg ++ ']' :: rest) = '"' :: (body ++ '"' :: '[' :: (seg ++ ']' :: rest)) := by simp
        rw [e]
        exact closing_colon hl (by simp [hcol])
    | bare hv _ =>
      exfalso
      apply hv
      revert hq
      generalize pre ++ '[' :: (seg ++ ']' :: rest) = c
      intro hq
      cases c with
      | nil => simp at hq
      | cons x c => simp at hq; exact ⟨[], c, by simp [BlankLine], by rw [hq]; rfl⟩
  · unfold isKeyValueLine
    rw [if_neg hq, (findBracketStart_before hb).1]
    simp [hcol]

theorem quotedDenotes_literal {body k : Str} (h : QuotedDenotes body k) : LiteralBody body :=
  ((quotedDenotes_iff body.length body k (Nat.le_refl _)).mp h).2

theorem keyLine_keyValueLine {content k after : Str} {q : Bool} (h : KeyLineMeans content k q after) : isKeyValueLine content = true := by
  cases h with
  | @quoted body k after hq =>
    have e : '"' :: body ++ '"' :: ':' :: after = '"' :: (body ++ '"' :: ':' :: after) := by simp
    rw [e]
    exact closing_colon (quotedDenotes_literal hq) (by simp)
  | bare ha hh =>
    unfold isKeyValueLine
    rw [if_neg hh]
    simp

theorem entry_keyValueLine {strict : Bool} {blanks : List Nat} {depth : Nat} {content : Str} {rest rest' : List Line} {e : Str × Bool × ETree F}
    (h : EntryMeans strict blanks depth content rest e rest') : isKeyValueLine content = true := by
  cases h with
  | array hm _ _ => exact headerMeans_keyValueLine hm
  | prim _ hk _ _ => exact keyLine_keyValueLine hk
  | empty _ hk _ _ => exact keyLine_keyValueLine hk
  | object _ hk _ _ _ => exact keyLine_keyValueLine hk

theorem trim_quote_split (c : Str) : ∃ t w, '"' :: c = t ++ w ∧ BlankLine w ∧ trim ('"' :: c) = t := by
  have h1 : trimStart ('"' :: c) = '"' :: c := by simp [trimStart, show isWs '"' = false by decide]
  obtain ⟨t, w, h2, h3, h4⟩ : ∃ t w, '"' :: c = t ++ w ∧ BlankLine w ∧ trimEnd ('"' :: c) = t := by
    unfold trimEnd
    refine ⟨(List.dropWhile isWs ('"' :: c).reverse).reverse, (List.takeWhile isWs ('"' :: c).reverse).reverse, ?_, ?_, rfl⟩
    · rw [← List.reverse_append, List.takeWhile_append_dropWhile, List.reverse_reverse]
    · intro x hx
      rw [List.mem_reverse] at hx
      have := List.all_takeWhile (l := ('"' :: c).reverse) (p := isWs)
      rw [List.all_eq_true] at this
      exact this x hx
  exact ⟨t, w, h2, h3, by unfold trim; rw [h1]; exact h4⟩

/-- A lone line that is a token. -/
theorem token_line (content : Str) (p : Prim F) (ht : TokenMeans (trim content) p) :
    isKeyValueLine content = false ↔ (content.head? = some '"' ∨ ':' ∉ content) := by
  by_cases hq : content.head? = some '"'
  · constructor
    · intro _; exact Or.inl hq
    · intro _
      cases content with
      | nil => simp at hq
      | cons x c =>
        simp at hq
        subst hq
        obtain ⟨t, w, h1, h2, h3⟩ := trim_quote_split c
        rw [h3] at ht
        have hh : t.head? = some '"' := by
          cases t with
          | nil =>
            exfalso
            simp at h1
            exact absurd (h2 '"' (by rw [← h1]; simp)) (by decide)
          | cons y t => simp at h1; rw [h1.1]; rfl
        have key : ∃ body s, t = '"' :: body ++ ['"'] ∧ QuotedDenotes body s := by
          cases ht with
          | quoted hd => exact ⟨_, _, rfl, hd⟩
          | bare _ hne _ _ _ _ => exact absurd hh hne
          | number hn _ _ =>
            exfalso
            cases t with
            | nil => simp at hh
            | cons y t => simp at hh; subst hh; exact (grammar_notWs hn (c := '"') (by simp)).2 rfl
          | _ => simp at hh
        obtain ⟨body, s, rfl, hd⟩ := key
        have hcl := (findClosingQuote_iff (body ++ '"' :: w) (body.length + 1)).mpr ⟨body, w, rfl, rfl, quotedDenotes_literal hd⟩
        have e : '"' :: c = '"' :: (body ++ '"' :: w) := by rw [h1]; simp
        rw [e]
        unfold isKeyValueLine
        rw [if_pos (by simp), hcl]
        have : ('"' :: (body ++ '"' :: w)).drop (body.length + 1 + 1) = w := by simp
        simp only [this]
        apply Bool.eq_false_iff.mpr
        intro hh
        have : ':' ∈ w := by simpa using hh
        exact absurd (h2 _ this) (by decide)
  · unfold isKeyValueLine
    rw [if_neg hq]
    constructor
    · intro h; right; intro hm; rw [List.contains_iff_mem.mpr hm] at h; simp at h
    · rintro (h | h)
      · exact absurd h hq
      · apply Bool.eq_false_iff.mpr
        intro hh
        exact h (by simpa using hh)

theorem rootHeader_none {content : Str} : rootHeader content = .ok none ↔
    (VisibleFirst '[' content → HasColon content → NoHeader content) := by
  unfold rootHeader
  by_cases h : isArrayHeaderContent content = true
  · rw [if_pos h, noHeader_iff]
    obtain ⟨h1, h2⟩ := (isArrayHeaderContent_iff _).mp h
    exact ⟨fun h _ _ => h, fun h => h h1 h2⟩
  · rw [if_neg h]
    exact ⟨fun _ h1 h2 => absurd ((isArrayHeaderContent_iff _).mpr ⟨h1, h2⟩) h, fun _ => rfl⟩

theorem rootHeader_some {content : Str} {h : Header} : rootHeader content = .ok (some h) ↔
    VisibleFirst '[' content ∧ HasColon content ∧ HeaderMeans content h := by
  unfold rootHeader
  by_cases hh : isArrayHeaderContent content = true
  · rw [if_pos hh, headerMeans_iff]
    obtain ⟨h1, h2⟩ := (isArrayHeaderContent_iff _).mp hh
    exact ⟨fun h => ⟨h1, h2, h⟩, fun h => h.2.2⟩
  · rw [if_neg hh]
    exact ⟨fun h => by simp at h, fun h => absurd ((isArrayHeaderContent_iff _).mpr ⟨h.1, h.2.1⟩) hh⟩

theorem decodeLines_sound (ctx : Ctx) (lines : List Line) (evs : List (Ev F)) (h : decodeLines ctx lines = .ok evs) :
    ∃ t rest', DocumentMeans ctx.strict ctx.blanks lines t rest' ∧ evs = ETree.events t := by
  unfold decodeLines at h
  cases lines with
  | nil =>
    simp only [Except.ok.injEq] at h
    subst h
    exact ⟨.obj [], [], .empty, by simp [ETree.events, ETree.eventsEntries]⟩
  | cons first rest =>
    simp only at h
    cases hr : rootHeader first.content with
    | error e => rw [hr] at h; simp [bind, Except.bind] at h
    | ok hdr =>
      rw [hr] at h
      simp only [bind, Except.bind] at h
      cases hdr with
      | some hd =>
        simp only at h
        obtain ⟨h1, h2, h3⟩ := rootHeader_some.mp hr
        cases ha : decodeArray (F := F) ctx (5 * (first :: rest).length + 5) hd ⟨rest, some first⟩ 0 with
        | error e => rw [ha] at h; simp at h
        | ok r =>
          obtain ⟨evs1, cur1⟩ := r
          rw [ha] at h
          simp only [pure, Except.pure, Except.ok.injEq] at h
          subst h
          obtain ⟨⟨t, hm, rfl⟩, _⟩ := (soundClaims ctx _).array _ _ _ _ _ (headerMeans_good h3) ha
          exact ⟨t, _, .array h1 h2 h3 hm, rfl⟩
      | none =>
        simp only at h
        have hn := rootHeader_none.mp hr
        split at h
        · rename_i hc
          simp only [Bool.and_eq_true, List.isEmpty_iff, Bool.not_eq_true'] at hc
          obtain ⟨rfl, hc⟩ := hc
          cases hp : parsePrimitiveToken (F := F) (trim first.content) with
          | error e => rw [hp] at h; simp at h
          | ok p =>
            rw [hp] at h
            simp only [pure, Except.pure, Except.ok.injEq] at h
            subst h
            have ht := (parsePrimitiveToken_iff _ _).mp hp
            rw [trim_trim] at ht
            exact ⟨.prim p, [], .prim ((token_line _ p ht).mp hc) ht, rfl⟩
        · cases h1 : decodeKV (F := F) ctx (5 * (first :: rest).length + 5) first.content ⟨rest, some first⟩ 0 with
          | error e => rw [h1] at h; simp at h
          | ok r =>
            obtain ⟨evs1, cur1⟩ := r
            rw [h1] at h
            simp only at h
            cases h2 : rootLoop (F := F) ctx (5 * (first :: rest).length + 5) cur1 with
            | error e => rw [h2] at h; simp at h
            | ok r =>
              obtain ⟨evs2, cur2⟩ := r
              rw [h2] at h
              simp only [pure, Except.pure, Except.ok.injEq] at h
              subst h
              obtain ⟨⟨k, q, t, he, rfl⟩, _⟩ := (soundClaims ctx _).kv _ _ _ _ _ h1
              obtain ⟨es, hb, rfl⟩ := rootLoop_sound ctx _ _ _ _ h2
              exact ⟨.obj ((k, q, t) :: es), _, .object hn he hb, by simp [ETree.events, ETree.eventsEntries]⟩

theorem decodeLines_complete [LawfulF64 F] (ctx : Ctx) (lines : List Line) (t : ETree F) (rest' : List Line)
    (h : DocumentMeans ctx.strict ctx.blanks lines t rest') : decodeLines ctx lines = .ok t.events := by
  have hnf := nf_decodeLines (F := F) ctx lines
  have fuelless : decodeLines (F := F) ctx lines = .error .fuel ∨ decodeLines (F := F) ctx lines = .ok t.events →
      decodeLines (F := F) ctx lines = .ok t.events := by
    rintro (h | h)
    · exact absurd h hnf
    · exact h
  apply fuelless
  clear fuelless hnf
  unfold decodeLines
  cases h with
  | empty => right; simp [ETree.events, ETree.eventsEntries]
  | @array first rest _ hd t h1 h2 h3 ha =>
    simp only
    rw [rootHeader_some.mpr ⟨h1, h2, h3⟩]
    simp only [bind, Except.bind]
    rcases (completeClaims ctx (5 * (first :: rest).length + 5)).array hd ⟨rest, some first⟩ 0 t rest' (headerMeans_good h3) ha with h4 | ⟨b, _, h4⟩
    · rw [h4]; exact Or.inl rfl
    · rw [h4]; exact Or.inr rfl
  | @prim line p hc ht =>
    simp only
    rw [rootHeader_none.mpr]
    · simp only [bind, Except.bind]
      rw [if_pos (by rw [(token_line _ p ht).mpr hc]; rfl), (parsePrimitiveToken_iff _ _).mpr (by rw [trim_trim]; exact ht)]
      exact Or.inr rfl
    · intro hv hcol
      exfalso
      rcases hc with hc | hc
      · obtain ⟨ws, r, hb, e⟩ := hv
        rw [e] at hc
        cases ws with
        | nil => simp at hc
        | cons c ws => simp at hc; subst hc; exact absurd (hb '"' (by simp)) (by decide)
      · obtain ⟨a, b, e, _⟩ := hcol
        exact hc (by rw [e]; simp)
  | @object line rest rest₁ _ e es hn he hb =>
    simp only
    rw [rootHeader_none.mpr hn]
    simp only [bind, Except.bind]
    rw [if_neg (by rw [entry_keyValueLine he]; simp)]
    rcases (completeClaims ctx (5 * (line :: rest).length + 5)).kv line.content ⟨rest, some line⟩ 0 e rest₁ he with h1 | ⟨b1, hb1, h1⟩
    · rw [h1]; exact Or.inl rfl
    · rw [h1]
      simp only
      rcases rootLoop_complete ctx (5 * (line :: rest).length + 5) ⟨rest₁, lastOf b1 (some line)⟩ es rest' hb with h2 | ⟨b2, hb2, h2⟩
      · rw [h2]; exact Or.inl rfl
      · rw [h2]
        obtain ⟨k, q, t⟩ := e
        right
        simp [ETree.events, ETree.eventsEntries, pure, Except.pure]

theorem decodeStream_iff [LawfulF64 F] (indent : Nat) (strict : Bool) (source : List Str) (evs : List (Ev F)) :
    decodeStream indent strict source = .ok evs ↔
      ∃ lines blanks t rest', ScansTo indent strict 0 source lines blanks ∧
        DocumentMeans strict blanks lines t rest' ∧ evs = ETree.events t := by
  unfold decodeStream
  constructor
  · intro h
    cases hp : parseLines indent strict source 0 with
    | error e => rw [hp] at h; simp [bind, Except.bind] at h
    | ok r =>
      obtain ⟨lines, blanks⟩ := r
      rw [hp] at h
      obtain ⟨t, rest', h1, h2⟩ := decodeLines_sound ⟨strict, blanks⟩ lines evs h
      exact ⟨lines, blanks, t, rest', (scansTo_iff _ _ _ _ _ _).mp hp, h1, h2⟩
  · rintro ⟨lines, blanks, t, rest', hs, hd, rfl⟩
    rw [(scansTo_iff _ _ _ _ _ _).mpr hs]
    exact decodeLines_complete ⟨strict, blanks⟩ lines t rest' hd

end

end Toon
