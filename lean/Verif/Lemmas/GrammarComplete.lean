import Verif.Lemmas.GrammarSound
import Verif.Lemmas.Fuel

/-! Every document of the grammar is accepted by the decoder. -/

namespace Toon

section
variable {F : Type} [F64 F]

/-- The result is as stated, unless the fuel runs out. -/
def Done (r : Except Err (List (Ev F) × Cur)) (evs : List (Ev F)) (cur : Cur) (rest' : List Line) : Prop :=
  r = .error .fuel ∨ ∃ body, cur.rest = body ++ rest' ∧ r = .ok (evs, ⟨rest', lastOf body cur.last⟩)

/-- The claims for one fuel value. -/
structure CompleteClaims (F : Type) [F64 F] (ctx : Ctx) (fuel : Nat) : Prop where
  kv : ∀ content cur base (e : Str × Bool × ETree F) rest', EntryMeans ctx.strict ctx.blanks base content cur.rest e rest' →
    Done (decodeKV ctx fuel content cur base) (.key e.1 e.2.1 :: ETree.events e.2.2) cur rest'
  fields : ∀ cur base comp D (es : List (Str × Bool × ETree F)) rest',
    (comp = some D ∨ comp = none ∧ ∃ line rest, cur.rest = line :: rest ∧ line.depth = D) → base ≤ D →
    BlockMeans ctx.strict ctx.blanks false D cur.rest es rest' →
    Done (decodeFields ctx fuel cur base comp) (ETree.eventsEntries es) cur rest'
  array : ∀ h cur base (t : ETree F) rest', GoodHeader h → ArrayMeans ctx.strict ctx.blanks base h cur.rest t rest' →
    Done (decodeArray ctx fuel h cur base) t.events cur rest'
  list : ∀ n D cur count m s e (ts : List (ETree F)) rest', n = count + m →
    ItemsMean ctx.strict ctx.blanks m D cur.rest ts rest' →
    (listLoop ctx fuel n D cur count s e : Except Err (LoopOut F)) = .error .fuel ∨ ∃ body, cur.rest = body ++ rest' ∧
      listLoop ctx fuel n D cur count s e = .ok ⟨ETree.eventsItems ts, ⟨rest', lastOf body cur.last⟩, count + ts.length,
        s.or (body.head?.map (·.num)), (body.getLast?.map (·.num)).or e⟩
  item : ∀ cur base line rest (t : ETree F) rest', cur.rest = line :: rest →
    ItemMeans' ctx.strict ctx.blanks base line.content rest t rest' →
    Done (decodeItem ctx fuel cur base) t.events ⟨rest, some line⟩ rest'
  itemRest : ∀ after cur base (t : ETree F) rest', ¬ BlankLine after →
    (HasColon after → ∃ e es rest₁, t = .obj (e :: es) ∧ EntryMeans ctx.strict ctx.blanks (base + 1) after cur.rest e rest₁ ∧
      BlockMeans ctx.strict ctx.blanks true (base + 1) rest₁ es rest') →
    (¬ HasColon after → rest' = cur.rest ∧ ∃ p, t = .prim p ∧ TokenMeans (trim after) p) →
    Done (decodeItemRest ctx fuel after cur base) t.events cur rest'
  follow : ∀ cur D (es : List (Str × Bool × ETree F)) rest', BlockMeans ctx.strict ctx.blanks true D cur.rest es rest' →
    Done (followLoop ctx fuel cur D) (ETree.eventsEntries es) cur rest'

omit [F64 F] in
theorem Done.here {r : Except Err (List (Ev F) × Cur)} {evs : List (Ev F)} {cur : Cur} (h : r = .ok (evs, cur)) :
    Done r evs cur cur.rest := Or.inr ⟨[], rfl, h⟩

theorem entry_notBoth {strict : Bool} {blanks : List Nat} {depth : Nat} {content : Str} {rest rest' : List Line} {e : Str × Bool × ETree F}
    (h : EntryMeans strict blanks depth content rest e rest') : ∃ hdr, parseArrayHeaderLine content ',' = .ok hdr := by
  cases h with
  | array hm _ _ => exact ⟨_, (headerMeans_iff _ _).mpr hm⟩
  | prim hno _ _ _ => obtain ⟨hdr, h, _⟩ := (noKeyedHeader_iff _).mp hno; exact ⟨hdr, h⟩
  | empty hno _ _ _ => obtain ⟨hdr, h, _⟩ := (noKeyedHeader_iff _).mp hno; exact ⟨hdr, h⟩
  | object hno _ _ _ _ => obtain ⟨hdr, h, _⟩ := (noKeyedHeader_iff _).mp hno; exact ⟨hdr, h⟩

omit [F64 F] in
theorem eventsItems_prims (ps : List (Prim F)) : ETree.eventsItems (ps.map .prim) = ps.map Ev.prim := by
  induction ps with
  | nil => rfl
  | cons p ps ih => simp [ETree.eventsItems, ETree.events, ih]

theorem hasColon_visible {s : Str} (h : HasColon s) : ¬ BlankLine s := by
  obtain ⟨a, b, rfl, _⟩ := h
  intro hb
  exact absurd (hb ':' (by simp)) (by decide)

theorem headerMeans_visible {s : Str} {h : Header} (hm : HeaderMeans s h) : ¬ BlankLine s := by
  obtain ⟨pre, seg, cols, after, ⟨rest, hb, _, _⟩, _⟩ := hm
  intro hh
  rw [(findBracketStart_before hb).1] at hh
  exact absurd (hh '[' (by simp)) (by decide)

theorem completeClaims (ctx : Ctx) (fuel : Nat) : CompleteClaims F ctx fuel := by
  induction fuel with
  | zero =>
    constructor
    · intros; exact Or.inl (by rw [decodeKV])
    · intros; exact Or.inl (by rw [decodeFields])
    · intros; exact Or.inl (by rw [decodeArray])
    · intros; exact Or.inl (by rw [listLoop])
    · intros; exact Or.inl (by rw [decodeItem])
    · intros; exact Or.inl (by rw [decodeItemRest])
    · intros; exact Or.inl (by rw [followLoop])
  | succ fuel ih =>
    constructor
    · -- kv
      intro content cur base e rest' h
      rw [decodeKV]
      have key : ∀ {k after : Str} {q : Bool}, NoKeyedHeader content → KeyLineMeans content k q after →
          ∃ hdr pos, parseArrayHeaderLine content ',' = .ok hdr ∧ keyedHeader hdr = none ∧
            parseKeyToken content = .ok (k, pos, q) ∧ content.drop pos = after := by
        intro k after q h1 h2
        obtain ⟨hdr, h3, h4⟩ := (noKeyedHeader_iff _).mp h1
        obtain ⟨pos, h5, h6⟩ := keyLine_parse h2
        exact ⟨hdr, pos, h3, h4, h5, h6⟩
      generalize hR : cur.rest = R at h
      cases h with
      | @array _ _ _ _ hd k t hm hk ha =>
        rw [(headerMeans_iff _ _).mpr hm]
        have hkh : keyedHeader (some hd) = some (k, hd) := by simp [keyedHeader, hk]
        simp only [bind, Except.bind, hkh]
        rw [← hR] at ha
        rcases ih.array _ _ _ _ _ (headerMeans_good hm) ha with h1 | ⟨body, hb, h1⟩
        · rw [h1]; exact Or.inl rfl
        · rw [h1]; exact Or.inr ⟨body, hb, rfl⟩
      | @prim _ _ after k q _ p hno hkl hb ht =>
        obtain ⟨hdr, pos, h3, h4, h5, h6⟩ := key hno hkl
        rw [h3]
        simp only [bind, Except.bind, h4, h5, h6]
        rw [if_neg (by simpa using fun hh => hb (blank_trim.mpr hh)), (parsePrimitiveToken_iff _ _).mpr (by rw [trim_trim]; exact ht)]
        rw [← hR]
        exact .here rfl
      | @empty _ _ after k q _ hno hkl hb hr =>
        obtain ⟨hdr, pos, h3, h4, h5, h6⟩ := key hno hkl
        rw [h3]
        simp only [bind, Except.bind, h4, h5, h6]
        rw [if_pos (by simpa using blank_trim.mp hb)]
        rw [← hR] at hr ⊢
        cases hcr : cur.rest with
        | nil => simp only; rw [← hcr]; exact .here rfl
        | cons line more =>
          simp only
          rw [if_neg (by have := hr _ _ hcr; omega), ← hcr]
          exact .here rfl
      | @object _ _ after k q line rest _ es hno hkl hb hlt hbl =>
        obtain ⟨hdr, pos, h3, h4, h5, h6⟩ := key hno hkl
        rw [h3]
        simp only [bind, Except.bind, h4, h5, h6]
        rw [if_pos (by simpa using blank_trim.mp hb), if_pos hlt]
        rw [← hR] at hbl
        rcases ih.fields cur (base + 1) none line.depth es rest' (Or.inr ⟨rfl, line, rest, hR, rfl⟩) hlt hbl with h1 | ⟨body, hb, h1⟩
        · rw [h1]; exact Or.inl rfl
        · rw [h1]
          refine Or.inr ⟨body, hb, ?_⟩
          simp [ETree.events, pure, Except.pure]
    · -- fields
      intro cur base comp D es rest' hcomp hbase h
      rw [decodeFields]
      generalize hR : cur.rest = R at h
      cases h with
      | stop hn =>
        cases rest' with
        | nil => simp only; rw [← hR]; exact .here rfl
        | cons line more =>
          simp only
          rw [nextIs_cons] at hn
          have hne : line.depth ≠ D := fun hh => hn ⟨hh, by simp⟩
          rw [← hR]
          split
          · exact .here rfl
          · rw [if_neg ?_]
            · exact .here rfl
            · rcases hcomp with rfl | ⟨rfl, l, r, h1, h2⟩
              · simpa using fun hh : D = line.depth => hne hh.symm
              · rw [hR] at h1; simp only [List.cons.injEq] at h1; rw [h1.1] at hne; exact absurd h2 hne
      | @entry _ _ line rest rest₁ _ e es hd _ he hb =>
        subst hd
        simp only
        rw [if_neg (by omega), if_pos (by rcases hcomp with rfl | ⟨rfl, _⟩ <;> simp)]
        rcases ih.kv line.content ⟨rest, some line⟩ line.depth e rest₁ he with h1 | ⟨b1, hb1, h1⟩
        · rw [h1]; exact Or.inl rfl
        · rw [h1]
          simp only [bind, Except.bind]
          rcases ih.fields ⟨rest₁, lastOf b1 (some line)⟩ base (some line.depth) line.depth es rest' (Or.inl rfl) hbase hb with h2 | ⟨b2, hb2, h2⟩
          · rw [h2]; exact Or.inl rfl
          · rw [h2]
            simp only at hb1 hb2
            refine Or.inr ⟨line :: (b1 ++ b2), by rw [hR, hb1, hb2]; simp, ?_⟩
            obtain ⟨k, q, t⟩ := e
            simp [ETree.eventsEntries, pure, Except.pure, lastOf_cons, lastOf_append]
    · -- array
      intro h cur base t rest' hg ha
      rw [decodeArray]
      generalize hR : cur.rest = R at ha
      cases ha with
      | @inline _ _ _ text cells prims hi hc hp hl =>
        rw [hi]
        simp only
        rw [(decodeInline_iff hg (hg.inline _ hi) ctx.strict (prims.map .prim)).mpr ⟨cells, prims, hc, hp, hl, rfl⟩]
        rw [← hR]
        refine .here ?_
        simp [bind, Except.bind, pure, Except.pure, ETree.events, eventsItems_prims]
      | @table _ _ body _ fields ts hi hf hne hdep hrows hle hnext hstrict =>
        rw [hi]
        simp only [hf, Option.getD_some]
        rw [if_neg (by simpa using hne)]
        have hl := tabularLoop_complete ctx fields (delim_ne_quote hg.delim) h.length (base + 1) body rest' ts hrows
          cur.last 0 none none hdep (by simpa using hle) (by simpa using hnext)
        simp only [Nat.zero_add, Option.or_none, Option.none_or] at hl
        unfold decodeTabular
        rw [hR, hl]
        simp only [bind, Except.bind, pure, Except.pure]
        rw [(assertCount_iff body.length h.length .rows ctx.strict).1 (fun hs => (hstrict hs).1),
          (checkBlanks_iff ctx true body ()).mpr (fun hs => (hstrict hs).2.1),
          (noExtraRows_iff hg.delim rest' (base + 1) _ ctx.strict ()).mpr (fun hs => (hstrict hs).2.2)]
        exact Or.inr ⟨body, hR, by simp [ETree.events]⟩
      | @list _ _ body _ ts hi hf hitems hstrict =>
        rw [hi]
        simp only
        rw [if_pos (by rcases hf with hf | hf <;> simp [hf])]
        rw [← hR] at hitems
        rcases ih.list h.length (base + 1) cur 0 h.length none none ts rest' (by omega) hitems with h1 | ⟨body', hb, h1⟩
        · rw [h1]; exact Or.inl rfl
        · have : body' = body := by
            rw [hR] at hb
            exact (List.append_cancel_right hb).symm
          subst this
          rw [h1]
          simp only [bind, Except.bind, pure, Except.pure, Nat.zero_add, Option.or_none, Option.none_or]
          rw [(assertCount_iff ts.length h.length .listItems ctx.strict).1 (fun hs => (hstrict hs).1),
            (checkBlanks_iff ctx false body' ()).mpr (fun hs => (hstrict hs).2.1),
            (noExtraItems_iff rest' (base + 1) _ ctx.strict ()).mpr (fun hs => (hstrict hs).2.2)]
          exact Or.inr ⟨body', hR, by simp [ETree.events]⟩
    · -- list
      intro n D cur count m s e ts rest' hn h
      rw [listLoop]
      generalize hR : cur.rest = R at h
      cases h with
      | stop hs =>
        have here : ∀ r : Except Err (LoopOut F), r = .ok ⟨[], cur, count, s, e⟩ → r = .error .fuel ∨ ∃ body, cur.rest = body ++ rest' ∧
            r = .ok ⟨ETree.eventsItems [], ⟨rest', lastOf body cur.last⟩, count + ([] : List (ETree F)).length,
              s.or (body.head?.map (·.num)), (body.getLast?.map (·.num)).or e⟩ := by
          intro r hr
          refine Or.inr ⟨[], by simpa using hR, ?_⟩
          rw [hr, ← hR]
          simp [ETree.eventsItems, lastOf]
        rw [← hR] at here ⊢
        refine here _ ?_
        cases hcr : cur.rest with
        | nil => rfl
        | cons line more =>
          simp only
          split
          · rename_i hlt
            split
            · rfl
            · rw [if_neg]
              intro hh
              simp only [Bool.and_eq_true, beq_iff_eq] at hh
              rcases hs with rfl | hs
              · omega
              · rw [← hR, hcr, nextIs_cons] at hs
                exact hs ⟨hh.1, (isListItem_iff _).mp hh.2⟩
          · rfl
      | @item m _ line rest rest₁ _ t ts hd hi hits =>
        subst hd
        simp only
        rw [if_pos (by omega), if_neg (by omega), if_pos]
        · simp only [bind, Except.bind]
          rcases ih.item cur line.depth line rest t rest₁ hR hi with h1 | ⟨b1, hb1, h1⟩
          · rw [h1]; exact Or.inl rfl
          · rw [h1]
            simp only at hb1 ⊢
            have hl : ∃ l, lastOf b1 (some line) = some l := by unfold lastOf; cases b1.getLast? <;> simp
            have hrec := fun s' e' => ih.list n line.depth ⟨rest₁, lastOf b1 (some line)⟩ (count + 1) m s' e' ts rest' (by omega) hits
            obtain ⟨l, hl⟩ := hl
            rw [hl] at hrec ⊢
            simp only at hrec ⊢
            rcases s with _ | s0
            · rcases hrec (some line.num) (some l.num) with h2 | ⟨b2, hb2, h2⟩
              · rw [h2]; exact Or.inl rfl
              · rw [h2]
                refine Or.inr ⟨line :: (b1 ++ b2), by rw [hb1, hb2]; simp, ?_⟩
                simp only [pure, Except.pure, Except.ok.injEq, LoopOut.mk.injEq, Cur.mk.injEq, true_and]
                refine ⟨by simp [ETree.eventsItems], ?_, by simp; omega, ?_, ?_⟩
                · rw [lastOf_cons, lastOf_append, hl]
                · simp
                · rw [getLast?_cons_or, List.getLast?_append]
                  cases hb2l : b2.getLast? with
                  | some l' => simp
                  | none =>
                    unfold lastOf at hl
                    cases hb1l : b1.getLast? with
                    | none => rw [hb1l] at hl; simp at hl; simp [hl]
                    | some l1 => rw [hb1l] at hl; simp at hl; simp [hl]
            · rcases hrec (some s0) (some l.num) with h2 | ⟨b2, hb2, h2⟩
              · rw [h2]; exact Or.inl rfl
              · rw [h2]
                refine Or.inr ⟨line :: (b1 ++ b2), by rw [hb1, hb2]; simp, ?_⟩
                simp only [pure, Except.pure, Except.ok.injEq, LoopOut.mk.injEq, Cur.mk.injEq, true_and]
                refine ⟨by simp [ETree.eventsItems], ?_, by simp; omega, ?_, ?_⟩
                · rw [lastOf_cons, lastOf_append, hl]
                · simp
                · rw [getLast?_cons_or, List.getLast?_append]
                  cases hb2l : b2.getLast? with
                  | some l' => simp
                  | none =>
                    unfold lastOf at hl
                    cases hb1l : b1.getLast? with
                    | none => rw [hb1l] at hl; simp at hl; simp [hl]
                    | some l1 => rw [hb1l] at hl; simp at hl; simp [hl]
        · have : isListItem line.content = true := by
            rw [isListItem_iff]
            generalize line.content = c at hi
            cases hi with
            | hyphen => exact Or.inl rfl
            | _ => exact Or.inr ⟨_, rfl⟩
          simp [this]
    · -- item
      intro cur base line rest t rest' hR h
      rw [decodeItem, hR]
      simp only
      generalize hc : line.content = c at h
      cases h with
      | hyphen =>
        rw [if_pos rfl]
        exact .here (cur := ⟨rest, some line⟩) (by simp [ETree.events, ETree.eventsEntries])
      | blank hb =>
        rw [if_neg (by simp), if_pos ((hyphenSpace_iff _).mpr ⟨_, rfl⟩)]
        simp only [List.drop_succ_cons, List.drop_zero]
        rw [if_pos (by simpa using blank_trim.mp hb)]
        exact .here (cur := ⟨rest, some line⟩) (by simp [ETree.events, ETree.eventsEntries])
      | @array _ after _ _ hd t hv hcol hm ha =>
        rw [if_neg (by simp), if_pos ((hyphenSpace_iff _).mpr ⟨_, rfl⟩)]
        simp only [List.drop_succ_cons, List.drop_zero]
        rw [if_neg (by simpa using fun hh => hasColon_visible hcol (blank_trim.mpr hh)), (headerMeans_iff _ _).mpr hm,
          (isArrayHeaderContent_iff _).mpr ⟨hv, hcol⟩]
        simp only [bind, Except.bind]
        exact ih.array hd ⟨rest, some line⟩ base t rest' (headerMeans_good hm) ha
      | @object _ after _ rest₁ _ e es hn hcond he hb =>
        have hnb : ¬ BlankLine after := by
          rcases hcond with h | ⟨h, hm, _⟩
          · exact hasColon_visible h
          · exact headerMeans_visible hm
        rw [if_neg (by simp), if_pos ((hyphenSpace_iff _).mpr ⟨_, rfl⟩)]
        simp only [List.drop_succ_cons, List.drop_zero]
        obtain ⟨hdr, hh⟩ := entry_notBoth he
        rw [if_neg (by simpa using fun hh => hnb (blank_trim.mpr hh)), hh]
        simp only [bind, Except.bind]
        have hnot : ¬ (isArrayHeaderContent after = true ∧ hdr.isSome = true) := by
          rintro ⟨h1, h2⟩
          obtain ⟨x, rfl⟩ := Option.isSome_iff_exists.mp h2
          exact hn ⟨((isArrayHeaderContent_iff _).mp h1).1, x, (headerMeans_iff _ _).mp hh⟩
        have hrest : HasColon after → Done (decodeItemRest ctx fuel after ⟨rest, some line⟩ base) (ETree.obj (e :: es)).events
            ⟨rest, some line⟩ rest' := fun hcol =>
          ih.itemRest after ⟨rest, some line⟩ base _ rest' hnb (fun _ => ⟨e, es, rest₁, rfl, he, hb⟩) (fun h => absurd hcol h)
        split
        · rename_i h1; exact absurd ⟨h1, by simp⟩ hnot
        · rename_i hdr _ _ _
          cases hk : keyedHeader hdr with
          | none =>
            simp only
            refine hrest ?_
            rcases hcond with h | ⟨h, hm, hkey, _⟩
            · exact h
            · rw [(headerMeans_iff _ _).mpr hm] at hh
              simp only [Except.ok.injEq] at hh
              subst hh
              cases hkk : h.key with
              | none => exact absurd hkk hkey
              | some k => simp [keyedHeader, hkk] at hk
          | some kh =>
            obtain ⟨k, hd⟩ := kh
            obtain ⟨rfl, hkey⟩ := keyedHeader_key hk
            have hm := (headerMeans_iff _ _).mp hh
            simp only
            split
            · rename_i hf
              cases he with
              | @array _ _ _ _ hd' k' t' hm' hk' ha' =>
                have := (headerMeans_iff _ _).mpr hm'
                rw [hh] at this
                simp only [Except.ok.injEq, Option.some.injEq] at this
                subst this
                rw [hkey] at hk'
                simp only [Option.some.injEq] at hk'
                subst hk'
                rcases ih.array hd ⟨rest, some line⟩ (base + 1) t' rest₁ (headerMeans_good hm) ha' with h1 | ⟨b1, hb1, h1⟩
                · rw [h1]; exact Or.inl rfl
                · rw [h1]
                  simp only
                  rcases ih.follow ⟨rest₁, lastOf b1 (some line)⟩ (base + 1) es rest' hb with h2 | ⟨b2, hb2, h2⟩
                  · rw [h2]; exact Or.inl rfl
                  · rw [h2]
                    simp only at hb1 hb2
                    exact Or.inr ⟨b1 ++ b2, by simp only; rw [hb1, hb2]; simp,
                      by simp [ETree.events, ETree.eventsEntries, pure, Except.pure, lastOf_append]⟩
              | prim hno _ _ _ =>
                obtain ⟨hdr', h3, h4⟩ := (noKeyedHeader_iff _).mp hno
                rw [hh] at h3; simp only [Except.ok.injEq] at h3; subst h3; rw [hk] at h4; simp at h4
              | empty hno _ _ _ =>
                obtain ⟨hdr', h3, h4⟩ := (noKeyedHeader_iff _).mp hno
                rw [hh] at h3; simp only [Except.ok.injEq] at h3; subst h3; rw [hk] at h4; simp at h4
              | object hno _ _ _ _ =>
                obtain ⟨hdr', h3, h4⟩ := (noKeyedHeader_iff _).mp hno
                rw [hh] at h3; simp only [Except.ok.injEq] at h3; subst h3; rw [hk] at h4; simp at h4
            · rename_i hf
              refine hrest ?_
              rcases hcond with h | ⟨h, hm', _, hff⟩
              · exact h
              · have := (headerMeans_iff _ _).mpr hm'
                rw [hh] at this
                simp only [Except.ok.injEq, Option.some.injEq] at this
                subst this
                cases hx : hd.fields with
                | none => exact absurd hx hff
                | some fs => rw [hx] at hf; simp at hf
      | @prim _ after _ p hnb hcol hhd ht =>
        rw [if_neg (by simp), if_pos ((hyphenSpace_iff _).mpr ⟨_, rfl⟩)]
        simp only [List.drop_succ_cons, List.drop_zero]
        rw [if_neg (by simpa using fun hh => hnb (blank_trim.mpr hh))]
        have hrest : Done (decodeItemRest ctx fuel after ⟨rest, some line⟩ base) (ETree.prim p).events ⟨rest, some line⟩ rest :=
          ih.itemRest after ⟨rest, some line⟩ base _ rest hnb (fun h => absurd h hcol) (fun _ => ⟨rfl, p, rfl, ht⟩)
        have hia : isArrayHeaderContent after = false := by
          apply Bool.eq_false_iff.mpr
          intro hh
          exact hcol ((isArrayHeaderContent_iff _).mp hh).2
        rcases hhd with hno | ⟨h, hm, hkf⟩
        · rw [(noHeader_iff _).mpr hno, hia]
          exact hrest
        · rw [(headerMeans_iff _ _).mpr hm, hia]
          simp only [bind, Except.bind]
          cases hk : keyedHeader (some h) with
          | none => exact hrest
          | some kh =>
            obtain ⟨k, hd⟩ := kh
            obtain ⟨h1, hkey⟩ := keyedHeader_key hk
            simp only [Option.some.injEq] at h1
            subst h1
            simp only
            rw [if_neg]
            · exact hrest
            · rcases hkf with h1 | h1
              · rw [hkey] at h1; simp at h1
              · rw [h1]; simp
    · -- itemRest
      intro after cur base t rest' hnb hyes hno
      rw [decodeItemRest]
      by_cases hcol : HasColon after
      · rw [if_pos ((isKeyValueContent_iff _).mpr hcol)]
        obtain ⟨e, es, rest₁, rfl, he, hb⟩ := hyes hcol
        rcases ih.kv after cur (base + 1) e rest₁ he with h1 | ⟨b1, hb1, h1⟩
        · rw [h1]; exact Or.inl rfl
        · rw [h1]
          simp only [bind, Except.bind]
          rcases ih.follow ⟨rest₁, lastOf b1 cur.last⟩ (base + 1) es rest' hb with h2 | ⟨b2, hb2, h2⟩
          · rw [h2]; exact Or.inl rfl
          · rw [h2]
            simp only at hb2
            obtain ⟨k, q, t⟩ := e
            exact Or.inr ⟨b1 ++ b2, by rw [hb1, hb2]; simp,
              by simp [ETree.events, ETree.eventsEntries, pure, Except.pure, lastOf_append]⟩
      · rw [if_neg (fun hh => hcol ((isKeyValueContent_iff _).mp hh))]
        obtain ⟨rfl, p, rfl, ht⟩ := hno hcol
        rw [(parsePrimitiveToken_iff _ _).mpr ht]
        exact .here rfl
    · -- follow
      intro cur D es rest' h
      rw [followLoop]
      generalize hR : cur.rest = R at h
      cases h with
      | stop hn =>
        cases rest' with
        | nil => simp only; rw [← hR]; exact .here rfl
        | cons line more =>
          simp only
          rw [nextIs_cons] at hn
          rw [← hR]
          split
          · exact .here rfl
          · rw [if_neg]
            · exact .here rfl
            · intro hh
              simp only [Bool.and_eq_true, beq_iff_eq, Bool.not_eq_true'] at hh
              refine hn ⟨hh.1, fun _ hy => ?_⟩
              rw [(hyphenSpace_iff _).mpr hy] at hh
              simp at hh
      | @entry _ _ line rest rest₁ _ e es hd hdash he hb =>
        subst hd
        simp only
        have hnd : startsWithDash line.content = false := by
          apply Bool.eq_false_iff.mpr
          intro hh
          exact hdash rfl ((hyphenSpace_iff _).mp hh)
        rw [if_neg (by omega), if_pos (by simp [hnd])]
        rcases ih.kv line.content ⟨rest, some line⟩ line.depth e rest₁ he with h1 | ⟨b1, hb1, h1⟩
        · rw [h1]; exact Or.inl rfl
        · rw [h1]
          simp only [bind, Except.bind]
          rcases ih.follow ⟨rest₁, lastOf b1 (some line)⟩ line.depth es rest' hb with h2 | ⟨b2, hb2, h2⟩
          · rw [h2]; exact Or.inl rfl
          · rw [h2]
            simp only at hb1 hb2
            refine Or.inr ⟨line :: (b1 ++ b2), by rw [hR, hb1, hb2]; simp, ?_⟩
            obtain ⟨k, q, t⟩ := e
            simp [ETree.eventsEntries, pure, Except.pure, lastOf_cons, lastOf_append]

end

end Toon
