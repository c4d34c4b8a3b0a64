import Verif.Lemmas.GrammarArrays

/-! What the decoder accepts is a document of the grammar. -/

namespace Toon

section
variable {F : Type} [F64 F]

/-- The second cursor stands after the lines `body`. -/
def Adv (cur cur' : Cur) : Prop := ∃ body, cur.rest = body ++ cur'.rest ∧ cur'.last = lastOf body cur.last

theorem Adv.refl (cur : Cur) : Adv cur cur := ⟨[], rfl, rfl⟩

theorem Adv.trans {a b c : Cur} (h1 : Adv a b) (h2 : Adv b c) : Adv a c := by
  obtain ⟨x, e1, e2⟩ := h1
  obtain ⟨y, e3, e4⟩ := h2
  exact ⟨x ++ y, by rw [e1, e3]; simp, by rw [e4, e2, lastOf_append]⟩

theorem Adv.step {line : Line} {rest : List Line} {cur : Cur} (h : cur.rest = line :: rest) : Adv cur ⟨rest, some line⟩ :=
  ⟨[line], by rw [h]; rfl, rfl⟩

/-- The claims for one fuel value. -/
structure SoundClaims (F : Type) [F64 F] (ctx : Ctx) (fuel : Nat) : Prop where
  kv : ∀ content cur base (evs : List (Ev F)) cur', decodeKV ctx fuel content cur base = .ok (evs, cur') →
    (∃ k q t, EntryMeans ctx.strict ctx.blanks base content cur.rest (k, q, t) cur'.rest ∧ evs = .key k q :: ETree.events t) ∧
    Adv cur cur'
  fields : ∀ cur base comp D (evs : List (Ev F)) cur',
    (comp = some D ∨ comp = none ∧ ∃ line rest, cur.rest = line :: rest ∧ line.depth = D) → base ≤ D →
    decodeFields ctx fuel cur base comp = .ok (evs, cur') →
    (∃ es, BlockMeans ctx.strict ctx.blanks false D cur.rest es cur'.rest ∧ evs = ETree.eventsEntries es) ∧ Adv cur cur'
  array : ∀ h cur base (evs : List (Ev F)) cur', GoodHeader h → decodeArray ctx fuel h cur base = .ok (evs, cur') →
    (∃ t, ArrayMeans ctx.strict ctx.blanks base h cur.rest t cur'.rest ∧ evs = ETree.events t) ∧ Adv cur cur'
  list : ∀ n D cur count s e (out : LoopOut F), count ≤ n → listLoop ctx fuel n D cur count s e = .ok out →
    ∃ ts body, ItemsMean ctx.strict ctx.blanks (n - count) D cur.rest ts out.cur.rest ∧ cur.rest = body ++ out.cur.rest ∧
      out = ⟨ETree.eventsItems ts, ⟨out.cur.rest, lastOf body cur.last⟩, count + ts.length,
        s.or (body.head?.map (·.num)), (body.getLast?.map (·.num)).or e⟩
  item : ∀ cur base (evs : List (Ev F)) cur', decodeItem ctx fuel cur base = .ok (evs, cur') →
    ∃ line rest, cur.rest = line :: rest ∧
      (∃ t, ItemMeans' ctx.strict ctx.blanks base line.content rest t cur'.rest ∧ evs = ETree.events t) ∧
      Adv ⟨rest, some line⟩ cur'
  itemRest : ∀ after cur base (evs : List (Ev F)) cur' hdr, ¬ BlankLine after →
    parseArrayHeaderLine after ',' = .ok hdr → ¬ (isArrayHeaderContent after = true ∧ hdr.isSome = true) →
    (∀ k h, keyedHeader hdr = some (k, h) → h.fields = none) →
    decodeItemRest ctx fuel after cur base = .ok (evs, cur') →
    (∃ t, ItemMeans' ctx.strict ctx.blanks base ('-' :: ' ' :: after) cur.rest t cur'.rest ∧ evs = ETree.events t) ∧ Adv cur cur'
  follow : ∀ cur D (evs : List (Ev F)) cur', followLoop ctx fuel cur D = .ok (evs, cur') →
    (∃ es, BlockMeans ctx.strict ctx.blanks true D cur.rest es cur'.rest ∧ evs = ETree.eventsEntries es) ∧ Adv cur cur'

theorem notNext_nil {d : Nat} {p : Str → Prop} : ¬ NextIs d p [] := by
  rintro ⟨l, m, h, _⟩; simp at h

theorem nextIs_cons {d : Nat} {p : Str → Prop} {line : Line} {rest : List Line} :
    NextIs d p (line :: rest) ↔ line.depth = d ∧ p line.content := by
  constructor
  · rintro ⟨l, m, h1, h2, h3⟩; simp at h1; obtain ⟨rfl, rfl⟩ := h1; exact ⟨h2, h3⟩
  · rintro ⟨h1, h2⟩; exact ⟨line, rest, rfl, h1, h2⟩

theorem keyedHeader_key {hdr : Option Header} {k : Str} {h : Header} (hk : keyedHeader hdr = some (k, h)) :
    hdr = some h ∧ h.key = some k := by
  have h1 := keyedHeader_some hk
  subst h1
  refine ⟨rfl, ?_⟩
  unfold keyedHeader at hk
  cases hh : h.key with
  | none => simp [hh] at hk
  | some k' => simp [hh] at hk; rw [hk]

theorem visibleFirst_nokey {content : Str} {h : Header} (hv : VisibleFirst '[' content) (hm : HeaderMeans content h) : h.key = none := by
  obtain ⟨pre, seg, cols, after, ⟨rest, hb, _, _⟩, hk, _⟩ := hm
  have hpre : BlankLine pre := by
    obtain ⟨ws, r, hws, hc⟩ := hv
    have hq : ¬ VisibleFirst '"' content := by
      intro hh
      have h1 := (visibleFirst_iff (c := '"') (by decide) _).mp hh
      have h2 := (visibleFirst_iff (c := '[') (by decide) _).mp ⟨ws, r, hws, hc⟩
      rw [h1] at h2
      simp at h2
    cases hb with
    | quoted hb hl => exact absurd ⟨_, _, hb, by simp; rfl⟩ hq
    | bare _ hp =>
      obtain ⟨x, hx, hx2⟩ | ⟨x, hx, hx2⟩ := List.append_eq_append_iff.mp hc
      · cases x with
        | nil => simp at hx; rw [hx] at hws; exact hws
        | cons y x =>
          intro c hcc
          exact hws c (by rw [hx]; simp [hcc])
      · cases x with
        | nil => simp at hx; rw [hx]; exact hws
        | cons y x => simp at hx2; exact absurd (by rw [hx, ← hx2.1]; simp) hp
  cases hh : h.key with
  | none => rfl
  | some k =>
    rw [hh] at hk
    generalize h.keyQuoted = q at hk
    cases hk with
    | quoted h1 _ => rw [blank_trim.mp hpre] at h1; simp at h1
    | bare h1 _ => exact absurd (blank_trim.mp hpre) h1

theorem soundClaims (ctx : Ctx) (fuel : Nat) : SoundClaims F ctx fuel := by
  induction fuel with
  | zero =>
    constructor <;> intros <;> rename_i h <;>
      simp [decodeKV, decodeFields, decodeArray, listLoop, decodeItem, decodeItemRest, followLoop] at h
  | succ fuel ih =>
    constructor
    · -- kv
      intro content cur base evs cur' h
      rw [decodeKV] at h
      obtain ⟨hdr, hh, h⟩ := bind_ok.mp h
      split at h
      · rename_i key hd hk
        obtain ⟨⟨evs1, cur1⟩, h1, h⟩ := bind_ok.mp h
        rw [pure_ok] at h
        simp only [Prod.mk.injEq] at h
        obtain ⟨rfl, rfl⟩ := h
        obtain ⟨rfl, hkey⟩ := keyedHeader_key hk
        have hm := (headerMeans_iff _ _).mp hh
        obtain ⟨⟨t, ht, rfl⟩, hc⟩ := ih.array _ _ _ _ _ (headerMeans_good hm) h1
        exact ⟨⟨key, _, t, .array hm hkey ht, rfl⟩, hc⟩
      · rename_i hk
        have hno : NoKeyedHeader content := (noKeyedHeader_iff _).mpr ⟨hdr, hh, hk⟩
        obtain ⟨⟨key, e, quoted⟩, hkt, h⟩ := bind_ok.mp h
        have hkl := keyLine_iff _ _ _ _ hkt
        simp only at h
        split at h
        · rename_i hemp
          have hbl : BlankLine (content.drop e) := blank_trim.mpr (by simpa using hemp)
          split at h
          · rename_i next more hr
            split at h
            · rename_i hlt
              obtain ⟨⟨evs1, cur1⟩, h1, h⟩ := bind_ok.mp h
              rw [pure_ok] at h
              simp only [Prod.mk.injEq] at h
              obtain ⟨rfl, rfl⟩ := h
              obtain ⟨⟨es, hes, rfl⟩, hc⟩ := ih.fields _ _ _ next.depth _ _ (Or.inr ⟨rfl, next, more, hr, rfl⟩) hlt h1
              refine ⟨⟨key, quoted, .obj es, ?_, by simp [ETree.events]⟩, hc⟩
              rw [hr] at hes ⊢
              exact .object hno hkl hbl hlt hes
            · rename_i hge
              rw [pure_ok] at h
              simp only [Prod.mk.injEq] at h
              obtain ⟨rfl, rfl⟩ := h
              refine ⟨⟨key, quoted, .obj [], .empty hno hkl hbl ?_, by simp [ETree.events, ETree.eventsEntries]⟩, .refl _⟩
              intro l m hlm
              rw [hr] at hlm
              simp only [List.cons.injEq] at hlm
              rw [← hlm.1]; omega
          · rename_i hr
            rw [pure_ok] at h
            simp only [Prod.mk.injEq] at h
            obtain ⟨rfl, rfl⟩ := h
            refine ⟨⟨key, quoted, .obj [], .empty hno hkl hbl ?_, by simp [ETree.events, ETree.eventsEntries]⟩, .refl _⟩
            intro l m hlm
            rw [hr] at hlm
            simp at hlm
        · rename_i hne
          obtain ⟨p, hp, h⟩ := bind_ok.mp h
          rw [pure_ok] at h
          simp only [Prod.mk.injEq] at h
          obtain ⟨rfl, rfl⟩ := h
          have htm := (parsePrimitiveToken_iff _ _).mp hp
          rw [trim_trim] at htm
          exact ⟨⟨key, quoted, .prim p, .prim hno hkl (fun hb => hne (by simpa using blank_trim.mp hb)) htm,
            by simp [ETree.events]⟩, .refl _⟩
    · -- fields
      intro cur base comp D evs cur' hcomp hbase h
      rw [decodeFields] at h
      split at h
      · rename_i hr
        simp only [Except.ok.injEq, Prod.mk.injEq] at h
        obtain ⟨rfl, rfl⟩ := h
        exact ⟨⟨[], .stop (by rw [hr]; exact notNext_nil), rfl⟩, .refl _⟩
      · rename_i line rest hr
        have stop : line.depth ≠ D → (evs = [] ∧ cur' = cur) →
            (∃ es, BlockMeans ctx.strict ctx.blanks false D cur.rest es cur'.rest ∧ evs = ETree.eventsEntries es) ∧ Adv cur cur' := by
          rintro hd ⟨rfl, rfl⟩
          exact ⟨⟨[], .stop (by rw [hr, nextIs_cons]; exact fun hh => hd hh.1), rfl⟩, .refl _⟩
        split at h
        · rename_i hlt
          simp only [Except.ok.injEq, Prod.mk.injEq] at h
          exact stop (by omega) ⟨h.1.symm, h.2.symm⟩
        · split at h
          · rename_i hdep
            have hD : line.depth = D := by
              rcases hcomp with rfl | ⟨rfl, l, r, h1, h2⟩
              · simpa using hdep.symm
              · rw [hr] at h1; simp only [List.cons.injEq] at h1; rw [h1.1]; exact h2
            obtain ⟨⟨evs1, cur1⟩, h1, h⟩ := bind_ok.mp h
            obtain ⟨⟨evs2, cur2⟩, h2, h⟩ := bind_ok.mp h
            rw [pure_ok] at h
            simp only [Prod.mk.injEq] at h
            obtain ⟨rfl, rfl⟩ := h
            rw [hD] at h1 h2
            obtain ⟨⟨k, q, t, ht, rfl⟩, hc1⟩ := ih.kv _ _ _ _ _ h1
            obtain ⟨⟨es, hes, rfl⟩, hc2⟩ := ih.fields _ _ _ D _ _ (Or.inl rfl) hbase h2
            refine ⟨⟨(k, q, t) :: es, ?_, by simp [ETree.eventsEntries]⟩, (Adv.step hr).trans (hc1.trans hc2)⟩
            rw [hr]
            exact .entry hD (by simp) ht hes
          · rename_i hdep
            simp only [Except.ok.injEq, Prod.mk.injEq] at h
            refine stop ?_ ⟨h.1.symm, h.2.symm⟩
            rcases hcomp with rfl | ⟨rfl, l, r, h1, h2⟩
            · simpa using fun hh => hdep (by simpa using hh.symm)
            · simp at hdep
    · -- array
      intro h cur base evs cur' hg hd
      rw [decodeArray] at hd
      split at hd
      · rename_i text hi
        obtain ⟨evs1, h1, hd⟩ := bind_ok.mp hd
        rw [pure_ok] at hd
        simp only [Prod.mk.injEq] at hd
        obtain ⟨rfl, rfl⟩ := hd
        obtain ⟨cells, prims, hc, hp, hl, rfl⟩ := (decodeInline_iff hg (hg.inline _ hi) _ _).mp h1
        refine ⟨⟨.arr h.length (prims.map .prim), .inline hi hc hp hl, ?_⟩, .refl _⟩
        have : ∀ ps : List (Prim F), ps.map Ev.prim = ETree.eventsItems (ps.map .prim) := by
          intro ps
          induction ps with
          | nil => rfl
          | cons p ps ihp => simp [ETree.eventsItems, ETree.events, ihp]
        simp [ETree.events, this]
      · rename_i hi
        split at hd
        · rename_i hf
          obtain ⟨out, h1, hd⟩ := bind_ok.mp hd
          obtain ⟨_, h2, hd⟩ := bind_ok.mp hd
          obtain ⟨_, h3, hd⟩ := bind_ok.mp hd
          obtain ⟨_, h4, hd⟩ := bind_ok.mp hd
          rw [pure_ok] at hd
          simp only [Prod.mk.injEq] at hd
          obtain ⟨rfl, rfl⟩ := hd
          obtain ⟨ts, body, e1, e2, e3⟩ := ih.list _ _ _ _ _ _ _ (Nat.zero_le _) h1
          have x1 : out.evs = ETree.eventsItems ts := by rw [e3]
          have x2 : out.count = ts.length := by rw [e3]; simp
          have x3 : out.start = body.head?.map (·.num) := by rw [e3]; simp
          have x4 : out.end = body.getLast?.map (·.num) := by rw [e3]; simp
          have x5 : out.cur.last = lastOf body cur.last := by rw [e3]
          rw [x2] at h2
          rw [x3, x4, checkBlanks_iff] at h3
          rw [noExtraItems_iff] at h4
          refine ⟨⟨.arr h.length ts, ?_, by simp [ETree.events, x1]⟩, ⟨body, e2, x5⟩⟩
          rw [e2] at e1 ⊢
          refine .list hi ?_ e1 (fun hs => ⟨assertCount_ok h2 hs, h3 hs, h4 hs⟩)
          cases hff : h.fields with
          | none => exact Or.inl rfl
          | some fs => rw [hff] at hf; simp at hf; subst hf; exact Or.inr rfl
        · rename_i hf
          obtain ⟨⟨evs1, cur1⟩, h1, hd⟩ := bind_ok.mp hd
          rw [pure_ok] at hd
          simp only [Prod.mk.injEq] at hd
          obtain ⟨rfl, rfl⟩ := hd
          obtain ⟨fields, hff⟩ : ∃ fs, h.fields = some fs := by
            cases hff : h.fields with
            | none => rw [hff] at hf; simp at hf
            | some fs => exact ⟨fs, rfl⟩
          rw [hff] at h1 hf
          simp only [Option.getD_some] at h1 hf
          unfold decodeTabular at h1
          obtain ⟨out, g1, h1⟩ := bind_ok.mp h1
          obtain ⟨_, g2, h1⟩ := bind_ok.mp h1
          obtain ⟨_, g3, h1⟩ := bind_ok.mp h1
          obtain ⟨_, g4, h1⟩ := bind_ok.mp h1
          rw [pure_ok] at h1
          simp only [Prod.mk.injEq] at h1
          obtain ⟨rfl, rfl⟩ := h1
          obtain ⟨body, rest', ts, e1, e2, e3, e4, e5, rfl⟩ :=
            tabularLoop_sound ctx fields (delim_ne_quote hg.delim) _ _ _ _ _ _ _ _ (Nat.zero_le _) g1
          simp only [Nat.zero_add, Option.or_none] at e4 e5 g2 g3
          rw [Option.none_or, checkBlanks_iff] at g3
          rw [noExtraRows_iff hg.delim] at g4
          refine ⟨⟨.arr h.length ts, ?_, by simp [ETree.events]⟩, ⟨body, e1, rfl⟩⟩
          rw [e1]
          exact .table hi hff (by simpa using hf) e2 e3 e4 e5 (fun hs => ⟨assertCount_ok g2 hs, g3 hs, g4 hs⟩)
    · -- list
      intro n D cur count s e out hcn h
      have stop : (count < n → ¬ NextIs D (fun content => content = ['-'] ∨ HyphenSpace content) cur.rest) →
          Except.ok (ε := Err) (LoopOut.mk [] cur count s e) = .ok out →
          ∃ ts body, ItemsMean ctx.strict ctx.blanks (n - count) D cur.rest ts out.cur.rest ∧ cur.rest = body ++ out.cur.rest ∧
            out = ⟨ETree.eventsItems ts, ⟨out.cur.rest, lastOf body cur.last⟩, count + ts.length,
              s.or (body.head?.map (·.num)), (body.getLast?.map (·.num)).or e⟩ := by
        intro hn h
        simp only [Except.ok.injEq] at h
        subst h
        refine ⟨[], [], .stop ?_, rfl, by simp [ETree.eventsItems, lastOf]⟩
        by_cases hlt : count < n
        · exact Or.inr (hn hlt)
        · exact Or.inl (by omega)
      rw [listLoop] at h
      split at h
      · rename_i hr
        exact stop (fun _ => by rw [hr]; exact notNext_nil) h
      · rename_i line rest hr
        split at h
        · rename_i hlt
          split at h
          · rename_i hdep
            exact stop (fun _ => by rw [hr, nextIs_cons]; rintro ⟨h1, _⟩; omega) h
          · split at h
            · rename_i hitem
              simp only [Bool.and_eq_true, beq_iff_eq] at hitem
              simp only at h
              obtain ⟨⟨evs1, cur1⟩, h1, h⟩ := bind_ok.mp h
              obtain ⟨out', h2, h⟩ := bind_ok.mp h
              rw [pure_ok] at h
              obtain ⟨line', rest', hr', ⟨t, ht, rfl⟩, b1, hb1, hb2⟩ := ih.item _ _ _ _ h1
              rw [hr] at hr'
              simp only [List.cons.injEq] at hr'
              obtain ⟨rfl, rfl⟩ := hr'
              obtain ⟨ts, b2, e1, e2, e3⟩ := ih.list _ _ _ _ _ _ _ (by omega) h2
              simp only at hb1 hb2
              subst h
              refine ⟨t :: ts, line :: (b1 ++ b2), ?_, ?_, ?_⟩
              · rw [hr]
                have : n - count = (n - (count + 1)) + 1 := by omega
                rw [this]
                exact .item hitem.1 (hitem.1 ▸ ht) e1
              · rw [hr, hb1, e2]; simp
              · rw [e3]
                simp only [LoopOut.mk.injEq, Cur.mk.injEq, true_and]
                have hl : cur1.last = lastOf b1 (some line) := hb2
                refine ⟨by simp [ETree.eventsItems], ?_, by simp; omega, ?_, ?_⟩
                · rw [lastOf_cons, lastOf_append, hl]
                · cases s <;> simp
                · rw [getLast?_cons_or, hl]
                  unfold lastOf
                  rw [List.getLast?_append]
                  cases b2.getLast? with
                  | some l => simp
                  | none => cases b1.getLast? <;> simp
            · rename_i hitem
              refine stop (fun _ => ?_) h
              rw [hr, nextIs_cons]
              rintro ⟨h1, h2⟩
              exact hitem (by simp [h1, (isListItem_iff _).mpr h2])
        · rename_i hlt
          exact stop (fun hh => absurd hh hlt) h
    · -- item
      intro cur base evs cur' h
      rw [decodeItem] at h
      split at h
      · contradiction
      · rename_i line rest hr
        simp only at h
        refine ⟨line, rest, hr, ?_⟩
        split at h
        · rename_i hdash
          simp only [Except.ok.injEq, Prod.mk.injEq] at h
          obtain ⟨rfl, rfl⟩ := h
          refine ⟨⟨.obj [], ?_, by simp [ETree.events, ETree.eventsEntries]⟩, .refl _⟩
          rw [hdash]
          exact .hyphen
        · split at h
          · rename_i hdash
            obtain ⟨after, ha⟩ := (hyphenSpace_iff _).mp hdash
            have hdrop : line.content.drop 2 = after := by rw [ha]; rfl
            rw [hdrop] at h
            rw [ha]
            split at h
            · rename_i hb
              simp only [Except.ok.injEq, Prod.mk.injEq] at h
              obtain ⟨rfl, rfl⟩ := h
              exact ⟨⟨.obj [], .blank (blank_trim.mpr (by simpa using hb)), by simp [ETree.events, ETree.eventsEntries]⟩, .refl _⟩
            · rename_i hb
              have hnb : ¬ BlankLine after := fun hh => hb (by simpa using blank_trim.mp hh)
              obtain ⟨hdr, hh, h⟩ := bind_ok.mp h
              split at h
              · rename_i hd hisHdr
                have hm := (headerMeans_iff _ _).mp hh
                obtain ⟨hv, hcol⟩ := (isArrayHeaderContent_iff _).mp hisHdr
                obtain ⟨⟨t, ht, rfl⟩, hc⟩ := ih.array _ _ _ _ _ (headerMeans_good hm) h
                exact ⟨⟨t, .array hv hcol hm ht, rfl⟩, hc⟩
              · rename_i hdr _ _ hnot
                have hn : ¬ (isArrayHeaderContent after = true ∧ hdr.isSome = true) := by
                  rintro ⟨h1, h2⟩
                  obtain ⟨x, hx⟩ := Option.isSome_iff_exists.mp h2
                  exact hnot x h1 hx
                split at h
                · rename_i key hd hk
                  obtain ⟨rfl, hkey⟩ := keyedHeader_key hk
                  have hm := (headerMeans_iff _ _).mp hh
                  split at h
                  · rename_i hf
                    obtain ⟨⟨evs1, cur1⟩, h1, h⟩ := bind_ok.mp h
                    obtain ⟨⟨evs2, cur2⟩, h2, h⟩ := bind_ok.mp h
                    rw [pure_ok] at h
                    simp only [Prod.mk.injEq] at h
                    obtain ⟨rfl, rfl⟩ := h
                    obtain ⟨⟨t, ht, rfl⟩, hc1⟩ := ih.array _ _ _ _ _ (headerMeans_good hm) h1
                    obtain ⟨⟨es, hes, rfl⟩, hc2⟩ := ih.follow _ _ _ _ h2
                    refine ⟨⟨.obj ((key, hd.keyQuoted, t) :: es), ?_, by simp [ETree.events, ETree.eventsEntries]⟩, hc1.trans hc2⟩
                    refine .object ?_ (Or.inr ⟨hd, hm, by rw [hkey]; simp, ?_⟩) (.array hm hkey ht) hes
                    · rintro ⟨hv, _⟩
                      rw [visibleFirst_nokey hv hm] at hkey
                      simp at hkey
                    · intro hh; rw [hh] at hf; simp at hf
                  · rename_i hf
                    refine ih.itemRest _ _ _ _ _ _ hnb hh hn ?_ h
                    intro k h' hk'
                    rw [hk] at hk'
                    simp only [Option.some.injEq, Prod.mk.injEq] at hk'
                    rw [← hk'.2]
                    simpa using hf
                · rename_i hk
                  refine ih.itemRest _ _ _ _ _ _ hnb hh hn ?_ h
                  intro k h' hk'
                  rw [hk] at hk'
                  simp at hk'
          · contradiction
    · -- itemRest
      intro after cur base evs cur' hdr hnb hh hn hfields h
      rw [decodeItemRest] at h
      split at h
      · rename_i hkv
        have hcol := (isKeyValueContent_iff _).mp hkv
        obtain ⟨⟨evs1, cur1⟩, h1, h⟩ := bind_ok.mp h
        obtain ⟨⟨evs2, cur2⟩, h2, h⟩ := bind_ok.mp h
        rw [pure_ok] at h
        simp only [Prod.mk.injEq] at h
        obtain ⟨rfl, rfl⟩ := h
        obtain ⟨⟨k, q, t, ht, rfl⟩, hc1⟩ := ih.kv _ _ _ _ _ h1
        obtain ⟨⟨es, hes, rfl⟩, hc2⟩ := ih.follow _ _ _ _ h2
        refine ⟨⟨.obj ((k, q, t) :: es), .object ?_ (Or.inl hcol) ht hes, by simp [ETree.events, ETree.eventsEntries]⟩, hc1.trans hc2⟩
        rintro ⟨hv, h', hm⟩
        refine hn ⟨(isArrayHeaderContent_iff _).mpr ⟨hv, hcol⟩, ?_⟩
        rw [(headerMeans_iff _ _).mpr hm] at hh
        simp only [Except.ok.injEq] at hh
        rw [← hh]; rfl
      · rename_i hkv
        have hcol : ¬ HasColon after := fun hc => hkv ((isKeyValueContent_iff _).mpr hc)
        obtain ⟨p, hp, h⟩ := bind_ok.mp h
        rw [pure_ok] at h
        simp only [Prod.mk.injEq] at h
        obtain ⟨rfl, rfl⟩ := h
        refine ⟨⟨.prim p, .prim hnb hcol ?_ ((parsePrimitiveToken_iff _ _).mp hp), by simp [ETree.events]⟩, .refl _⟩
        cases hdr with
        | none => exact Or.inl ((noHeader_iff _).mp hh)
        | some h' =>
          refine Or.inr ⟨h', (headerMeans_iff _ _).mp hh, ?_⟩
          cases hk : h'.key with
          | none => exact Or.inl rfl
          | some k => exact Or.inr (hfields k h' (by simp [keyedHeader, hk]))
    · -- follow
      intro cur D evs cur' h
      rw [followLoop] at h
      split at h
      · rename_i hr
        simp only [Except.ok.injEq, Prod.mk.injEq] at h
        obtain ⟨rfl, rfl⟩ := h
        exact ⟨⟨[], .stop (by rw [hr]; exact notNext_nil), rfl⟩, .refl _⟩
      · rename_i line rest hr
        split at h
        · rename_i hlt
          simp only [Except.ok.injEq, Prod.mk.injEq] at h
          obtain ⟨rfl, rfl⟩ := h
          exact ⟨⟨[], .stop (by rw [hr, nextIs_cons]; rintro ⟨h1, _⟩; omega), rfl⟩, .refl _⟩
        · split at h
          · rename_i hcond
            simp only [Bool.and_eq_true, beq_iff_eq, Bool.not_eq_true'] at hcond
            obtain ⟨⟨evs1, cur1⟩, h1, h⟩ := bind_ok.mp h
            obtain ⟨⟨evs2, cur2⟩, h2, h⟩ := bind_ok.mp h
            rw [pure_ok] at h
            simp only [Prod.mk.injEq] at h
            obtain ⟨rfl, rfl⟩ := h
            obtain ⟨⟨k, q, t, ht, rfl⟩, hc1⟩ := ih.kv _ _ _ _ _ h1
            obtain ⟨⟨es, hes, rfl⟩, hc2⟩ := ih.follow _ _ _ _ h2
            refine ⟨⟨(k, q, t) :: es, ?_, by simp [ETree.eventsEntries]⟩, (Adv.step hr).trans (hc1.trans hc2)⟩
            rw [hr]
            refine .entry hcond.1 (fun _ hh => ?_) ht hes
            rw [(hyphenSpace_iff _).mpr hh] at hcond
            simp at hcond
          · rename_i hcond
            simp only [Except.ok.injEq, Prod.mk.injEq] at h
            obtain ⟨rfl, rfl⟩ := h
            refine ⟨⟨[], .stop ?_, rfl⟩, .refl _⟩
            rw [hr, nextIs_cons]
            rintro ⟨h1, h2⟩
            refine hcond ?_
            have : startsWithDash line.content = false := by
              apply Bool.eq_false_iff.mpr
              intro hh
              exact h2 rfl ((hyphenSpace_iff _).mp hh)
            simp [h1, this]

end

end Toon
