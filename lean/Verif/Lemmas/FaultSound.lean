import Verif.Lemmas.FaultArrays

/-! Every error of the decoder describes the first fault of the document. -/

namespace Toon

section
variable {F : Type} [F64 F]

theorem list_fields {h : Header} (hf : (h.fields.getD []).isEmpty = true) : h.fields = none ∨ h.fields = some [] := by
  cases hff : h.fields with
  | none => exact Or.inl rfl
  | some fs => rw [hff] at hf; simp at hf; subst hf; exact Or.inr rfl

theorem table_fields {h : Header} (hf : ¬ (h.fields.getD []).isEmpty = true) : ∃ fields, h.fields = some fields ∧ fields ≠ [] := by
  cases hff : h.fields with
  | none => rw [hff] at hf; simp at hf
  | some fs => rw [hff] at hf; exact ⟨fs, rfl, by simpa using hf⟩

/-- The claims for one fuel value. -/
structure FaultSound (F : Type) [F64 F] (ctx : Ctx) (fuel : Nat) : Prop where
  kv : ∀ content cur base e, e ≠ .fuel → decodeKV (F := F) ctx fuel content cur base = .error e →
    EntryFails F ctx.strict ctx.blanks base content cur.rest e
  fields : ∀ cur base comp D e, e ≠ .fuel →
    (comp = some D ∨ comp = none ∧ ∃ line rest, cur.rest = line :: rest ∧ line.depth = D) → base ≤ D →
    decodeFields (F := F) ctx fuel cur base comp = .error e → BlockFails F ctx.strict ctx.blanks false D cur.rest e
  array : ∀ h cur base e, e ≠ .fuel → GoodHeader h → decodeArray (F := F) ctx fuel h cur base = .error e →
    ArrayFails F ctx.strict ctx.blanks base h cur.rest e
  list : ∀ n D cur count s t e, e ≠ .fuel → count ≤ n → listLoop (F := F) ctx fuel n D cur count s t = .error e →
    ItemsFail F ctx.strict ctx.blanks (n - count) D cur.rest e
  item : ∀ cur base line rest e, e ≠ .fuel → cur.rest = line :: rest → isListItem line.content = true →
    decodeItem (F := F) ctx fuel cur base = .error e → ItemFails F ctx.strict ctx.blanks base line.content rest e
  itemRest : ∀ after cur base hdr e, e ≠ .fuel → ¬ BlankLine after →
    parseArrayHeaderLine after ',' = .ok hdr → ¬ (isArrayHeaderContent after = true ∧ hdr.isSome = true) →
    (∀ k h, keyedHeader hdr = some (k, h) → h.fields = none) →
    decodeItemRest (F := F) ctx fuel after cur base = .error e →
    ItemFails F ctx.strict ctx.blanks base ('-' :: ' ' :: after) cur.rest e
  follow : ∀ cur D e, e ≠ .fuel → followLoop (F := F) ctx fuel cur D = .error e →
    BlockFails F ctx.strict ctx.blanks true D cur.rest e

theorem faultSound (ctx : Ctx) (fuel : Nat) : FaultSound F ctx fuel := by
  induction fuel with
  | zero =>
    constructor
    · intro _ _ _ e hn h; rw [decodeKV] at h; simp at h; exact absurd h.symm hn
    · intro _ _ _ _ e hn _ _ h; rw [decodeFields] at h; simp at h; exact absurd h.symm hn
    · intro _ _ _ e hn _ h; rw [decodeArray] at h; simp at h; exact absurd h.symm hn
    · intro _ _ _ _ _ _ e hn _ h; rw [listLoop] at h; simp at h; exact absurd h.symm hn
    · intro _ _ _ _ e hn _ _ h; rw [decodeItem] at h; simp at h; exact absurd h.symm hn
    · intro _ _ _ _ e hn _ _ _ _ h; rw [decodeItemRest] at h; simp at h; exact absurd h.symm hn
    · intro _ _ e hn h; rw [followLoop] at h; simp at h; exact absurd h.symm hn
  | succ fuel ih =>
    constructor
    · -- kv
      intro content cur base e hne h
      rw [decodeKV] at h
      rcases bind_error.mp h with h | ⟨hdr, hh, h⟩
      · exact .header ((header_error _ _).mp h)
      · split at h
        · rename_i key hd hk
          obtain ⟨rfl, hkey⟩ := keyedHeader_key hk
          have hm := (headerMeans_iff _ _).mp hh
          rcases bind_error.mp h with h | ⟨r, _, h⟩
          · exact .array hm hkey (ih.array _ _ _ _ hne (headerMeans_good hm) h)
          · simp [pure, Except.pure] at h
        · rename_i hk
          have hno : NoKeyedHeader content := (noKeyedHeader_iff _).mpr ⟨hdr, hh, hk⟩
          rcases bind_error.mp h with h | ⟨⟨key, pos, quoted⟩, hkt, h⟩
          · exact .key hno ((key_error (header_ok_closed hh) _).mp h)
          · have hkl := keyLine_iff _ _ _ _ hkt
            simp only at h
            split at h
            · rename_i hemp
              have hbl : BlankLine (content.drop pos) := blank_trim.mpr (by simpa using hemp)
              split at h
              · rename_i next more hr
                split at h
                · rename_i hlt
                  rcases bind_error.mp h with h | ⟨r, _, h⟩
                  · have := ih.fields _ _ _ next.depth _ hne (Or.inr ⟨rfl, next, more, hr, rfl⟩) hlt h
                    rw [hr] at this ⊢
                    exact .object hno hkl hbl hlt this
                  · simp [pure, Except.pure] at h
                · simp [pure, Except.pure] at h
              · simp [pure, Except.pure] at h
            · rcases bind_error.mp h with h | ⟨r, _, h⟩
              · rw [primitive_error, trim_trim] at h
                exact .value hno hkl h
              · simp [pure, Except.pure] at h
    · -- fields
      intro cur base comp D e hne hcomp hbase h
      rw [decodeFields] at h
      split at h
      · simp at h
      · rename_i line rest hr
        split at h
        · simp at h
        · split at h
          · rename_i hdep
            have hD : line.depth = D := by
              rcases hcomp with rfl | ⟨rfl, l, r, h1, h2⟩
              · simpa using hdep.symm
              · rw [hr] at h1; simp only [List.cons.injEq] at h1; rw [h1.1]; exact h2
            rw [hr]
            rw [hD] at h
            rcases bind_error.mp h with h | ⟨⟨evs1, cur1⟩, h1, h⟩
            · exact .here hD (by simp) (ih.kv _ _ _ _ hne h)
            · obtain ⟨⟨k, q, t, ht, _⟩, _⟩ := (soundClaims ctx fuel).kv _ _ _ _ _ h1
              rcases bind_error.mp h with h | ⟨r, _, h⟩
              · exact .later hD (by simp) ht (ih.fields _ _ _ D _ hne (Or.inl rfl) hbase h)
              · simp [pure, Except.pure] at h
          · simp at h
    · -- array
      intro h cur base e hne hg hd
      rw [decodeArray] at hd
      split at hd
      · rename_i text hi
        rcases bind_error.mp hd with hd | ⟨r, _, hd⟩
        · obtain ⟨cells, hc, hd⟩ := (decodeInline_error hg (hg.inline _ hi) _ _).mp hd
          rcases hd with hd | ⟨prims, h1, h2, h3, rfl⟩
          · exact .inlineToken hi hc hd
          · exact .inlineCount hi hc h1 h2 h3
        · simp [pure, Except.pure] at hd
      · rename_i hi
        split at hd
        · rename_i hf
          have hf := list_fields hf
          rcases bind_error.mp hd with hd | ⟨out, h1, hd⟩
          · exact .item hi hf (ih.list _ _ _ _ _ _ _ hne (Nat.zero_le _) hd)
          · obtain ⟨ts, body, e1, e2, e3⟩ := (soundClaims ctx fuel).list _ _ _ _ _ _ _ (Nat.zero_le _) h1
            rw [Nat.sub_zero] at e1
            have x2 : out.count = ts.length := by rw [e3]; simp
            have x3 : out.start = body.head?.map (·.num) := by rw [e3]; simp
            have x4 : out.end = body.getLast?.map (·.num) := by rw [e3]; simp
            rw [x2, x3, x4] at hd
            rcases bind_error.mp hd with hd | ⟨u1, h2, hd⟩
            · obtain ⟨h3, h4, rfl⟩ := (assertCount_error _ _ _ _ _).mp hd
              exact .items hi hf e1 h3 h4
            · rcases bind_error.mp hd with hd | ⟨u2, h3, hd⟩
              · obtain ⟨h4, b, h5, rfl⟩ := (checkBlanks_error _ _ _ _).mp hd
                rw [e2] at e1 ⊢
                exact .itemsBlank hi hf e1 h4 (assertCount_ok h2 h4) h5
              · rw [checkBlanks_iff] at h3
                rcases bind_error.mp hd with hd | ⟨u3, _, hd⟩
                · obtain ⟨h4, h5, rfl⟩ := (noExtraItems_error _ _ _ _ _).mp hd
                  rw [e2] at e1 ⊢
                  exact .itemsExtra hi hf e1 h4 (assertCount_ok h2 h4) (h3 h4) h5
                · simp [pure, Except.pure] at hd
        · rename_i hf
          obtain ⟨fields, hff, hnil⟩ := table_fields hf
          rcases bind_error.mp hd with hd | ⟨r, _, hd⟩
          · rw [hff] at hd
            simp only [Option.getD_some] at hd
            unfold decodeTabular at hd
            rcases bind_error.mp hd with hd | ⟨out, g1, hd⟩
            · obtain ⟨body, line, rest', ts, e1, e2, e3, e4, e5, e6⟩ :=
                tabularLoop_error_sound ctx fields (delim_ne_quote hg.delim) _ _ _ _ _ _ _ _ hd
              rw [e1]
              exact .row hi hff hnil e2 e3 (by simpa using e4) e5 e6
            · obtain ⟨body, rest', ts, e1, e2, e3, e4, e5, rfl⟩ :=
                tabularLoop_sound ctx fields (delim_ne_quote hg.delim) _ _ _ _ _ _ _ _ (Nat.zero_le _) g1
              simp only [Nat.zero_add, Option.or_none, Option.none_or] at e4 e5 hd
              rw [e1]
              rcases bind_error.mp hd with hd | ⟨u1, h2, hd⟩
              · obtain ⟨h3, h4, rfl⟩ := (assertCount_error _ _ _ _ _).mp hd
                exact .rows hi hff hnil e2 e3 (by omega) (e5 (by omega)) h3
              · rcases bind_error.mp hd with hd | ⟨u2, h3, hd⟩
                · obtain ⟨h4, b, h5, rfl⟩ := (checkBlanks_error _ _ _ _).mp hd
                  exact .rowsBlank hi hff hnil e2 e3 (assertCount_ok h2 h4) h4 h5
                · rw [checkBlanks_iff] at h3
                  rcases bind_error.mp hd with hd | ⟨u3, _, hd⟩
                  · obtain ⟨h4, h5, rfl⟩ := (noExtraRows_error hg.delim _ _ _ _ _).mp hd
                    exact .rowsExtra hi hff hnil e2 e3 (assertCount_ok h2 h4) h4 (h3 h4) h5
                  · simp [pure, Except.pure] at hd
          · simp [pure, Except.pure] at hd
    · -- list
      intro n D cur count s t e hne hcn h
      rw [listLoop] at h
      split at h
      · simp at h
      · rename_i line rest hr
        split at h
        · rename_i hlt
          split at h
          · simp at h
          · split at h
            · rename_i hitem
              simp only [Bool.and_eq_true, beq_iff_eq] at hitem
              simp only at h
              have hnc : n - count = (n - (count + 1)) + 1 := by omega
              rw [hr, hnc]
              rcases bind_error.mp h with h | ⟨⟨evs1, cur1⟩, h1, h⟩
              · exact .here hitem.1 (ih.item _ _ _ _ _ hne hr hitem.2 h)
              · obtain ⟨line', rest', hr', ⟨t, ht, _⟩, _⟩ := (soundClaims ctx fuel).item _ _ _ _ h1
                rw [hr] at hr'
                simp only [List.cons.injEq] at hr'
                obtain ⟨rfl, rfl⟩ := hr'
                rcases bind_error.mp h with h | ⟨r, _, h⟩
                · exact .later hitem.1 ht (ih.list _ _ _ _ _ _ _ hne (by omega) h)
                · simp [pure, Except.pure] at h
            · simp at h
        · simp at h
    · -- item
      intro cur base line rest e hne hr hitem h
      rw [decodeItem, hr] at h
      simp only at h
      split at h
      · simp at h
      · rename_i hnd
        split at h
        · rename_i hdash
          obtain ⟨after, ha⟩ := (hyphenSpace_iff _).mp hdash
          have hdrop : line.content.drop 2 = after := by rw [ha]; rfl
          rw [hdrop] at h
          rw [ha]
          split at h
          · simp at h
          · rename_i hb
            have hnb : ¬ BlankLine after := fun hh => hb (by simpa using blank_trim.mp hh)
            rcases bind_error.mp h with h | ⟨hdr, hh, h⟩
            · exact .header ((header_error _ _).mp h)
            · split at h
              · rename_i hd hisHdr
                have hm := (headerMeans_iff _ _).mp hh
                obtain ⟨hv, hcol⟩ := (isArrayHeaderContent_iff _).mp hisHdr
                exact .array hv hcol hm (ih.array _ _ _ _ hne (headerMeans_good hm) h)
              · rename_i hdr _ _ hnot
                have hn : ¬ (isArrayHeaderContent after = true ∧ hdr.isSome = true) := by
                  rintro ⟨h1, h2⟩
                  obtain ⟨x, hx⟩ := Option.isSome_iff_exists.mp h2
                  exact hnot x h1 hx
                split at h
                · rename_i key hd hk
                  obtain ⟨rfl, hkey⟩ := keyedHeader_key hk
                  have hm := (headerMeans_iff _ _).mp hh
                  split at h
                  · rename_i hf
                    have c1 : ¬ (VisibleFirst '[' after ∧ ∃ h, HeaderMeans after h) := by
                      rintro ⟨hv, _⟩
                      rw [visibleFirst_nokey hv hm] at hkey
                      simp at hkey
                    have c2 : HasColon after ∨ ∃ h, HeaderMeans after h ∧ h.key ≠ none ∧ h.fields ≠ none :=
                      Or.inr ⟨hd, hm, by rw [hkey]; simp, by intro hh; rw [hh] at hf; simp at hf⟩
                    rcases bind_error.mp h with h | ⟨⟨evs1, cur1⟩, h1, h⟩
                    · exact .entry c1 c2 (.array hm hkey (ih.array _ _ _ _ hne (headerMeans_good hm) h))
                    · obtain ⟨⟨t, ht, _⟩, _⟩ := (soundClaims ctx fuel).array _ _ _ _ _ (headerMeans_good hm) h1
                      rcases bind_error.mp h with h | ⟨r, _, h⟩
                      · exact .block c1 c2 (.array hm hkey ht) (ih.follow _ _ _ hne h)
                      · simp [pure, Except.pure] at h
                  · rename_i hf
                    refine ih.itemRest _ _ _ _ _ hne hnb hh hn ?_ h
                    intro k h' hk'
                    rw [hk] at hk'
                    simp only [Option.some.injEq, Prod.mk.injEq] at hk'
                    rw [← hk'.2]
                    simpa using hf
                · rename_i hk
                  refine ih.itemRest _ _ _ _ _ hne hnb hh hn ?_ h
                  intro k h' hk'
                  rw [hk] at hk'
                  simp at hk'
        · rename_i hdash
          exfalso
          rcases (isListItem_iff _).mp hitem with h | h
          · exact hnd h
          · exact hdash ((hyphenSpace_iff _).mpr h)
    · -- itemRest
      intro after cur base hdr e hne hnb hh hn hfields h
      rw [decodeItemRest] at h
      split at h
      · rename_i hkv
        have hcol := (isKeyValueContent_iff _).mp hkv
        have c1 : ¬ (VisibleFirst '[' after ∧ ∃ h, HeaderMeans after h) := by
          rintro ⟨hv, h', hm⟩
          refine hn ⟨(isArrayHeaderContent_iff _).mpr ⟨hv, hcol⟩, ?_⟩
          rw [(headerMeans_iff _ _).mpr hm] at hh
          simp only [Except.ok.injEq] at hh
          rw [← hh]; rfl
        rcases bind_error.mp h with h | ⟨⟨evs1, cur1⟩, h1, h⟩
        · exact .entry c1 (Or.inl hcol) (ih.kv _ _ _ _ hne h)
        · obtain ⟨⟨k, q, t, ht, _⟩, _⟩ := (soundClaims ctx fuel).kv _ _ _ _ _ h1
          rcases bind_error.mp h with h | ⟨r, _, h⟩
          · exact .block c1 (Or.inl hcol) ht (ih.follow _ _ _ hne h)
          · simp [pure, Except.pure] at h
      · rename_i hkv
        have hcol : ¬ HasColon after := fun hc => hkv ((isKeyValueContent_iff _).mpr hc)
        rcases bind_error.mp h with h | ⟨r, _, h⟩
        · refine .token hcol ?_ ((primitive_error _ _).mp h)
          cases hdr with
          | none => exact Or.inl ((noHeader_iff _).mp hh)
          | some h' =>
            refine Or.inr ⟨h', (headerMeans_iff _ _).mp hh, ?_⟩
            cases hk : h'.key with
            | none => exact Or.inl rfl
            | some k => exact Or.inr (hfields k h' (by simp [keyedHeader, hk]))
        · simp [pure, Except.pure] at h
    · -- follow
      intro cur D e hne h
      rw [followLoop] at h
      split at h
      · simp at h
      · rename_i line rest hr
        split at h
        · simp at h
        · split at h
          · rename_i hcond
            simp only [Bool.and_eq_true, beq_iff_eq, Bool.not_eq_true'] at hcond
            have hnd : true = true → ¬ HyphenSpace line.content := by
              intro _ hh
              rw [(hyphenSpace_iff _).mpr hh] at hcond
              simp at hcond
            rw [hr]
            rcases bind_error.mp h with h | ⟨⟨evs1, cur1⟩, h1, h⟩
            · exact .here hcond.1 hnd (ih.kv _ _ _ _ hne h)
            · obtain ⟨⟨k, q, t, ht, _⟩, _⟩ := (soundClaims ctx fuel).kv _ _ _ _ _ h1
              rcases bind_error.mp h with h | ⟨r, _, h⟩
              · exact .later hcond.1 hnd ht (ih.follow _ _ _ hne h)
              · simp [pure, Except.pure] at h
          · simp at h

end

end Toon
