import Verif.Lemmas.FaultSound

/-! The first fault of a document is the error of the decoder. -/

namespace Toon

/-- The error is as stated, unless the fuel runs out. -/
def Bad {α : Type} (r : Except Err α) (e : Err) : Prop := r = .error .fuel ∨ r = .error e

theorem Bad.here {α : Type} {r : Except Err α} {e : Err} (h : r = .error e) : Bad r e := Or.inr h

theorem Bad.bind {α β : Type} {x : Except Err α} {e : Err} (f : α → Except Err β) (h : Bad x e) : Bad (x >>= f) e := by
  rcases h with h | h
  · exact Or.inl (bind_error.mpr (Or.inl h))
  · exact Or.inr (bind_error.mpr (Or.inl h))

theorem bad_ok {α β : Type} {x : Except Err α} {e : Err} {a : α} (f : α → Except Err β) (h : x = .ok a) (hf : Bad (f a) e) :
    Bad (x >>= f) e := by
  subst h; exact hf

section
variable {F : Type} [F64 F]

theorem bad_done {β : Type} {x : Except Err (List (Ev F) × Cur)} {evs : List (Ev F)} {cur : Cur} {rest' : List Line} {e : Err}
    (f : List (Ev F) × Cur → Except Err β) (h : Done x evs cur rest')
    (hf : ∀ last, Bad (f (evs, ⟨rest', last⟩)) e) : Bad (x >>= f) e := by
  rcases h with h | ⟨body, _, h⟩
  · exact Or.inl (bind_error.mpr (Or.inl h))
  · exact bad_ok f h (hf _)

/-- The claims for one fuel value. -/
structure FaultComplete (F : Type) [F64 F] (ctx : Ctx) (fuel : Nat) : Prop where
  kv : ∀ content cur base e, EntryFails F ctx.strict ctx.blanks base content cur.rest e →
    Bad (decodeKV (F := F) ctx fuel content cur base) e
  fields : ∀ cur base comp D e,
    (comp = some D ∨ comp = none ∧ ∃ line rest, cur.rest = line :: rest ∧ line.depth = D) → base ≤ D →
    BlockFails F ctx.strict ctx.blanks false D cur.rest e → Bad (decodeFields (F := F) ctx fuel cur base comp) e
  array : ∀ h cur base e, GoodHeader h → ArrayFails F ctx.strict ctx.blanks base h cur.rest e →
    Bad (decodeArray (F := F) ctx fuel h cur base) e
  list : ∀ n D cur count m s t e, n = count + m → ItemsFail F ctx.strict ctx.blanks m D cur.rest e →
    Bad (listLoop (F := F) ctx fuel n D cur count s t) e
  item : ∀ cur base line rest e, cur.rest = line :: rest → ItemFails F ctx.strict ctx.blanks base line.content rest e →
    Bad (decodeItem (F := F) ctx fuel cur base) e
  itemRest : ∀ after cur base e,
    (HasColon after → EntryFails F ctx.strict ctx.blanks (base + 1) after cur.rest e ∨
      ∃ (entry : Str × Bool × ETree F) (rest₁ : List Line), EntryMeans ctx.strict ctx.blanks (base + 1) after cur.rest entry rest₁ ∧
        BlockFails F ctx.strict ctx.blanks true (base + 1) rest₁ e) →
    (¬ HasColon after → LiteralFault (trim after) e) →
    Bad (decodeItemRest (F := F) ctx fuel after cur base) e
  follow : ∀ cur D e, BlockFails F ctx.strict ctx.blanks true D cur.rest e → Bad (followLoop (F := F) ctx fuel cur D) e

theorem literalFault_visible {t : Str} {e : Err} (h : LiteralFault (trim t) e) : trim t ≠ [] := by
  intro h0
  rw [h0] at h
  cases h

theorem headerFault_visible {content : Str} {e : Err} (h : HeaderFault content e) : ¬ BlankLine content := by
  have hq : ∀ {pre seg after : Str} {cols : Option Str}, HeaderShape content pre seg cols after → ¬ BlankLine content := by
    intro pre seg after cols hs hb
    obtain ⟨rest, h1, _, _⟩ := hs
    rw [(findBracketStart_before h1).1] at hb
    exact absurd (hb '[' (by simp)) (by decide)
  cases h with
  | unclosed _ _ => intro hb; exact absurd (hb '"' (by simp)) (by decide)
  | key hs _ => exact hq hs
  | length hs _ _ _ => exact hq hs
  | columns hs _ _ _ _ _ => exact hq hs

theorem itemsFail_listItem {depth : Nat} {strict : Bool} {blanks : List Nat} {content : Str} {rest : List Line} {e : Err}
    (h : ItemFails F strict blanks depth content rest e) : isListItem content = true := by
  rw [isListItem_iff]
  cases h <;> exact Or.inr ⟨_, rfl⟩

/-- An entry that fails: the header is read, or the fault is in it. -/
theorem entryFails_header {depth : Nat} {strict : Bool} {blanks : List Nat} {content : Str} {rest : List Line} {e : Err}
    (h : EntryFails F strict blanks depth content rest e) :
    parseArrayHeaderLine content ',' = .error e ∨ ∃ hdr, parseArrayHeaderLine content ',' = .ok hdr := by
  cases h with
  | header h => exact Or.inl ((header_error _ _).mpr h)
  | array hm _ _ => exact Or.inr ⟨_, (headerMeans_iff _ _).mpr hm⟩
  | key hno _ => obtain ⟨hdr, h, _⟩ := (noKeyedHeader_iff _).mp hno; exact Or.inr ⟨hdr, h⟩
  | value hno _ _ => obtain ⟨hdr, h, _⟩ := (noKeyedHeader_iff _).mp hno; exact Or.inr ⟨hdr, h⟩
  | object hno _ _ _ _ => obtain ⟨hdr, h, _⟩ := (noKeyedHeader_iff _).mp hno; exact Or.inr ⟨hdr, h⟩

theorem entryFails_array {depth : Nat} {strict : Bool} {blanks : List Nat} {content k : Str} {rest : List Line} {e : Err} {h : Header}
    (hm : HeaderMeans content h) (hk : h.key = some k) (hf : EntryFails F strict blanks depth content rest e) :
    ArrayFails F strict blanks depth h rest e := by
  have hp := (headerMeans_iff _ _).mpr hm
  have no : ¬ NoKeyedHeader content := by
    intro hn
    obtain ⟨hdr, h1, h2⟩ := (noKeyedHeader_iff _).mp hn
    rw [hp] at h1
    simp only [Except.ok.injEq] at h1
    subst h1
    simp [keyedHeader, hk] at h2
  cases hf with
  | header h => rw [← header_error, hp] at h; simp at h
  | array hm' _ ha =>
    rw [(headerMeans_iff _ _).mpr hm'] at hp
    simp only [Except.ok.injEq, Option.some.injEq] at hp
    subst hp
    exact ha
  | key hno _ => exact absurd hno no
  | value hno _ _ => exact absurd hno no
  | object hno _ _ _ _ => exact absurd hno no

theorem entryMeans_array {depth : Nat} {strict : Bool} {blanks : List Nat} {content k : Str} {rest rest' : List Line} {h : Header}
    {entry : Str × Bool × ETree F}
    (hm : HeaderMeans content h) (hk : h.key = some k) (hf : EntryMeans strict blanks depth content rest entry rest') :
    ∃ t : ETree F, ArrayMeans strict blanks depth h rest t rest' := by
  have hp := (headerMeans_iff _ _).mpr hm
  have no : ¬ NoKeyedHeader content := by
    intro hn
    obtain ⟨hdr, h1, h2⟩ := (noKeyedHeader_iff _).mp hn
    rw [hp] at h1
    simp only [Except.ok.injEq] at h1
    subst h1
    simp [keyedHeader, hk] at h2
  cases hf with
  | array hm' _ ha =>
    rw [(headerMeans_iff _ _).mpr hm'] at hp
    simp only [Except.ok.injEq, Option.some.injEq] at hp
    subst hp
    exact ⟨_, ha⟩
  | prim hno _ _ _ => exact absurd hno no
  | empty hno _ _ _ => exact absurd hno no
  | object hno _ _ _ _ => exact absurd hno no

theorem faultComplete (ctx : Ctx) (fuel : Nat) : FaultComplete F ctx fuel := by
  induction fuel with
  | zero =>
    constructor
    · intros; exact Or.inl (by rw [decodeKV])
    · intros; exact Or.inl (by rw [decodeFields])
    · intros; exact Or.inl (by rw [decodeArray])
    · intros; exact Or.inl (by rw [listLoop])
    · intros; exact Or.inl (by rw [decodeItem])
    · intros; exact Or.inl (by rw [decodeItemRest])
    · intros; exact Or.inl (by rw [followLoop])
  | succ fuel ih =>
    constructor
    · -- kv
      intro content cur base e h
      rw [decodeKV]
      generalize hR : cur.rest = R at h
      cases h with
      | header hf => exact Bad.bind _ (.here ((header_error _ _).mpr hf))
      | @array _ _ k _ hd _ hm hk ha =>
        refine bad_ok _ ((headerMeans_iff _ _).mpr hm) ?_
        have hkh : keyedHeader (some hd) = some (k, hd) := by simp [keyedHeader, hk]
        simp only [hkh]
        rw [← hR] at ha
        exact Bad.bind _ (ih.array _ _ _ _ (headerMeans_good hm) ha)
      | key hno hf =>
        obtain ⟨hdr, h3, h4⟩ := (noKeyedHeader_iff _).mp hno
        refine bad_ok _ h3 ?_
        simp only [h4]
        exact Bad.bind _ (.here ((key_error (header_ok_closed h3) _).mpr hf))
      | value hno hkl hf =>
        obtain ⟨hdr, h3, h4⟩ := (noKeyedHeader_iff _).mp hno
        obtain ⟨pos, h5, h6⟩ := keyLine_parse hkl
        refine bad_ok _ h3 ?_
        simp only [h4]
        refine bad_ok _ h5 ?_
        simp only [h6]
        rw [if_neg (by simpa using literalFault_visible hf)]
        exact Bad.bind _ (.here ((primitive_error _ _).mpr (by rw [trim_trim]; exact hf)))
      | @object _ _ _ _ _ line rest _ hno hkl hb hlt hbl =>
        obtain ⟨hdr, h3, h4⟩ := (noKeyedHeader_iff _).mp hno
        obtain ⟨pos, h5, h6⟩ := keyLine_parse hkl
        refine bad_ok _ h3 ?_
        simp only [h4]
        refine bad_ok _ h5 ?_
        simp only [h6]
        rw [if_pos (by simpa using blank_trim.mp hb), if_pos hlt]
        rw [← hR] at hbl
        exact Bad.bind _ (ih.fields cur (base + 1) none line.depth e (Or.inr ⟨rfl, line, rest, hR, rfl⟩) hlt hbl)
    · -- fields
      intro cur base comp D e hcomp hbase h
      rw [decodeFields]
      generalize hR : cur.rest = R at h
      cases h with
      | @here _ _ line rest _ hd _ hf =>
        subst hd
        simp only
        rw [if_neg (by omega), if_pos (by rcases hcomp with rfl | ⟨rfl, _⟩ <;> simp)]
        exact Bad.bind _ (ih.kv _ ⟨rest, some line⟩ _ _ hf)
      | @later _ _ line rest rest₁ entry _ hd _ he hf =>
        subst hd
        simp only
        rw [if_neg (by omega), if_pos (by rcases hcomp with rfl | ⟨rfl, _⟩ <;> simp)]
        refine bad_done _ ((completeClaims ctx fuel).kv line.content ⟨rest, some line⟩ line.depth entry rest₁ he) fun last => ?_
        exact Bad.bind _ (ih.fields ⟨rest₁, last⟩ base (some line.depth) line.depth e (Or.inl rfl) hbase hf)
    · -- array
      intro h cur base e hg ha
      rw [decodeArray]
      have tab : ∀ {fields : List FieldName}, h.inline = none → h.fields = some fields → fields ≠ [] →
          Bad (decodeTabular (F := F) ctx h fields cur base) e →
          Bad (match h.inline with
            | some inline => do
              let evs ← decodeInline (F := F) h inline ctx.strict
              return (.startArr h.length :: evs ++ [.endArr], cur)
            | none =>
              if (h.fields.getD []).isEmpty then do
                let out ← listLoop ctx fuel h.length (base + 1) cur 0 none none
                assertCount out.count h.length .listItems ctx.strict
                checkBlanks ctx false out.start out.end
                noExtraItems out.cur.rest.head? (base + 1) h.length ctx.strict
                return (.startArr h.length :: out.evs ++ [.endArr], out.cur)
              else do
                let (evs, cur') ← decodeTabular (F := F) ctx h (h.fields.getD []) cur base
                return (.startArr h.length :: evs ++ [.endArr], cur')) e := by
        intro fields hi hf hne hb
        rw [hi]
        simp only [hf, Option.getD_some]
        rw [if_neg (by simpa using hne)]
        exact Bad.bind _ hb
      have lst : h.inline = none → (h.fields = none ∨ h.fields = some []) →
          Bad (do
                let out ← listLoop (F := F) ctx fuel h.length (base + 1) cur 0 none none
                assertCount out.count h.length .listItems ctx.strict
                checkBlanks ctx false out.start out.end
                noExtraItems out.cur.rest.head? (base + 1) h.length ctx.strict
                return ((.startArr h.length :: out.evs ++ [.endArr], out.cur) : List (Ev F) × Cur)) e →
          Bad (match h.inline with
            | some inline => do
              let evs ← decodeInline (F := F) h inline ctx.strict
              return (.startArr h.length :: evs ++ [.endArr], cur)
            | none =>
              if (h.fields.getD []).isEmpty then do
                let out ← listLoop ctx fuel h.length (base + 1) cur 0 none none
                assertCount out.count h.length .listItems ctx.strict
                checkBlanks ctx false out.start out.end
                noExtraItems out.cur.rest.head? (base + 1) h.length ctx.strict
                return (.startArr h.length :: out.evs ++ [.endArr], out.cur)
              else do
                let (evs, cur') ← decodeTabular (F := F) ctx h (h.fields.getD []) cur base
                return (.startArr h.length :: evs ++ [.endArr], cur')) e := by
        intro hi hf hb
        rw [hi]
        simp only
        rw [if_pos (by rcases hf with hf | hf <;> simp [hf])]
        exact hb
      have items : ∀ {ts : List (ETree F)} {rest' : List Line} (f : LoopOut F → Except Err (List (Ev F) × Cur)),
          ItemsMean ctx.strict ctx.blanks h.length (base + 1) cur.rest ts rest' →
          (∀ (body : List Line) out, cur.rest = body ++ rest' → out.count = ts.length → out.start = body.head?.map (·.num) →
            out.end = body.getLast?.map (·.num) → out.cur.rest = rest' → Bad (f out) e) →
          Bad (listLoop (F := F) ctx fuel h.length (base + 1) cur 0 none none >>= f) e := by
        intro ts rest' f hm hf
        rcases (completeClaims ctx fuel).list h.length (base + 1) cur 0 h.length none none ts rest' (by omega) hm with h1 | ⟨body, hb, h1⟩
        · exact Or.inl (bind_error.mpr (Or.inl h1))
        · exact bad_ok f h1 (hf body _ hb (by simp) (by simp) (by simp) rfl)
      generalize hR : cur.rest = R at ha
      cases ha with
      | @inlineToken _ _ _ text cells _ hi hc hf =>
        rw [hi]
        exact Bad.bind _ (.here ((decodeInline_error hg (hg.inline _ hi) _ _).mpr ⟨cells, hc, Or.inl hf⟩))
      | @inlineCount _ _ _ text cells prims hi hc hp hs hl =>
        rw [hi]
        exact Bad.bind _ (.here ((decodeInline_error hg (hg.inline _ hi) _ _).mpr ⟨cells, hc, Or.inr ⟨prims, hp, hs, hl, rfl⟩⟩))
      | @row _ _ body rest line fields ts _ hi hf hne hdep hrows hlt hl hfault =>
        refine tab hi hf hne (Bad.bind _ (.here ?_))
        rw [hR]
        exact tabularLoop_error_complete ctx fields (delim_ne_quote hg.delim) h.length (base + 1) body line rest ts e hrows hl hfault
          cur.last 0 none none hdep (by omega)
      | @rows _ _ body rest fields ts hi hf hne hdep hrows hlt hnext hs =>
        have hl := tabularLoop_complete ctx fields (delim_ne_quote hg.delim) h.length (base + 1) body rest ts hrows
          cur.last 0 none none hdep (by omega) (fun _ => hnext)
        simp only [Nat.zero_add, Option.or_none, Option.none_or] at hl
        refine tab hi hf hne (bad_ok _ (by rw [hR]; exact hl) ?_)
        exact Bad.bind _ (.here ((assertCount_error _ _ _ _ _).mpr ⟨hs, by simp only; omega, rfl⟩))
      | @rowsBlank _ b _ body rest fields ts hi hf hne hdep hrows hlt hs hb =>
        have hl := tabularLoop_complete ctx fields (delim_ne_quote hg.delim) h.length (base + 1) body rest ts hrows
          cur.last 0 none none hdep (by omega) (fun _ => by omega)
        simp only [Nat.zero_add, Option.or_none, Option.none_or] at hl
        refine tab hi hf hne (bad_ok _ (by rw [hR]; exact hl) ?_)
        refine bad_ok _ ((assertCount_iff _ _ _ _).1 (fun _ => hlt)) ?_
        exact Bad.bind _ (.here ((checkBlanks_error ctx true body _).mpr ⟨hs, b, hb, rfl⟩))
      | @rowsExtra _ _ body rest fields ts hi hf hne hdep hrows hlt hs hb hx =>
        have hl := tabularLoop_complete ctx fields (delim_ne_quote hg.delim) h.length (base + 1) body rest ts hrows
          cur.last 0 none none hdep (by omega) (fun _ => by omega)
        simp only [Nat.zero_add, Option.or_none, Option.none_or] at hl
        refine tab hi hf hne (bad_ok _ (by rw [hR]; exact hl) ?_)
        refine bad_ok _ ((assertCount_iff _ _ _ _).1 (fun _ => hlt)) ?_
        refine bad_ok _ ((checkBlanks_iff ctx true body ()).mpr (fun _ => hb)) ?_
        exact Bad.bind _ (.here ((noExtraRows_error hg.delim _ _ _ _ _).mpr ⟨hs, hx, rfl⟩))
      | item hi hf hitems =>
        rw [← hR] at hitems
        exact lst hi hf (Bad.bind _ (ih.list _ _ _ _ _ _ _ _ (by omega) hitems))
      | @items _ _ _ rest' ts hi hf hm hs hl =>
        rw [← hR] at hm
        refine lst hi hf (items _ hm fun body out h1 h2 h3 h4 h5 => ?_)
        simp only [h2]
        exact Bad.bind _ (.here ((assertCount_error _ _ _ _ _).mpr ⟨hs, hl, rfl⟩))
      | @itemsBlank _ b _ body rest ts hi hf hm hs hl hb =>
        rw [← hR] at hm
        refine lst hi hf (items _ hm fun body' out h1 h2 h3 h4 h5 => ?_)
        have : body' = body := by rw [hR] at h1; exact (List.append_cancel_right h1).symm
        subst this
        simp only [h2, h3, h4]
        refine bad_ok _ ((assertCount_iff _ _ _ _).1 (fun _ => hl)) ?_
        exact Bad.bind _ (.here ((checkBlanks_error ctx false body' _).mpr ⟨hs, b, hb, rfl⟩))
      | @itemsExtra _ _ body rest ts hi hf hm hs hl hb hx =>
        rw [← hR] at hm
        refine lst hi hf (items _ hm fun body' out h1 h2 h3 h4 h5 => ?_)
        have : body' = body := by rw [hR] at h1; exact (List.append_cancel_right h1).symm
        subst this
        simp only [h2, h3, h4, h5]
        refine bad_ok _ ((assertCount_iff _ _ _ _).1 (fun _ => hl)) ?_
        refine bad_ok _ ((checkBlanks_iff ctx false body' ()).mpr (fun _ => hb)) ?_
        exact Bad.bind _ (.here ((noExtraItems_error _ _ _ _ _).mpr ⟨hs, hx, rfl⟩))
    · -- list
      intro n D cur count m s t e hn h
      rw [listLoop]
      generalize hR : cur.rest = R at h
      cases h with
      | @here m _ line rest _ hd hf =>
        subst hd
        simp only
        rw [if_pos (by omega), if_neg (by omega), if_pos (by simp [itemsFail_listItem hf])]
        exact Bad.bind _ (ih.item cur line.depth line rest e hR hf)
      | @later m _ line rest rest₁ t' _ hd hi hf =>
        subst hd
        have hli : isListItem line.content = true := by
          rw [isListItem_iff]
          generalize line.content = c at hi
          cases hi with
          | hyphen => exact Or.inl rfl
          | _ => exact Or.inr ⟨_, rfl⟩
        simp only
        rw [if_pos (by omega), if_neg (by omega), if_pos (by simp [hli])]
        refine bad_done _ ((completeClaims ctx fuel).item cur line.depth line rest t' rest₁ hR hi) fun last => ?_
        exact Bad.bind _ (ih.list n line.depth ⟨rest₁, last⟩ (count + 1) m _ _ e (by omega) hf)
    · -- item
      intro cur base line rest e hR h
      rw [decodeItem, hR]
      simp only
      generalize hc : line.content = c at h
      have start : ∀ {after : Str}, ¬ BlankLine after → (∀ hdr, parseArrayHeaderLine after ',' = .ok hdr → Bad
          (match isArrayHeaderContent after, hdr with
            | true, some h => decodeArray (F := F) ctx fuel h ⟨rest, some line⟩ base
            | _, _ =>
              match keyedHeader hdr with
              | some (key, h) =>
                if h.fields.isSome then do
                  let (evs, cur2) ← decodeArray ctx fuel h ⟨rest, some line⟩ (base + 1)
                  let (evs', cur3) ← followLoop ctx fuel cur2 (base + 1)
                  return (.startObj :: .key key h.keyQuoted :: evs ++ evs' ++ [.endObj], cur3)
                else decodeItemRest ctx fuel after ⟨rest, some line⟩ base
              | none => decodeItemRest ctx fuel after ⟨rest, some line⟩ base) e) →
          (parseArrayHeaderLine after ',' = .error e ∨ ∃ hdr, parseArrayHeaderLine after ',' = .ok hdr) →
          Bad (if '-' :: ' ' :: after = ['-'] then (.ok ([.startObj, .endObj], (⟨rest, some line⟩ : Cur)) : Except Err (List (Ev F) × Cur))
            else if startsWithDash ('-' :: ' ' :: after) then
              if (trim (List.drop 2 ('-' :: ' ' :: after))).isEmpty then .ok ([.startObj, .endObj], ⟨rest, some line⟩)
              else do
                let hdr ← parseArrayHeaderLine (List.drop 2 ('-' :: ' ' :: after)) ','
                match isArrayHeaderContent (List.drop 2 ('-' :: ' ' :: after)), hdr with
                | true, some h => decodeArray ctx fuel h ⟨rest, some line⟩ base
                | _, _ =>
                  match keyedHeader hdr with
                  | some (key, h) =>
                    if h.fields.isSome then
                      let (evs, cur2) ← decodeArray ctx fuel h ⟨rest, some line⟩ (base + 1)
                      let (evs', cur3) ← followLoop ctx fuel cur2 (base + 1)
                      return (.startObj :: .key key h.keyQuoted :: evs ++ evs' ++ [.endObj], cur3)
                    else decodeItemRest ctx fuel (List.drop 2 ('-' :: ' ' :: after)) ⟨rest, some line⟩ base
                  | none => decodeItemRest ctx fuel (List.drop 2 ('-' :: ' ' :: after)) ⟨rest, some line⟩ base
            else .error .expectedHyphen) e := by
        intro after hnb hok hor
        rw [if_neg (by simp), if_pos ((hyphenSpace_iff _).mpr ⟨_, rfl⟩)]
        simp only [List.drop_succ_cons, List.drop_zero]
        rw [if_neg (by simpa using fun hh => hnb (blank_trim.mpr hh))]
        rcases hor with hor | ⟨hdr, hor⟩
        · exact Bad.bind _ (.here hor)
        · exact bad_ok _ hor (hok hdr hor)
      -- an object that begins on the line of the hyphen
      have object : ∀ {after : Str}, ¬ (VisibleFirst '[' after ∧ ∃ h, HeaderMeans after h) →
          (HasColon after ∨ ∃ h, HeaderMeans after h ∧ h.key ≠ none ∧ h.fields ≠ none) →
          (EntryFails F ctx.strict ctx.blanks (base + 1) after rest e ∨
            ∃ (entry : Str × Bool × ETree F) (rest₁ : List Line), EntryMeans ctx.strict ctx.blanks (base + 1) after rest entry rest₁ ∧
              BlockFails F ctx.strict ctx.blanks true (base + 1) rest₁ e) →
          ∀ hdr, parseArrayHeaderLine after ',' = .ok hdr → Bad
          (match isArrayHeaderContent after, hdr with
            | true, some h => decodeArray (F := F) ctx fuel h ⟨rest, some line⟩ base
            | _, _ =>
              match keyedHeader hdr with
              | some (key, h) =>
                if h.fields.isSome then do
                  let (evs, cur2) ← decodeArray ctx fuel h ⟨rest, some line⟩ (base + 1)
                  let (evs', cur3) ← followLoop ctx fuel cur2 (base + 1)
                  return (.startObj :: .key key h.keyQuoted :: evs ++ evs' ++ [.endObj], cur3)
                else decodeItemRest ctx fuel after ⟨rest, some line⟩ base
              | none => decodeItemRest ctx fuel after ⟨rest, some line⟩ base) e := by
        intro after hn hcond hor hdr hh
        have hnot : ¬ (isArrayHeaderContent after = true ∧ hdr.isSome = true) := by
          rintro ⟨h1, h2⟩
          obtain ⟨x, rfl⟩ := Option.isSome_iff_exists.mp h2
          exact hn ⟨((isArrayHeaderContent_iff _).mp h1).1, x, (headerMeans_iff _ _).mp hh⟩
        have hrest : HasColon after → Bad (decodeItemRest (F := F) ctx fuel after ⟨rest, some line⟩ base) e := fun hcol =>
          ih.itemRest after ⟨rest, some line⟩ base e (fun _ => hor) (fun h => absurd hcol h)
        split
        · rename_i h1; exact absurd ⟨h1, by simp⟩ hnot
        · rename_i hdr _ _ _
          cases hk : keyedHeader hdr with
          | none =>
            simp only
            refine hrest ?_
            rcases hcond with h | ⟨h, hm, hkey, _⟩
            · exact h
            · rw [(headerMeans_iff _ _).mpr hm] at hh
              simp only [Except.ok.injEq] at hh
              subst hh
              cases hkk : h.key with
              | none => exact absurd hkk hkey
              | some k => simp [keyedHeader, hkk] at hk
          | some kh =>
            obtain ⟨k, hd⟩ := kh
            obtain ⟨rfl, hkey⟩ := keyedHeader_key hk
            have hm := (headerMeans_iff _ _).mp hh
            simp only
            split
            · rename_i hf
              rcases hor with hor | ⟨entry, rest₁, he, hb⟩
              · exact Bad.bind _ (ih.array _ ⟨rest, some line⟩ _ _ (headerMeans_good hm) (entryFails_array hm hkey hor))
              · obtain ⟨t, ht⟩ := entryMeans_array hm hkey he
                refine bad_done _ ((completeClaims ctx fuel).array hd ⟨rest, some line⟩ (base + 1) t rest₁ (headerMeans_good hm) ht) fun last => ?_
                exact Bad.bind _ (ih.follow ⟨rest₁, last⟩ _ _ hb)
            · rename_i hf
              refine hrest ?_
              rcases hcond with h | ⟨h, hm', _, hff⟩
              · exact h
              · have := (headerMeans_iff _ _).mpr hm'
                rw [hh] at this
                simp only [Except.ok.injEq, Option.some.injEq] at this
                subst this
                cases hx : hd.fields with
                | none => exact absurd hx hff
                | some fs => rw [hx] at hf; simp at hf
      have visible : ∀ {after : Str}, (HasColon after ∨ ∃ h, HeaderMeans after h ∧ h.key ≠ none ∧ h.fields ≠ none) → ¬ BlankLine after := by
        rintro after (h | ⟨h, hm, _⟩)
        · exact hasColon_visible h
        · exact headerMeans_visible hm
      cases h with
      | @header _ after _ _ hf =>
        have hp := (header_error _ _).mpr hf
        exact start (headerFault_visible hf) (fun hdr hh => by rw [hp] at hh; simp at hh) (Or.inl hp)
      | @array _ after _ hd _ hv hcol hm ha =>
        have hp := (headerMeans_iff _ _).mpr hm
        refine start (hasColon_visible hcol) (fun hdr hh => ?_) (Or.inr ⟨_, hp⟩)
        rw [hp] at hh
        simp only [Except.ok.injEq] at hh
        subst hh
        rw [(isArrayHeaderContent_iff _).mpr ⟨hv, hcol⟩]
        exact ih.array hd ⟨rest, some line⟩ base e (headerMeans_good hm) ha
      | @entry _ after _ _ hn hcond hf =>
        exact start (visible hcond) (object hn hcond (Or.inl hf)) (entryFails_header hf)
      | @block _ after _ rest₁ entry _ hn hcond he hb =>
        exact start (visible hcond) (object hn hcond (Or.inr ⟨_, _, he, hb⟩)) (Or.inr (entry_notBoth he))
      | @token _ after _ _ hcol hhd hf =>
        have hnb : ¬ BlankLine after := fun hh => literalFault_visible hf (blank_trim.mp hh)
        have hrest : Bad (decodeItemRest (F := F) ctx fuel after ⟨rest, some line⟩ base) e :=
          ih.itemRest after ⟨rest, some line⟩ base e (fun h => absurd h hcol) (fun _ => hf)
        have hia : isArrayHeaderContent after = false := by
          apply Bool.eq_false_iff.mpr
          intro hh
          exact hcol ((isArrayHeaderContent_iff _).mp hh).2
        refine start hnb (fun hdr hh => ?_) (Or.inr ?_)
        · rw [hia]
          rcases hhd with hno | ⟨h, hm, hkf⟩
          · rw [(noHeader_iff _).mpr hno] at hh
            simp only [Except.ok.injEq] at hh
            subst hh
            exact hrest
          · rw [(headerMeans_iff _ _).mpr hm] at hh
            simp only [Except.ok.injEq] at hh
            subst hh
            simp only
            cases hk : keyedHeader (some h) with
            | none => exact hrest
            | some kh =>
              obtain ⟨k, hd⟩ := kh
              obtain ⟨h1, hkey⟩ := keyedHeader_key hk
              simp only [Option.some.injEq] at h1
              subst h1
              simp only
              rw [if_neg]
              · exact hrest
              · rcases hkf with h1 | h1
                · rw [hkey] at h1; simp at h1
                · rw [h1]; simp
        · rcases hhd with hno | ⟨h, hm, _⟩
          · exact ⟨_, (noHeader_iff _).mpr hno⟩
          · exact ⟨_, (headerMeans_iff _ _).mpr hm⟩
    · -- itemRest
      intro after cur base e hyes hno
      rw [decodeItemRest]
      by_cases hcol : HasColon after
      · rw [if_pos ((isKeyValueContent_iff _).mpr hcol)]
        rcases hyes hcol with hf | ⟨entry, rest₁, he, hb⟩
        · exact Bad.bind _ (ih.kv _ _ _ _ hf)
        · refine bad_done _ ((completeClaims ctx fuel).kv after cur (base + 1) entry rest₁ he) fun last => ?_
          exact Bad.bind _ (ih.follow ⟨rest₁, last⟩ _ _ hb)
      · rw [if_neg (fun hh => hcol ((isKeyValueContent_iff _).mp hh))]
        exact Bad.bind _ (.here ((primitive_error _ _).mpr (hno hcol)))
    · -- follow
      intro cur D e h
      rw [followLoop]
      generalize hR : cur.rest = R at h
      have nd : ∀ {content : Str}, (true = true → ¬ HyphenSpace content) → startsWithDash content = false := by
        intro content hdash
        apply Bool.eq_false_iff.mpr
        intro hh
        exact hdash rfl ((hyphenSpace_iff _).mp hh)
      cases h with
      | @here _ _ line rest _ hd hdash hf =>
        subst hd
        simp only
        rw [if_neg (by omega), if_pos (by simp [nd hdash])]
        exact Bad.bind _ (ih.kv _ ⟨rest, some line⟩ _ _ hf)
      | @later _ _ line rest rest₁ entry _ hd hdash he hf =>
        subst hd
        simp only
        rw [if_neg (by omega), if_pos (by simp [nd hdash])]
        refine bad_done _ ((completeClaims ctx fuel).kv line.content ⟨rest, some line⟩ line.depth entry rest₁ he) fun last => ?_
        exact Bad.bind _ (ih.follow ⟨rest₁, last⟩ _ _ hf)

end

end Toon
