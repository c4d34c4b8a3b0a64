import Verif.Lemmas.Misread
import Verif.Lemmas.Mark
import Verif.Lemmas.Reindent
import Verif.Props.Survive
import Verif.Lemmas.Float64
import Verif.Lemmas.EventsInj
import Verif.Lemmas.Dec

/-!
# C91: what a hostile string can do

`ReadsBack` (`Spec/Misread.lean`) says what every value becomes when it is written and read.  Strings that look like
array headers are the only primitives that are misread; what they do is confined to their own entry, and they can make the text
unreadable.
-/

namespace Toon

section
variable {F : Type} [F64 F] [LawfulF64 F]

/-- C91.  The outcome of writing and reading, for every value, exactly: the text is read as `w` if and only if `v` (with NaN
and infinities as null and negative zero as zero) becomes `w` by the rules of `ReadsBack`. -/
theorem C91_outcome (opts : EncOpts) (strict : Bool) (v : Json F) (hi : 0 < opts.indent) (hd : GoodDelim opts.delim)
    (hf : opts.fold = false) (hs : Sized v) (w : Json F) :
    decode { indent := opts.indent, strict := strict, expand := false } (encode opts v) = .ok w ↔
      ReadsBack strict true (normalize v) w := by
  obtain ⟨lines, h1, h2⟩ := parseLines_render hi strict (encodeValue opts (normalize v))
    (fun l hl => (linesIn_value hd _ l hl).1) 0
  have hy := decodeLines_yields (ctx := ⟨strict, []⟩) rfl hd hf ((sized_normalize v).mpr hs) (normal_normalize v) h2
  have hst : decodeStream (F := F) opts.indent strict (encodeLines opts v) = decodeLines (F := F) ⟨strict, []⟩ lines := by
    unfold decodeStream encodeLines encodeJsonValue
    simp only [h1, bind, Except.bind]
  rw [decode_encode_lines hd]
  constructor
  · intro h
    obtain ⟨t, ht, _, rfl⟩ := decodeFromLines_tree rfl h
    simp only at ht
    rw [hst] at ht
    obtain ⟨t', h3, h4⟩ := hy.only _ ht
    rwa [events_inj h3]
  · intro h
    obtain ⟨t, h3, rfl⟩ := hy.all w h
    rw [← hst] at h3
    rw [decodeFromLines_ok (opts := ⟨opts.indent, strict, false⟩) rfl h3]

omit [F64 F] [LawfulF64 F] in
private theorem dropWhile_visible {c : Char} (hc : isWs c = false) (y : Str) : ∀ x : Str,
    (x ++ c :: y).dropWhile isWs = x.dropWhile isWs ++ c :: y
  | [] => by simp [hc]
  | b :: x => by
    cases hb : isWs b with
    | true => simp only [List.cons_append, List.dropWhile_cons, hb, if_true]; exact dropWhile_visible hc y x
    | false => simp only [List.cons_append, List.dropWhile_cons, hb, Bool.false_eq_true, if_false]

omit [F64 F] [LawfulF64 F] in
private theorem trimEnd_visible {c : Char} (hc : isWs c = false) (a b : Str) : trimEnd (a ++ c :: b) = a ++ c :: trimEnd b := by
  unfold trimEnd
  rw [List.reverse_append, List.reverse_cons, List.append_assoc, List.singleton_append, dropWhile_visible hc]
  simp

omit [F64 F] [LawfulF64 F] in
private theorem trim_opened {k : Str} (hk : isValidUnquotedKey k = true) (m : Str) :
    trim (k ++ ':' :: ' ' :: '"' :: m) = k ++ ':' :: ' ' :: '"' :: trimEnd m := by
  obtain ⟨c, r, rfl, _⟩ := validKey_head hk
  have hcw : isWs c = false := (validKey_noEdgeWs hk).1 c rfl
  unfold trim
  rw [trimStart_eq_self (by simp [hcw])]
  have := trimEnd_visible (c := '"') (by decide) (c :: r ++ [':', ' ']) m
  simpa using this

omit [LawfulF64 F] in
/-- C91.  A misread entry has the key that was written, a colon, a space, a quote and the beginning of the string as its key,
and a list of primitives as its value. -/
theorem C91_misread (strict : Bool) (k s : Str) (e : Str × Json F) (hk : bareKey k = true) (h : MisreadAs strict k s e) :
    (∃ more, e.1 = k ++ ':' :: ' ' :: '"' :: more) ∧ ∃ prims : List (Prim F), e.2 = .arr (prims.map .prim) := by
  obtain ⟨h, text, cells, prims, ⟨pre, seg, cols, after, ⟨rest, h1, _⟩, h2, _⟩, h3, _, _, _, _, h4⟩ := h
  refine ⟨?_, prims, h4⟩
  rw [bareKey_eq] at hk
  obtain ⟨c, r, rfl, hc⟩ := validKey_head hk
  have hcw : isWs c = false := (validKey_noEdgeWs hk).1 c rfl
  have hcq : c ≠ '"' := fun he => validKey_not_mem hk (c := '"') (by decide) (by simp [he])
  have hcb : '[' ∉ c :: r := validKey_not_mem hk (by decide)
  obtain ⟨m, hm⟩ : ∃ m, pre = c :: r ++ ':' :: ' ' :: '"' :: m := by
    generalize hl : c :: r ++ ':' :: ' ' :: quotedText s = line at h1
    cases h1 with
    | @quoted ws body _ hw _ =>
      cases ws with
      | nil => simp at hl; exact absurd hl.1 hcq
      | cons w ws =>
        simp at hl
        have := hw w (by simp)
        rw [← hl.1, hcw] at this
        simp at this
    | bare _ hn =>
      have e2 : c :: r ++ ':' :: ' ' :: quotedText s = (c :: r ++ [':', ' ', '"']) ++ (s.flatMap escapedChar ++ ['"']) := by
        simp [quotedText]
      rw [e2] at hl
      rcases List.append_eq_append_iff.mp hl with ⟨as, h5, _⟩ | ⟨bs, h5, h6⟩
      · exact ⟨as, by rw [h5]; simp⟩
      · cases bs with
        | nil => exact ⟨[], by simp at h5; rw [← h5]; simp⟩
        | cons b bs =>
          have hb : b = '[' := (List.cons.inj h6).1.symm
          have : '[' ∈ c :: r ++ [':', ' ', '"'] := by rw [h5, hb]; simp
          rcases List.mem_append.mp this with h7 | h7
          · exact absurd h7 hcb
          · exact absurd h7 (by decide)
  have ht : trim pre = c :: r ++ ':' :: ' ' :: '"' :: trimEnd m := by rw [hm, trim_opened hk]
  rw [h3] at h2
  generalize hq : h.keyQuoted = q at h2
  generalize hke : some e.1 = ke at h2
  cases h2 with
  | none _ => simp at hke
  | quoted hp _ => rw [ht] at hp; simp at hp; exact absurd hp.1 hcq
  | bare _ _ => simp at hke; exact ⟨_, by rw [hke, ht]⟩

omit [LawfulF64 F] in
private theorem lookup_readsBack {strict : Bool} {k : Str} (hk : bareKey k = true) : ∀ {es es' : List (Str × Json F)} {v : Json F},
    ReadsBackEntries strict es es' → lookupKey k es = some v → (∀ s, v = .prim (.str s) → headerLike s = false) →
    ∃ w, lookupKey k es' = some w ∧ ReadsBack strict true v w
  | [], _, _, _, h, _ => by simp [lookupKey] at h
  | (k', v') :: es, es', v, hr, h, hv => by
    simp only [ReadsBackEntries] at hr
    obtain ⟨e, rest, rfl, h1, h2⟩ := hr
    obtain ⟨ek, ev⟩ := e
    have hcol : ∀ s, LooksLikeHeader k' s → MisreadAs strict k' s (ek, ev) → ek ≠ k := by
      rintro s hl hm rfl
      obtain ⟨more, hmore⟩ := (C91_misread strict k' s _ hl.1 hm).1
      rw [bareKey_eq] at hk
      exact validKey_not_mem hk (c := ':') (by decide) (by simp only at hmore; rw [hmore]; simp)
    by_cases he : k' = k
    · subst he
      simp only [lookupKey, if_true, Option.some.injEq] at h
      subst h
      rcases h1 with ⟨s, rfl, h3, _⟩ | ⟨_, h4, h5⟩
      · have := hv s rfl
        rw [h3.2] at this
        simp at this
      · simp only at h4 h5
        subst h4
        exact ⟨ev, by simp [lookupKey], h5⟩
    · simp only [lookupKey, he, if_false] at h
      obtain ⟨w, h3, h4⟩ := lookup_readsBack hk h2 h hv
      refine ⟨w, ?_, h4⟩
      rcases h1 with ⟨s, rfl, h5, h6⟩ | ⟨_, h5, _⟩
      · simp only [lookupKey, hcol s h5 h6, if_false, h3]
      · simp only at h5
        subst h5
        simp only [lookupKey, he, if_false, h3]

/-- C91.  If the text is read at all, a field under a key written without quotes is read as it is without the other entries, whatever
the other entries are, as long as it is itself no header-like string. -/
theorem C91_field (opts : EncOpts) (strict : Bool) (es : List (Str × Json F)) (hi : 0 < opts.indent) (hd : GoodDelim opts.delim)
    (hf : opts.fold = false) (hs : Sized (.obj es)) (k : Str) (hk : bareKey k = true) (v : Json F) (hv : lookupKey k es = some v)
    (hh : ∀ s, v = .prim (.str s) → headerLike s = false) (w : Json F)
    (h : decode { indent := opts.indent, strict := strict, expand := false } (encode opts (.obj es)) = .ok w) :
    ∃ es' x, w = .obj es' ∧ es'.length = es.length ∧ lookupKey k es' = some x ∧ ReadsBack strict true (normalize v) x := by
  rw [C91_outcome opts strict _ hi hd hf hs, normalize, ReadsBack] at h
  obtain ⟨es', rfl, h1⟩ := h
  obtain ⟨x, h2, h3⟩ := lookup_readsBack hk h1 (v := normalize v) (by rw [lookup_normalize, hv]; rfl) (by
    intro s hs
    refine hh s ?_
    cases v with
    | prim p =>
      simp only [normalize, Json.prim.injEq] at hs ⊢
      cases p <;> simp [normPrim] at hs ⊢
      · repeat' split at hs
        all_goals simp at hs
      · exact hs
    | arr items => simp [normalize] at hs
    | obj es => simp [normalize] at hs)
  refine ⟨es', x, rfl, ?_, h2, h3⟩
  have len : ∀ {a b : List (Str × Json F)}, ReadsBackEntries strict a b → b.length = a.length := by
    intro a
    induction a with
    | nil => intro b h; simp only [ReadsBackEntries] at h; simp [h]
    | cons x a ih =>
      intro b h
      simp only [ReadsBackEntries] at h
      obtain ⟨e, rest, rfl, _, h⟩ := h
      simp [ih h]
  have len' : ∀ a : List (Str × Json F), (normalizeEntries a).length = a.length := by
    intro a
    induction a with
    | nil => rfl
    | cons x a ih => obtain ⟨k, v⟩ := x; simp [normalizeEntries, ih]
  rw [len h1, len']

omit [LawfulF64 F] in
theorem misread_denied {k : Str} (hk : bareKey k = true) (e : Str × Json F) : ¬ MisreadAs true k "[2]: x".toList e := by
  rw [bareKey_eq] at hk
  rintro ⟨h, text, cells, prims, h1, _, h2, h3, _, h4, _⟩
  have hv : ¬ VisibleFirst '"' ((k ++ ':' :: ' ' :: ['"']) ++ '[' :: "2]: x\"".toList) := by
    obtain ⟨c, r, rfl, _⟩ := validKey_head hk
    refine not_visibleFirst (c := c) ((validKey_noEdgeWs hk).1 c rfl) ?_ _
    rintro rfl
    exact validKey_not_mem hk (c := '"') (by decide) (by simp)
  have hb : '[' ∉ k ++ ':' :: ' ' :: ['"'] := by
    intro hm
    rcases List.mem_append.mp hm with h | h
    · exact validKey_not_mem hk (c := '[') (by decide) h
    · exact absurd h (by decide)
  have ht := trim_opened hk []
  have hm : HeaderMeans (k ++ ':' :: ' ' :: quotedText "[2]: x".toList)
      { key := some (k ++ ':' :: ' ' :: ['"']), keyQuoted := false, length := 2, delim := ',', fields := none, inline := some "x\"".toList } := by
    refine ⟨k ++ ':' :: ' ' :: ['"'], ['2'], none, " x\"".toList, ⟨": x\"".toList, ?_, by decide, ?_⟩, ?_, ?_, by simp only; omega, .none, Or.inr ⟨?_, ?_⟩⟩
    · have := BeforeBracket.bare hv hb
      have hq : quotedText "[2]: x".toList = "\"[2]: x\"".toList := by decide +kernel
      rw [hq]
      simpa using this
    · exact AfterBracket.plain (u := []) (by simp) (by simp)
    · have := HeaderKey.bare (pre := k ++ ':' :: ' ' :: ['"']) (by rw [ht]; simp) (by
        rw [ht]
        obtain ⟨c, r, rfl, _⟩ := validKey_head hk
        simp only [List.cons_append, List.head?_cons, ne_eq, Option.some.injEq]
        rintro rfl
        exact validKey_not_mem hk (c := '"') (by decide) (by simp))
      rw [ht] at this
      exact this
    · exact ⟨[], ['2'], [], rfl, Or.inl rfl, ⟨by simp, by decide⟩, by simp only; decide, by simp only; omega, Or.inl ⟨rfl, rfl⟩⟩
    · intro hb
      exact absurd (hb 'x' (by simp)) (by decide)
    · simp only
      decide
  obtain rfl := headerMeans_unique h1 hm
  simp only [Option.some.injEq] at h2
  subst h2
  have h5 := (parseDelimited_cells (d := ',') (by decide) _ _).mpr h3
  have h6 : parseDelimitedValues "x\"".toList ',' = ["x\"".toList] := by decide +kernel
  rw [h6] at h5
  have := h4 rfl
  rw [← h5] at this
  simp at this

/-- C91.  One string makes a whole object unreadable in strict mode, whatever the other entries are and whatever key it has, as
long as the key is written without quotes. -/
theorem C91_denied (opts : EncOpts) (es : List (Str × Json F)) (hi : 0 < opts.indent) (hd : GoodDelim opts.delim)
    (hf : opts.fold = false) (hs : Sized (.obj es)) (k : Str) (hk : bareKey k = true)
    (hm : (k, .prim (.str "[2]: x".toList)) ∈ es) (w : Json F) :
    decode { indent := opts.indent, strict := true, expand := false } (encode opts (.obj es)) ≠ .ok w := by
  intro h
  rw [C91_outcome opts true _ hi hd hf hs, normalize, ReadsBack] at h
  obtain ⟨es', h0, h1⟩ := h
  clear hs h0
  induction es generalizing es' with
  | nil => simp at hm
  | cons x es ih =>
    obtain ⟨k', v'⟩ := x
    simp only [normalizeEntries, ReadsBackEntries] at h1
    obtain ⟨e, rest, _, h2, h3⟩ := h1
    rcases List.mem_cons.mp hm with h4 | h4
    · simp only [Prod.mk.injEq] at h4
      obtain ⟨rfl, rfl⟩ := h4
      rw [show normalize (.prim (.str "[2]: x".toList) : Json F) = .prim (.str "[2]: x".toList) by simp [normalize, normPrim]] at h2
      rcases h2 with ⟨s, h5, _, h6⟩ | ⟨h5, _⟩
      · simp only [Json.prim.injEq, Prim.str.injEq] at h5
        subst h5
        exact misread_denied hk e h6
      · exact h5 _ rfl ⟨hk, by decide +kernel⟩
    · exact ih h4 rest h3

end

/-! ## Examples -/

private def plainOpts : EncOpts := ⟨2, ',', false, 0⟩

private theorem misreadAs_one {k s key cell : Str} {p : Prim B64}
    (h1 : parseArrayHeaderLine (k ++ ':' :: ' ' :: quotedText s) ',' = .ok (some ⟨some key, false, 1, ',', none, some cell⟩))
    (h2 : parseDelimitedValues cell ',' = [cell]) (h3 : trim cell = cell) (h4 : parsePrimitiveToken cell = .ok p) :
    MisreadAs true k s (key, .arr [.prim p]) :=
  ⟨_, cell, [cell], [p], (headerMeans_iff _ _).mp h1, rfl, rfl, (parseDelimited_cells (d := ',') (by decide) _ _).mp h2,
    .cons (h3 ▸ (parsePrimitiveToken_iff cell p).mp h4) .nil, fun _ => rfl, rfl⟩

/-- A string under `name` becomes an array under another key; the entry beside it stays. -/
example : decode (F := B64) ⟨2, true, false⟩ (encode (F := B64) plainOpts
      (.obj [("name".toList, .prim (.str "see [1] of: y".toList)), ("admin".toList, .prim (.bool false))])) =
    .ok (.obj [("name: \"see".toList, .arr [.prim (.str "y\"".toList)]), ("admin".toList, .prim (.bool false))]) := by
  rw [show (⟨2, true, false⟩ : DecOpts) = ⟨plainOpts.indent, true, false⟩ from rfl, C91_outcome plainOpts true _ (by decide) (by decide) rfl (by simp [Sized, SizedEntries])]
  simp only [normalize, normalizeEntries, normPrim, ReadsBack, ReadsBackEntries]
  refine ⟨_, rfl, _, _, rfl, Or.inl ⟨_, rfl, ⟨by decide +kernel, by decide +kernel⟩, misreadAs_one (cell := "y\"".toList) ?_ ?_ ?_ ?_⟩, _, _, rfl,
    Or.inr ⟨by simp, rfl, rfl⟩, rfl⟩ <;> decide +kernel

/-- A string under `name` takes the key of another entry, whose own key needs quotes. -/
example : decode (F := B64) ⟨2, true, false⟩ (encode (F := B64) plainOpts
      (.obj [("name".toList, .prim (.str "[1]: y".toList)), ("name: \"".toList, .prim (.bool false))])) =
    .ok (.obj [("name: \"".toList, .arr [.prim (.str "y\"".toList)]), ("name: \"".toList, .prim (.bool false))]) := by
  rw [show (⟨2, true, false⟩ : DecOpts) = ⟨plainOpts.indent, true, false⟩ from rfl, C91_outcome plainOpts true _ (by decide) (by decide) rfl (by simp [Sized, SizedEntries])]
  simp only [normalize, normalizeEntries, normPrim, ReadsBack, ReadsBackEntries]
  refine ⟨_, rfl, _, _, rfl, Or.inl ⟨_, rfl, ⟨by decide +kernel, by decide +kernel⟩, misreadAs_one (cell := "y\"".toList) ?_ ?_ ?_ ?_⟩, _, _, rfl,
    Or.inr ⟨by simp, rfl, rfl⟩, rfl⟩ <;> decide +kernel

end Toon
