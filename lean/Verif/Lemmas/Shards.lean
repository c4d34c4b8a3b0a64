import Verif.Lemmas.Clashes
import Verif.Lemmas.Quotes
import Verif.Props.Folded
import Verif.Props.JoinExpanded
import Verif.Spec.Shards

/-! Texts of several objects, one after the other. -/

namespace Toon

section
variable {F : Type}

theorem KVRuns.append {ctx : Ctx} [F64 F] {base : Nat} {os os' : List OutLine} {r r' : Reading F} (h : KVRuns ctx base os r)
    (h' : KVRuns ctx base os' r') : KVRuns ctx base (os ++ os') (r.seq r') := by
  induction h with
  | nil => cases r' <;> exact h'
  | cons h1 _ ih =>
    rw [seq_assoc, List.append_assoc]
    exact .cons h1 ih

theorem eventsEntries_inj {ts ts' : List (Str × Bool × ETree F)} (h : ETree.eventsEntries ts = ETree.eventsEntries ts') : ts = ts' := by
  have : (ETree.obj ts).events = (ETree.obj ts').events := by simp only [ETree.events, h]
  cases events_inj this
  rfl

theorem eventsEntries_join (ts ts' : List (Str × Bool × ETree F)) :
    ETree.eventsEntries (ts ++ ts') = ETree.eventsEntries ts ++ ETree.eventsEntries ts' := by
  induction ts with
  | nil => rfl
  | cons e ts ih => obtain ⟨k, q, t⟩ := e; simp [ETree.eventsEntries, ih]

theorem splitOn_joinAll {texts : List Str} (h : texts ≠ []) : splitOn '\n' (joinWith '\n' texts) = texts.flatMap (splitOn '\n') := by
  induction texts with
  | nil => exact absurd rfl h
  | cons x rest ih =>
    cases rest with
    | nil => simp [joinWith]
    | cons y rest =>
      rw [joinWith.eq_3 _ _ _ (by simp), splitOn_append_any, ih (by simp), ← List.flatMap_cons]

mutual
theorem allKeys_any (v : Json F) : AllKeys (fun _ => True) v := by
  match v with
  | .prim _ => trivial
  | .arr items => exact allKeys_anyItems items
  | .obj es => exact allKeys_anyEntries es
theorem allKeys_anyItems (vs : List (Json F)) : AllKeysItems (fun _ => True) vs := by
  match vs with
  | [] => trivial
  | v :: vs => exact ⟨allKeys_any v, allKeys_anyItems vs⟩
theorem allKeys_anyEntries (es : List (Str × Json F)) : AllKeysEntries (fun _ => True) es := by
  match es with
  | [] => trivial
  | (_, v) :: es => exact ⟨trivial, allKeys_any v, allKeys_anyEntries es⟩
end

theorem allKeys_entryOf {P : Str → Bool → Prop} {ts : List (Str × Bool × ETree F)} (h : ETree.AllKeysEntries P ts) :
    ∀ e ∈ ts, P e.1 e.2.1 := by
  induction ts with
  | nil => intro e he; simp at he
  | cons e ts ih =>
    obtain ⟨k, q, t⟩ := e
    simp only [ETree.AllKeysEntries] at h
    intro e he
    rcases List.mem_cons.mp he with rfl | he
    · exact h.1
    · exact ih h.2.2 e he

variable [F64 F] [LawfulF64 F]

/-- How the lines of an object are read, wherever they stand among entries. -/
theorem part_runs {opts : EncOpts} (strict : Bool) (hi : 0 < opts.indent) (hd : GoodDelim opts.delim) {es : List (Str × Json F)}
    (hs : Sized (.obj es)) :
    ∃ r : Reading F, KVRuns ⟨strict, []⟩ 0 (encodeValue opts (normalize (.obj es))) r ∧
      (∀ ts, r = .ok (ETree.eventsEntries ts) ↔ TextMeans opts.indent strict (splitOn '\n' (encode opts (.obj es))) (.obj ts)) ∧
      (∀ evs, r = .ok evs → ∃ ts, evs = ETree.eventsEntries ts) := by
  have hs' := (sized_normalize (.obj es)).mpr hs
  have hn := normal_normalize (Json.obj es : Json F)
  have hen : ∃ fs, normalize (Json.obj es) = .obj fs := ⟨normalizeEntries es, by rw [normalize]⟩
  have hst : decodeStream (F := F) opts.indent strict (splitOn '\n' (encode opts (.obj es))) =
      decodeStream (F := F) opts.indent strict (encodeLines opts (.obj es)) := by
    rw [splitOn_encode hd]
    split
    · rename_i h
      rw [h]
      rfl
    · rfl
  unfold encodeLines encodeJsonValue at hst
  have hok := fun l hl => (linesIn_value hd (normalize (Json.obj es)) l hl).1
  obtain ⟨fs, hfs⟩ := hen
  rw [hfs] at hs' hn hst hok ⊢
  simp only [Sized] at hs'
  simp only [Normal] at hn
  have e : encodeValue opts (.obj fs) =
      encodeEntries opts (fs.map Prod.fst) (some (dottedKeys (.obj fs))) none opts.flattenDepth fs 0 := by
    simp only [encodeValue]
    rw [encodeObject]
    congr 1
    simp [rootLiterals, dottedKeys]
  obtain ⟨lay, h0, r, h1, h2⟩ := entries_laidOut (ctx := ⟨strict, []⟩) rfl hd (fs.map Prod.fst) (dottedKeys (.obj fs)) []
    (some (dottedKeys (.obj fs))) none opts.flattenDepth (.inl rfl) rfl fs 0 hs' hn
  rw [← e] at h1
  obtain ⟨lines, h3, h4⟩ := parseLines_render hi strict (encodeValue opts (.obj fs)) hok 0
  have hdl := decodeLines_entries h1 h4
  refine ⟨r, h1, fun ts => ?_, fun evs hr => ?_⟩
  · have hev : TextMeans opts.indent strict (splitOn '\n' (encode opts (.obj es))) (.obj ts) ↔
        decodeStream (F := F) opts.indent strict (splitOn '\n' (encode opts (.obj es))) = .ok (ETree.obj ts).events := by
      rw [C58_events]
      exact ⟨fun h => ⟨_, h, rfl⟩, fun ⟨t, h5, h6⟩ => by cases events_inj h6; exact h5⟩
    rw [hev, hst]
    unfold decodeStream
    simp only [h3, bind, Except.bind, hdl]
    cases r with
    | error x => simp [Reading.seq]
    | ok evs => simp [Reading.seq, ETree.events]
  · obtain ⟨ts, h5, _⟩ := (h2 evs).mp hr
    exact ⟨ts, h5⟩

theorem parts_runs {indent : Nat} (strict : Bool) (hi : 0 < indent) (parts : Parts F)
    (hp : ∀ p ∈ parts, p.1.indent = indent ∧ GoodDelim p.1.delim ∧ Sized (.obj p.2)) :
    ∃ r : Reading F, KVRuns ⟨strict, []⟩ 0 (parts.flatMap fun p => encodeValue p.1 (normalize (.obj p.2))) r ∧
      ∀ evs, r = .ok evs ↔ ∃ tss, Pointwise (fun p ts =>
        TextMeans indent strict (splitOn '\n' (encode p.1 (.obj p.2))) (.obj ts)) parts tss ∧ evs = ETree.eventsEntries tss.flatten := by
  induction parts with
  | nil =>
    refine ⟨.ok [], .nil, fun evs => ⟨fun h => ⟨[], .nil, ?_⟩, ?_⟩⟩
    · simp only [Except.ok.injEq] at h
      subst h
      rfl
    · rintro ⟨tss, h, rfl⟩
      cases h
      rfl
  | cons p parts ih =>
    obtain ⟨h1, h2, h3⟩ := hp p (by simp)
    obtain ⟨r, h4, h5, h6⟩ := part_runs strict (by rw [h1]; exact hi) h2 h3
    obtain ⟨rs, h7, h8⟩ := ih fun p hm => hp p (by simp [hm])
    refine ⟨r.seq rs, h4.append h7, fun evs => ⟨fun h => ?_, ?_⟩⟩
    · cases hr : r with
      | error x => rw [hr] at h; simp [Reading.seq] at h
      | ok e1 =>
        cases hrs : rs with
        | error x => rw [hr, hrs] at h; simp [Reading.seq] at h
        | ok e2 =>
          rw [hr, hrs] at h
          simp only [Reading.seq, Except.ok.injEq] at h
          subst h
          obtain ⟨ts, rfl⟩ := h6 _ hr
          obtain ⟨tss, h9, rfl⟩ := (h8 _).mp hrs
          refine ⟨ts :: tss, .cons ?_ h9, by rw [List.flatten_cons, eventsEntries_join]⟩
          rw [← h1]
          exact (h5 ts).mp hr
    · rintro ⟨tss, h, rfl⟩
      cases h with
      | @cons _ ts _ tss h9 h10 =>
        rw [← h1] at h9
        rw [(h5 ts).mpr h9, (h8 _).mpr ⟨tss, h10, rfl⟩, List.flatten_cons, eventsEntries_join]
        rfl

/-- The text of several objects that are not empty has the entries of all. -/
theorem parts_means {indent : Nat} (strict : Bool) (hi : 0 < indent) (parts : Parts F) (hg : GoodParts indent parts) (t : ETree F) :
    TextMeans indent strict (splitOn '\n' (partsText parts)) t ↔
    ∃ tss, Pointwise (fun p ts => TextMeans indent strict (splitOn '\n' (encode p.1 (.obj p.2))) (.obj ts)) parts tss ∧
      t = .obj tss.flatten := by
  obtain ⟨hne, hp⟩ := hg
  obtain ⟨r, h1, h2⟩ := parts_runs strict hi parts fun p hm => let ⟨a, b, c, _⟩ := hp p hm; ⟨a, b, c⟩
  have hl : splitOn '\n' (partsText parts) =
      (parts.flatMap fun p => encodeValue p.1 (normalize (.obj p.2))).map (renderLine indent) := by
    unfold partsText
    rw [splitOn_joinAll (by simpa using hne), List.flatMap_map, List.map_flatMap]
    have : ∀ ps : Parts F, (∀ p ∈ ps, p ∈ parts) → (ps.flatMap fun p => splitOn '\n' (encode p.1 (.obj p.2))) =
        ps.flatMap fun p => (encodeValue p.1 (normalize (.obj p.2))).map (renderLine indent) := by
      intro ps
      induction ps with
      | nil => intro _; rfl
      | cons p ps ih =>
        intro hm
        obtain ⟨ha, hb, _, hc⟩ := hp p (hm p (by simp))
        rw [List.flatMap_cons, List.flatMap_cons, ih fun q hq => hm q (by simp [hq]), splitOn_encode hb]
        rw [if_neg]
        · unfold encodeLines encodeJsonValue
          rw [ha]
        · intro h
          obtain ⟨o, es⟩ := p
          cases es with
          | nil => exact hc rfl
          | cons e es =>
            obtain ⟨k, v⟩ := e
            simp only [encodeLines, encodeJsonValue, normalize, normalizeEntries, encodeValue, encodeObject, List.map_eq_nil_iff] at h
            exact absurd h encodeEntries_ne_nil
    exact this parts fun _ h => h
  have hok : ∀ l ∈ (parts.flatMap fun p => encodeValue p.1 (normalize (.obj p.2))), LineOk l.content := by
    intro l hm
    rw [List.mem_flatMap] at hm
    obtain ⟨p, hm, hl⟩ := hm
    exact (linesIn_value (hp p hm).2.1 _ l hl).1
  obtain ⟨lines, h3, h4⟩ := parseLines_render hi strict _ hok 0
  have hdl := decodeLines_entries h1 h4
  have hev : TextMeans indent strict (splitOn '\n' (partsText parts)) t ↔
      decodeStream (F := F) indent strict (splitOn '\n' (partsText parts)) = .ok t.events := by
    rw [C58_events]
    exact ⟨fun h => ⟨_, h, rfl⟩, fun ⟨t, h5, h6⟩ => by cases events_inj h6; exact h5⟩
  rw [hev, hl]
  unfold decodeStream
  simp only [h3, bind, Except.bind, hdl]
  cases hr : r with
  | error x =>
    simp only [Reading.seq]
    refine ⟨fun h => (nomatch h), ?_⟩
    rintro ⟨tss, h5, _⟩
    have := (h2 _).mpr ⟨tss, h5, rfl⟩
    rw [hr] at this
    nomatch this
  | ok evs =>
    obtain ⟨tss, h5, h6⟩ := (h2 evs).mp hr
    subst h6
    have : Reading.seq (.ok [.startObj]) (Reading.seq (.ok (ETree.eventsEntries tss.flatten)) (.ok [.endObj])) =
        (.ok (ETree.obj tss.flatten).events : Reading F) := by simp [Reading.seq, ETree.events]
    rw [this]
    simp only [Except.ok.injEq]
    constructor
    · intro h
      exact ⟨tss, h5, (events_inj h).symm⟩
    · rintro ⟨tss', h7, rfl⟩
      have := (h2 _).mpr ⟨tss', h7, rfl⟩
      rw [hr] at this
      simp only [Except.ok.injEq] at this
      rw [eventsEntries_inj this]

/-- All dotted keys that are written stand without quotes. -/
theorem written_quotes {opts : EncOpts} {strict : Bool} (hi : 0 < opts.indent) (hd : GoodDelim opts.delim) {v : Json F} (hs : Sized v)
    {ts : List (Str × Bool × ETree F)} (h : TextMeans opts.indent strict (splitOn '\n' (encode opts v)) (.obj ts)) :
    ∀ e ∈ ts, DottedPath e.1 → e.2.1 = false := by
  have hk := C97_keys opts strict v hi hd hs _ h (fun _ => True) (allKeys_any v)
  intro e he hdp
  rcases allKeys_entryOf (by simpa only [ETree.AllKeys] using hk) e he with ⟨_, hq⟩ | hc
  · rw [hq, bareKey_eq, dotted_bare hdp]; rfl
  · exact absurd hc (dotted_noColon hdp)

omit [F64 F] [LawfulF64 F] in
/-- Merging several objects: there is a conflict exactly if there is one between two of them. -/
theorem expanded_flatten (tss : List (List (Str × Bool × ETree F))) : ∀ (es : List (Str × Bool × ETree F)) (a : List (Str × Json F))
    (bs : List (List (Str × Json F))), SameQuotes (es ++ tss.flatten) → expanded (.obj es) = .obj a → conflicting (.obj es) = false →
    Pointwise (fun ts b => expanded (.obj ts) = .obj b ∧ conflicting (.obj ts) = false) tss bs →
    ((conflicting (.obj (es ++ tss.flatten)) = false ↔ (∀ b ∈ bs, clashEntries a b = false) ∧
        bs.Pairwise fun b c => clashEntries b c = false) ∧
      (conflicting (.obj (es ++ tss.flatten)) = false → expanded (.obj (es ++ tss.flatten)) = .obj (bs.foldl mergeObj a))) := by
  induction tss with
  | nil =>
    intro es a bs hq ha hc hp
    cases hp
    simp only [List.flatten_nil, List.append_nil, hc, ha]
    simp
  | cons ts tss ih =>
    intro es a bs hq ha hc hp
    cases hp with
    | @cons _ b _ bs h1 h2 =>
      obtain ⟨hb, hcb⟩ := h1
      rw [List.flatten_cons, ← List.append_assoc] at hq ⊢
      have hq' : SameQuotes (es ++ ts) := sameQuotes_sub hq (by intro e he; simp only [List.mem_append] at he ⊢; exact .inl he)
      obtain ⟨h3, h4⟩ := expanded_joined hq' ha hb hc hcb
      have tidy : ∀ {xs : List (Str × Bool × ETree F)} {x : List (Str × Json F)}, expanded (.obj xs) = .obj x → Tidy x := by
        intro xs x h
        have := expanded_distinct (.obj xs)
        rw [h] at this
        simp only [DistinctKeys] at this
        exact this
      have hbt : ∀ c ∈ bs, Tidy c := by
        clear ih hq h3 h4
        intro c hc
        induction h2 with
        | nil => simp at hc
        | cons h _ ih =>
          rcases List.mem_cons.mp hc with rfl | hc
          · exact tidy h.1
          · exact ih hc
      cases hcl : clashEntries a b with
      | true =>
        rw [hcl] at h4
        have hcf : conflicting (.obj (es ++ ts ++ tss.flatten)) ≠ false := by
          intro h
          have := (conflicting_parts hq h).1
          rw [h4] at this
          simp at this
        refine ⟨⟨fun h => absurd h hcf, fun ⟨h, _⟩ => ?_⟩, fun h => absurd h hcf⟩
        have := h b (by simp)
        rw [hcl] at this
        simp at this
      | false =>
        rw [hcl] at h4
        obtain ⟨h5, h6⟩ := ih (es ++ ts) (mergeObj a b) bs hq h3 h4 h2
        refine ⟨?_, fun h => by rw [h6 h, List.foldl_cons]⟩
        rw [h5]
        simp only [List.mem_cons, forall_eq_or_imp, List.pairwise_cons, hcl, true_and]
        constructor
        · rintro ⟨h7, h8⟩
          exact ⟨fun c hc => ((clashEntries_both (tidy ha) (tidy hb) (hbt c hc) hcl).mp (h7 c hc)).1,
            fun c hc => ((clashEntries_both (tidy ha) (tidy hb) (hbt c hc) hcl).mp (h7 c hc)).2, h8⟩
        · rintro ⟨h7, h8, h9⟩
          exact ⟨fun c hc => (clashEntries_both (tidy ha) (tidy hb) (hbt c hc) hcl).mpr ⟨h7 c hc, h8 c hc⟩, h9⟩

omit [F64 F] [LawfulF64 F] in
theorem pathHeight_flatten (tss : List (List (Str × Bool × ETree F))) {n : Nat} (hn : 1 ≤ n) (h : ∀ ts ∈ tss, pathHeight (.obj ts) ≤ n)
    (hq : SameQuotes tss.flatten) : pathHeight (.obj tss.flatten) ≤ n := by
  induction tss with
  | nil => simp [pathHeight, pathHeightEntries]; omega
  | cons ts tss ih =>
    rw [List.flatten_cons] at hq ⊢
    rw [pathHeight_joined hq]
    have h1 := h ts (by simp)
    have h2 := ih (fun ts' hm => h ts' (by simp [hm])) (sameQuotes_sub hq (by intro e he; simp only [List.mem_append]; exact .inr he))
    omega

/-- The trees of the parts quote no dotted key. -/
theorem parts_quotes {indent : Nat} {strict : Bool} (hi : 0 < indent) {parts : Parts F}
    (hp : ∀ p ∈ parts, p.1.indent = indent ∧ GoodDelim p.1.delim ∧ Sized (.obj p.2) ∧ p.2 ≠ [])
    {tss : List (List (Str × Bool × ETree F))} (h : Pointwise (fun p ts =>
      TextMeans indent strict (splitOn '\n' (encode p.1 (.obj p.2))) (.obj ts)) parts tss) : SameQuotes tss.flatten := by
  have key : ∀ e ∈ tss.flatten, DottedPath e.1 → e.2.1 = false := by
    induction h with
    | nil => intro e he; simp at he
    | @cons p ts ps tss h1 _ ih =>
      intro e he hdp
      obtain ⟨ha, hb, hc, _⟩ := hp p (by simp)
      rw [List.flatten_cons, List.mem_append] at he
      rcases he with he | he
      · rw [← ha] at h1
        exact written_quotes (by rw [ha]; exact hi) hb hc h1 e he hdp
      · exact ih (fun q hq => hp q (by simp [hq])) e he hdp
  intro e he f hf hef hdp
  rw [key e he hdp, key f hf (by rw [← hef]; exact hdp)]

end

end Toon
