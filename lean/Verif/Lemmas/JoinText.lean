import Verif.Lemmas.Join
import Verif.Spec.Join
import Verif.Spec.Consumed

/-! One text after another: the lines, and the documents. -/

namespace Toon

section

theorem scans_bounds {i n : Nat} {strict : Bool} {src : List Str} {ls : List Line} {bs : List Nat}
    (h : ScansTo i strict n src ls bs) : (∀ l ∈ ls, n < l.num ∧ l.num ≤ n + src.length) ∧ (∀ b ∈ bs, n < b ∧ b ≤ n + src.length) := by
  induction h with
  | nil => exact ⟨by simp, by simp⟩
  | blank hb _ ih =>
    obtain ⟨h1, h2⟩ := ih
    refine ⟨fun l hl => ?_, fun b hb => ?_⟩
    · have := h1 l hl; simp only [List.length_cons]; omega
    · simp only [List.length_cons]
      rcases List.mem_cons.mp hb with rfl | hb
      · omega
      · have := h2 b hb; omega
  | line hb hh hs _ ih =>
    obtain ⟨h1, h2⟩ := ih
    refine ⟨fun l hl => ?_, fun b hb => ?_⟩
    · simp only [List.length_cons]
      rcases List.mem_cons.mp hl with rfl | hl
      · simp only; omega
      · have := h1 l hl; omega
    · have := h2 b hb; simp only [List.length_cons]; omega

/-- The line with another number. -/
def Line.shift (k : Nat) (l : Line) : Line := ⟨l.depth, l.content, l.num + k⟩

theorem scans_shift (k : Nat) {i n : Nat} {strict : Bool} {src : List Str} {ls : List Line} {bs : List Nat}
    (h : ScansTo i strict n src ls bs) : ScansTo i strict (n + k) src (ls.map (Line.shift k)) (bs.map (· + k)) := by
  induction h with
  | nil => exact .nil _
  | @blank n _ _ _ _ hb _ ih =>
    have := ScansTo.blank hb (by rw [show n + 1 + k = n + k + 1 by omega] at ih; exact ih)
    simpa [show n + 1 + k = n + k + 1 by omega] using this
  | @line n sp c _ _ _ hb hh hs _ ih =>
    have := ScansTo.line hb hh hs (by rw [show n + 1 + k = n + k + 1 by omega] at ih; exact ih)
    simpa [Line.shift, show n + 1 + k = n + k + 1 by omega] using this

theorem scans_join {i n : Nat} {strict : Bool} {s₁ s₂ : List Str} {ls₁ ls₂ : List Line} {bs₁ bs₂ : List Nat}
    (h₁ : ScansTo i strict n s₁ ls₁ bs₁) (h₂ : ScansTo i strict (n + s₁.length) s₂ ls₂ bs₂) :
    ScansTo i strict n (s₁ ++ s₂) (ls₁ ++ ls₂) (bs₁ ++ bs₂) := by
  induction h₁ with
  | nil => simpa using h₂
  | @blank n _ s _ _ hb _ ih =>
    exact .blank hb (ih (by rw [List.length_cons] at h₂; rwa [show n + 1 + s.length = n + (s.length + 1) by omega]))
  | @line n _ _ s _ _ hb hh hs _ ih =>
    exact .line hb hh hs (ih (by rw [List.length_cons] at h₂; rwa [show n + 1 + s.length = n + (s.length + 1) by omega]))

theorem spaces_split : ∀ s : Str, ∃ k content, s = List.replicate k ' ' ++ content ∧ content.head? ≠ some ' '
  | [] => ⟨0, [], rfl, by simp⟩
  | c :: s => by
    by_cases hc : c = ' '
    · obtain ⟨k, content, h1, h2⟩ := spaces_split s
      exact ⟨k + 1, content, by rw [hc, h1, List.replicate_succ, List.cons_append], h2⟩
    · exact ⟨0, c :: s, rfl, by simpa using hc⟩

/-- Lax, or well indented: the lines can be scanned. -/
theorem scans_exist {i : Nat} {strict : Bool} (src : List Str) (h : strict = true → WellIndented i src) (n : Nat) :
    ∃ ls bs, ScansTo i strict n src ls bs := by
  induction src generalizing n with
  | nil => exact ⟨[], [], .nil _⟩
  | cons raw src ih =>
    obtain ⟨ls, bs, hi⟩ := ih (fun hs l hl => h hs l (by simp [hl])) (n + 1)
    by_cases hb : BlankLine raw
    · exact ⟨ls, _, .blank hb hi⟩
    · obtain ⟨k, content, rfl, hc⟩ := spaces_split raw
      refine ⟨_, bs, .line (spaces := k) (fun h => hb (blank_replicate.mpr h)) hc (fun hs => ?_) hi⟩
      obtain ⟨m, rest, h1, h2, h3⟩ := h hs _ (by simp) hb
      have e1 := takeWhile_replicate_append (k := k) hc
      have e2 := takeWhile_replicate_append (k := m * i) h2
      rw [h1, e2] at e1
      have hk : m * i = k := by simpa using congrArg List.length e1
      subst hk
      have hcr := List.append_cancel_left h1
      subst hcr
      exact ⟨h3, by simp⟩

theorem scans_margin {i n : Nat} {strict : Bool} {src : List Str} {ls : List Line} {bs : List Nat}
    (h : ScansTo i strict n src ls bs) (hm : StartsAtMargin src) : Unindented ls := by
  induction h with
  | nil => intro l ls h; simp at h
  | @blank _ raw _ _ _ hb _ ih =>
    apply ih
    intro a l b h1 h2 h3
    exact hm (raw :: a) l b (by rw [h1]; rfl) (by simpa using ⟨hb, h2⟩) h3
  | @line n sp c rest ls bs hb hh hs _ _ =>
    intro l ls' h
    simp only [List.cons.injEq] at h
    rw [← h.1]
    have := hm [] _ rest rfl (by simp) (fun h => hb (blank_replicate.mp h))
    cases sp with
    | zero => simp
    | succ sp => simp [List.replicate_succ] at this

end

section
variable {F : Type} [F64 F]

/-- The source stands for the tree, and so many lines at the end are not read. -/
def ReadsTo (i : Nat) (strict : Bool) (src : List Str) (t : ETree F) (unread : Nat) : Prop :=
  ∃ lines blanks r, ScansTo i strict 0 src lines blanks ∧ DocumentMeans strict blanks lines t r ∧ r.length = unread

theorem decodeLinesRest_sound (ctx : Ctx) (lines : List Line) (evs : List (Ev F)) (r : List Line)
    (h : decodeLinesRest ctx lines = .ok (evs, r)) :
    ∃ t, DocumentMeans ctx.strict ctx.blanks lines t r ∧ evs = ETree.events t := by
  unfold decodeLinesRest at h
  cases lines with
  | nil =>
    simp only [Except.ok.injEq, Prod.mk.injEq] at h
    obtain ⟨rfl, rfl⟩ := h
    exact ⟨.obj [], .empty, by simp [ETree.events, ETree.eventsEntries]⟩
  | cons first rest =>
    simp only at h
    cases hr : rootHeader first.content with
    | error e => rw [hr] at h; simp [bind, Except.bind] at h
    | ok hdr =>
      rw [hr] at h
      simp only [bind, Except.bind] at h
      cases hdr with
      | some hd =>
        simp only at h
        obtain ⟨h1, h2, h3⟩ := rootHeader_some.mp hr
        cases ha : decodeArray (F := F) ctx (5 * (first :: rest).length + 5) hd ⟨rest, some first⟩ 0 with
        | error e => rw [ha] at h; simp at h
        | ok r =>
          obtain ⟨evs1, cur1⟩ := r
          rw [ha] at h
          simp only [pure, Except.pure, Except.ok.injEq, Prod.mk.injEq] at h
          obtain ⟨rfl, rfl⟩ := h
          obtain ⟨⟨t, hm, rfl⟩, _⟩ := (soundClaims ctx _).array _ _ _ _ _ (headerMeans_good h3) ha
          exact ⟨t, .array h1 h2 h3 hm, rfl⟩
      | none =>
        simp only at h
        have hn := rootHeader_none.mp hr
        split at h
        · rename_i hc
          simp only [Bool.and_eq_true, List.isEmpty_iff, Bool.not_eq_true'] at hc
          obtain ⟨rfl, hc⟩ := hc
          cases hp : parsePrimitiveToken (F := F) (trim first.content) with
          | error e => rw [hp] at h; simp at h
          | ok p =>
            rw [hp] at h
            simp only [pure, Except.pure, Except.ok.injEq, Prod.mk.injEq] at h
            obtain ⟨rfl, rfl⟩ := h
            have ht := (parsePrimitiveToken_iff _ _).mp hp
            rw [trim_trim] at ht
            exact ⟨.prim p, .prim ((token_line _ p ht).mp hc) ht, rfl⟩
        · cases h1 : decodeKV (F := F) ctx (5 * (first :: rest).length + 5) first.content ⟨rest, some first⟩ 0 with
          | error e => rw [h1] at h; simp at h
          | ok r =>
            obtain ⟨evs1, cur1⟩ := r
            rw [h1] at h
            simp only at h
            cases h2 : rootLoop (F := F) ctx (5 * (first :: rest).length + 5) cur1 with
            | error e => rw [h2] at h; simp at h
            | ok r =>
              obtain ⟨evs2, cur2⟩ := r
              rw [h2] at h
              simp only [pure, Except.pure, Except.ok.injEq, Prod.mk.injEq] at h
              obtain ⟨rfl, rfl⟩ := h
              obtain ⟨⟨k, q, t, he, rfl⟩, _⟩ := (soundClaims ctx _).kv _ _ _ _ _ h1
              obtain ⟨es, hb, rfl⟩ := rootLoop_sound ctx _ _ _ _ h2
              exact ⟨.obj ((k, q, t) :: es), .object hn he hb, by simp [ETree.events, ETree.eventsEntries]⟩

theorem decodeStreamUnread_sound (i : Nat) (strict : Bool) (src : List Str) (evs : List (Ev F)) (u : Nat)
    (h : decodeStreamUnread i strict src = .ok (evs, u)) : ∃ t, ReadsTo i strict src t u ∧ evs = ETree.events t := by
  unfold decodeStreamUnread at h
  cases hp : parseLines i strict src 0 with
  | error e => rw [hp] at h; simp [bind, Except.bind] at h
  | ok r =>
    obtain ⟨lines, blanks⟩ := r
    rw [hp] at h
    simp only [bind, Except.bind] at h
    cases hd : decodeLinesRest (F := F) ⟨strict, blanks⟩ lines with
    | error e => rw [hd] at h; simp at h
    | ok r =>
      obtain ⟨evs1, r⟩ := r
      rw [hd] at h
      simp only [pure, Except.pure, Except.ok.injEq, Prod.mk.injEq] at h
      obtain ⟨rfl, rfl⟩ := h
      obtain ⟨t, h1, h2⟩ := decodeLinesRest_sound ⟨strict, blanks⟩ lines evs1 r hd
      exact ⟨t, ⟨lines, blanks, r, (scansTo_iff _ _ _ _ _ _).mp hp, h1, rfl⟩, h2⟩

/-- The first of two texts keeps its numbers. -/
theorem renumbers_first {i : Nat} {strict : Bool} {s₁ s₂ : List Str} {ls₁ ls₂ : List Line} {bs₁ bs₂ : List Nat}
    (h₁ : ScansTo i strict 0 s₁ ls₁ bs₁) (h₂ : ScansTo i strict s₁.length s₂ ls₂ bs₂) : Renumbers ls₁ id bs₁ (bs₁ ++ bs₂) := by
  refine ⟨fun _ => rfl, fun _ => rfl, fun first hf last hl b' hb h3 h4 => ?_⟩
  rcases List.mem_append.mp hb with hb | hb
  · exact ⟨b', hb, h3, h4⟩
  · have := ((scans_bounds h₁).1 last hl).2
    have := ((scans_bounds h₂).2 b' hb).1
    simp only [id] at h4
    omega

/-- The second of two texts is renumbered. -/
theorem renumbers_second {i k : Nat} {strict : Bool} {s₁ s₂ : List Str} {ls₁ ls₂ : List Line} {bs₁ bs₂ : List Nat}
    (h₁ : ScansTo i strict 0 s₁ ls₁ bs₁) (hk : s₁.length = k) (h₂ : ScansTo i strict 0 s₂ ls₂ bs₂) :
    Renumbers ls₂ (Line.shift k) bs₂ (bs₁ ++ bs₂.map (· + k)) := by
  refine ⟨fun _ => rfl, fun _ => rfl, fun first hf last hl b' hb h3 h4 => ?_⟩
  simp only [Line.shift] at h3 h4
  rcases List.mem_append.mp hb with hb | hb
  · have := ((scans_bounds h₁).2 b' hb).2
    omega
  · obtain ⟨b, hb', rfl⟩ := List.mem_map.mp hb
    exact ⟨b, hb', by omega, by omega⟩

theorem map_shift_unindented {k : Nat} {ls : List Line} (h : Unindented ls) : Unindented (ls.map (Line.shift k)) := by
  intro l ls' hl
  cases ls with
  | nil => simp at hl
  | cons x xs =>
    simp only [List.map_cons, List.cons.injEq] at hl
    rw [← hl.1]
    exact h x xs rfl

/-- Two objects. -/
theorem reads_objects {i : Nat} {strict : Bool} {s₁ s₂ : List Str} {es₁ es₂ : List (Str × Bool × ETree F)} {u : Nat}
    (h₁ : ReadsTo i strict s₁ (.obj es₁) 0) (h₂ : ReadsTo i strict s₂ (.obj es₂) u) (hm : StartsAtMargin s₂) :
    ReadsTo i strict (s₁ ++ s₂) (.obj (es₁ ++ es₂)) u ∨ (∀ raw ∈ s₁, BlankLine raw) := by
  obtain ⟨ls₁, bs₁, r₁, hs₁, hd₁, hr₁⟩ := h₁
  obtain ⟨ls₂, bs₂, r₂, hs₂, hd₂, hr₂⟩ := h₂
  have hr₁ := List.length_eq_zero_iff.mp hr₁
  subst hr₁
  have hsh := scans_shift s₁.length hs₂
  rw [Nat.zero_add] at hsh
  have hsj := scans_join hs₁ (by rw [Nat.zero_add]; exact hsh)
  have hu := scans_margin hs₂ hm
  -- the entries of the second
  have hb₂ : ∃ r, r.length = u ∧ BlockMeans strict (bs₁ ++ bs₂.map (· + s₁.length)) false 0 (ls₂.map (Line.shift s₁.length)) es₂ r := by
    have hf := renumbers_second hs₁ rfl hs₂
    have hblock : BlockMeans strict bs₂ false 0 ls₂ es₂ r₂ := by
      generalize hT : ETree.obj es₂ = T at hd₂
      cases hd₂ with
      | empty =>
        simp only [ETree.obj.injEq] at hT
        subst hT
        exact .stop (by rintro ⟨_, _, h, _⟩; simp at h)
      | prim => simp at hT
      | @array line rest _ h t _ _ _ ha => subst hT; cases ha
      | object _ he hb =>
        simp only [ETree.obj.injEq] at hT
        subst hT
        exact .entry (hu _ _ rfl) (by simp) (by exact he) hb
    obtain ⟨_, h4⟩ := (join_all (F := F) hf [] strict ls₂.length).2.1 (Nat.le_refl _) (fun l hl => hl) hblock
    refine ⟨r₂.map (Line.shift s₁.length), by simpa using hr₂, ?_⟩
    simpa using h4 (.inr (.inl rfl))
  obtain ⟨r, hr, hb₂⟩ := hb₂
  have hf := renumbers_first hs₁ hsh
  generalize hT : ETree.obj es₁ = T at hd₁
  cases hd₁ with
  | empty =>
    right
    intro raw hraw
    exact Classical.byContradiction fun hb => scans_nonempty hs₁ ⟨raw, hraw, hb⟩ rfl
  | prim => simp at hT
  | @array line rest _ h t _ _ _ ha => subst hT; cases ha
  | @object line rest rest₁ _ e es hno he hb =>
    simp only [ETree.obj.injEq] at hT
    subst hT
    left
    refine ⟨_, _, r, hsj, ?_, hr⟩
    have hL : ∀ l ∈ rest, l ∈ line :: rest := fun l hl => by simp [hl]
    have hu' := map_shift_unindented (k := s₁.length) hu
    obtain ⟨h1, h2⟩ := (join_all (F := F) hf (ls₂.map (Line.shift s₁.length)) strict rest.length).1 (Nat.le_refl _) hL he
    have h3 := join_root hf (fun l hl => hL l (h1.subset hl)) hu' hb hb₂
    have h4 := h2 (.inr hu')
    simp only [List.map_id] at h3 h4
    rw [List.cons_append, List.cons_append]
    exact .object hno h4 h3

/-- An array, or a text with unread lines: what follows is not read. -/
theorem reads_lost {i : Nat} {strict : Bool} {s₁ s₂ : List Str} {t : ETree F} {u : Nat} {ls₂ : List Line} {bs₂ : List Nat}
    (h₁ : ReadsTo i strict s₁ t u) (h₂ : ScansTo i strict 0 s₂ ls₂ bs₂)
    (h : 0 < u ∨ (∃ n ts, t = .arr n ts) ∧ StartsAtMargin s₂) : ReadsTo i strict (s₁ ++ s₂) t (u + ls₂.length) := by
  obtain ⟨ls₁, bs₁, r₁, hs₁, hd₁, hr₁⟩ := h₁
  have hsh := scans_shift s₁.length h₂
  rw [Nat.zero_add] at hsh
  have hsj := scans_join hs₁ (by rw [Nat.zero_add]; exact hsh)
  have hf := renumbers_first hs₁ hsh
  refine ⟨_, _, r₁ ++ ls₂.map (Line.shift s₁.length), hsj, ?_, by simp [hr₁]⟩
  have hne : r₁ ≠ [] ∨ (∃ n ts, t = .arr n ts) ∧ Unindented (ls₂.map (Line.shift s₁.length)) := by
    rcases h with h | ⟨h, h'⟩
    · left; rintro rfl; simp at hr₁; omega
    · exact .inr ⟨h, map_shift_unindented (scans_margin h₂ h')⟩
  cases hd₁ with
  | empty => rcases hne with hne | ⟨⟨n, ts, hne⟩, _⟩ <;> simp at hne
  | prim => rcases hne with hne | ⟨⟨n, ts, hne⟩, _⟩ <;> simp at hne
  | @array line rest _ hd t h1 h2 h3 ha =>
    have hL : ∀ l ∈ rest, l ∈ line :: rest := fun l hl => by simp [hl]
    have h4 := ((join_all (F := F) hf (ls₂.map (Line.shift s₁.length)) strict rest.length).2.2.1 (Nat.le_refl _) hL ha).2
      (hne.imp id (·.2))
    simp only [List.map_id] at h4
    exact .array h1 h2 h3 h4
  | @object line rest rest₁ _ e es hno he hb =>
    have hne : r₁ ≠ [] := by
      rcases hne with hne | ⟨⟨n, ts, hne⟩, _⟩
      · exact hne
      · simp at hne
    have hL : ∀ l ∈ rest, l ∈ line :: rest := fun l hl => by simp [hl]
    obtain ⟨k1, k2⟩ := (join_all (F := F) hf (ls₂.map (Line.shift s₁.length)) strict rest.length).1 (Nat.le_refl _) hL he
    obtain ⟨k3, k4⟩ := (join_all (F := F) hf (ls₂.map (Line.shift s₁.length)) strict rest.length).2.1 k1.length_le
      (fun l hl => hL l (k1.subset hl)) hb
    have h3 := k2 (.inl (suffix_ne k3 hne))
    have h4 := k4 (.inl hne)
    simp only [List.map_id] at h3 h4
    exact .object hno h3 h4

/-- A lone primitive: nothing may follow. -/
theorem reads_primitive {i : Nat} {strict : Bool} {s₁ s₂ : List Str} {p : Prim F} {t' : ETree F}
    (h₁ : TextMeans i strict s₁ (.prim p)) (hb : ∃ raw ∈ s₂, ¬ BlankLine raw) : ¬ TextMeans i strict (s₁ ++ s₂) t' := by
  rintro ⟨ls, bs, r, hs, hd⟩
  obtain ⟨ls₁, bs₁, r₁, hs₁, hd₁⟩ := h₁
  obtain ⟨la, ba, lb, bb, rfl, rfl, h1, h2⟩ := scans_append hs
  obtain ⟨rfl, rfl⟩ := scans_unique hs₁ h1
  have hne := scans_nonempty h2 hb
  generalize hT : ETree.prim p = T at hd₁
  cases hd₁ with
  | empty => simp at hT
  | object => simp at hT
  | array _ _ _ ha => subst hT; cases ha
  | @prim line p' hq ht =>
    generalize hR : [line] ++ lb = R at hd
    cases hd with
    | empty => simp at hR
    | array hv' hcol' _ _ =>
      simp only [List.singleton_append, List.cons.injEq] at hR
      obtain ⟨rfl, _⟩ := hR
      exact (prim_noRoot hq hv' hcol').elim
    | prim _ _ =>
      simp only [List.singleton_append, List.cons.injEq] at hR
      exact hne hR.2
    | object _ he' _ =>
      simp only [List.singleton_append, List.cons.injEq] at hR
      obtain ⟨rfl, _⟩ := hR
      have h1 := (token_line _ p' ht).mpr hq
      rw [entry_keyValueLine he'] at h1
      simp at h1

end

end Toon
