import Verif.Lemmas.FaultComplete
import Verif.Lemmas.GrammarRoot

/-! The whole document: the decoder fails exactly with the first fault. -/

namespace Toon

theorem loneToken_iff (content : Str) : isKeyValueLine content = false ↔ LoneToken content := by
  unfold isKeyValueLine
  by_cases hq : content.head? = some '"'
  · rw [if_pos hq]
    cases content with
    | nil => simp at hq
    | cons x c =>
      simp only [List.head?_cons, Option.some.injEq] at hq
      subst hq
      cases hf : findClosingQuote ('"' :: c) 0 with
      | none => simp only [true_iff]; exact .unclosed ((findClosing_none c).mp hf)
      | some k =>
        obtain ⟨body, rest, h1, h2, h3⟩ := (findClosingQuote_iff c k).mp hf
        subst h1 h2
        have hd : ('"' :: (body ++ '"' :: rest)).drop (body.length + 1 + 1) = rest := by simp
        simp only [hd]
        constructor
        · intro h
          exact .quoted h3 (fun hm => by rw [List.contains_iff_mem.mpr hm] at h; simp at h)
        · intro h
          apply Bool.eq_false_iff.mpr
          intro hh
          generalize hg : '"' :: (body ++ '"' :: rest) = g at h
          cases h with
          | bare h1 _ => exact h1 (by rw [← hg]; rfl)
          | @quoted body' rest' h1 h2 =>
            simp only [List.cons_append, List.cons.injEq, true_and] at hg
            obtain ⟨_, rfl⟩ := closing_unique h3 h1 hg
            exact h2 (by simpa using hh)
          | unclosed h1 =>
            simp only [List.cons.injEq, true_and] at hg
            exact (neverClosed_iff _).mp h1 ⟨body, rest, hg.symm, h3⟩
  · rw [if_neg hq]
    constructor
    · intro h
      exact .bare hq (fun hm => by rw [List.contains_iff_mem.mpr hm] at h; simp at h)
    · intro h
      apply Bool.eq_false_iff.mpr
      intro hh
      cases h with
      | bare _ h2 => exact h2 (by simpa using hh)
      | quoted _ _ => exact hq rfl
      | unclosed _ => exact hq rfl

theorem rootHeader_error {content : Str} {e : Err} : rootHeader content = .error e ↔
    VisibleFirst '[' content ∧ HasColon content ∧ HeaderFault content e := by
  unfold rootHeader
  by_cases hh : isArrayHeaderContent content = true
  · rw [if_pos hh, header_error]
    obtain ⟨h1, h2⟩ := (isArrayHeaderContent_iff _).mp hh
    exact ⟨fun h => ⟨h1, h2, h⟩, fun h => h.2.2⟩
  · rw [if_neg hh]
    exact ⟨fun h => by simp at h, fun h => absurd ((isArrayHeaderContent_iff _).mpr ⟨h.1, h.2.1⟩) hh⟩

theorem loneToken_noRoot {content : Str} (h : LoneToken content) : rootHeader content = .ok none := by
  rw [rootHeader_none]
  intro hv hcol
  exfalso
  have quote : ∀ c, ¬ VisibleFirst '[' ('"' :: c) := by
    rintro c ⟨ws, r, hb, e⟩
    cases ws with
    | nil => simp at e
    | cons c ws => simp at e; exact absurd (hb c (by simp)) (by rw [← e.1]; decide)
  cases h with
  | bare _ h => obtain ⟨a, b, e, _⟩ := hcol; exact h (by rw [e]; simp)
  | quoted _ _ => exact quote _ hv
  | unclosed _ => exact quote _ hv

section
variable {F : Type} [F64 F]

theorem rootLoop_error_sound (ctx : Ctx) : ∀ fuel cur e, e ≠ .fuel → rootLoop (F := F) ctx fuel cur = .error e →
    BlockFails F ctx.strict ctx.blanks false 0 cur.rest e := by
  intro fuel
  induction fuel with
  | zero => intro cur e hne h; rw [rootLoop] at h; simp at h; exact absurd h.symm hne
  | succ fuel ih =>
    intro cur e hne h
    rw [rootLoop] at h
    cases hR : cur.rest with
    | nil => rw [hR] at h; simp at h
    | cons line rest =>
      rw [hR] at h
      simp only at h
      split at h
      · simp at h
      · rename_i hd
        have hd' : line.depth = 0 := by simpa using hd
        rcases bind_error.mp h with h1 | ⟨⟨evs1, cur1⟩, h1, h⟩
        · exact .here hd' (by simp) ((faultSound ctx fuel).kv _ ⟨rest, some line⟩ _ _ hne h1)
        · obtain ⟨⟨k, q, t, he, rfl⟩, _⟩ := (soundClaims ctx fuel).kv _ _ _ _ _ h1
          rcases bind_error.mp h with h2 | ⟨_, _, h⟩
          · exact .later hd' (by simp) he (ih _ _ hne h2)
          · simp [pure, Except.pure] at h

theorem rootLoop_error_complete (ctx : Ctx) : ∀ fuel cur e, BlockFails F ctx.strict ctx.blanks false 0 cur.rest e →
    Bad (rootLoop (F := F) ctx fuel cur) e := by
  intro fuel
  induction fuel with
  | zero => intros; exact Or.inl (by rw [rootLoop])
  | succ fuel ih =>
    intro cur e h
    rw [rootLoop]
    generalize hR : cur.rest = R at h
    cases h with
    | @here _ _ line rest _ hd _ hf =>
      simp only
      rw [if_neg (by simpa using hd)]
      exact Bad.bind _ ((faultComplete ctx fuel).kv _ ⟨rest, some line⟩ _ _ hf)
    | @later _ _ line rest rest₁ entry _ hd _ he hf =>
      simp only
      rw [if_neg (by simpa using hd)]
      refine bad_done _ ((completeClaims ctx fuel).kv line.content ⟨rest, some line⟩ 0 entry rest₁ he) fun last => ?_
      exact Bad.bind _ (ih ⟨rest₁, last⟩ e hf)

theorem decodeLines_error [LawfulF64 F] (ctx : Ctx) (lines : List Line) (e : Err) :
    decodeLines (F := F) ctx lines = .error e ↔ DocumentFails F ctx.strict ctx.blanks lines e := by
  have hnf := nf_decodeLines (F := F) ctx lines
  constructor
  · intro h
    have hne : e ≠ .fuel := by rintro rfl; exact hnf h
    clear hnf
    unfold decodeLines at h
    cases lines with
    | nil => simp at h
    | cons first rest =>
      simp only at h
      replace h := bind_error.mp h
      rcases h with hr | ⟨hdr, hr, h⟩
      · obtain ⟨h1, h2, h3⟩ := rootHeader_error.mp hr
        exact .header h1 h2 h3
      · cases hdr with
        | some hd =>
          simp only at h
          obtain ⟨h1, h2, h3⟩ := rootHeader_some.mp hr
          rcases bind_error.mp h with ha | ⟨_, _, h⟩
          · exact .array h1 h2 h3 ((faultSound ctx _).array _ ⟨rest, some first⟩ _ _ hne (headerMeans_good h3) ha)
          · simp [pure, Except.pure] at h
        | none =>
          simp only at h
          have hn := rootHeader_none.mp hr
          split at h
          · rename_i hc
            simp only [Bool.and_eq_true, List.isEmpty_iff, Bool.not_eq_true'] at hc
            obtain ⟨rfl, hc⟩ := hc
            rcases bind_error.mp h with hp | ⟨_, _, h⟩
            · rw [primitive_error, trim_trim] at hp
              exact .token ((loneToken_iff _).mp hc) hp
            · simp [pure, Except.pure] at h
          · rename_i hc
            rcases bind_error.mp h with h1 | ⟨⟨evs1, cur1⟩, h1, h⟩
            · refine .entry hn ?_ ((faultSound ctx _).kv _ ⟨rest, some first⟩ _ _ hne h1)
              rintro rfl hl
              exact hc (by rw [(loneToken_iff _).mpr hl]; rfl)
            · obtain ⟨⟨k, q, t, he, rfl⟩, _⟩ := (soundClaims ctx _).kv _ _ _ _ _ h1
              rcases bind_error.mp h with h2 | ⟨_, _, h⟩
              · exact .block hn he (rootLoop_error_sound ctx _ _ _ hne h2)
              · simp [pure, Except.pure] at h
  · intro h
    have fuelless : Bad (decodeLines (F := F) ctx lines) e → decodeLines (F := F) ctx lines = .error e := by
      rintro (h | h)
      · exact absurd h hnf
      · exact h
    apply fuelless
    clear fuelless hnf
    unfold decodeLines
    cases h with
    | header h1 h2 h3 => exact Bad.bind _ (.here (rootHeader_error.mpr ⟨h1, h2, h3⟩))
    | @array line rest hd _ h1 h2 h3 ha =>
      refine bad_ok _ (rootHeader_some.mpr ⟨h1, h2, h3⟩) ?_
      exact Bad.bind _ ((faultComplete ctx _).array hd ⟨rest, some line⟩ 0 e (headerMeans_good h3) ha)
    | token hl hf =>
      refine bad_ok _ (loneToken_noRoot hl) ?_
      simp only
      rw [if_pos (by rw [(loneToken_iff _).mpr hl]; rfl)]
      exact Bad.bind _ (.here ((primitive_error _ _).mpr (by rw [trim_trim]; exact hf)))
    | @entry line rest _ hn hl hf =>
      refine bad_ok _ (rootHeader_none.mpr hn) ?_
      simp only
      rw [if_neg]
      · exact Bad.bind _ ((faultComplete ctx _).kv _ ⟨rest, some line⟩ _ _ hf)
      · intro hc
        simp only [Bool.and_eq_true, List.isEmpty_iff, Bool.not_eq_true'] at hc
        exact hl hc.1 ((loneToken_iff _).mp hc.2)
    | @block line rest rest₁ entry _ hn he hb =>
      refine bad_ok _ (rootHeader_none.mpr hn) ?_
      simp only
      rw [if_neg (by rw [entry_keyValueLine he]; simp)]
      refine bad_done _ ((completeClaims ctx _).kv line.content ⟨rest, some line⟩ 0 entry rest₁ he) fun last => ?_
      exact Bad.bind _ (rootLoop_error_complete ctx _ ⟨rest₁, last⟩ _ hb)

theorem decodeStream_error [LawfulF64 F] (indent : Nat) (strict : Bool) (source : List Str) (e : Err) :
    decodeStream (F := F) indent strict source = .error e ↔ TextFails F strict indent source e := by
  unfold decodeStream
  constructor
  · intro h
    rcases bind_error.mp h with h | ⟨⟨lines, blanks⟩, h1, h⟩
    · obtain ⟨h1, h2⟩ := (scanFails_iff _ _ _ _).mp h
      exact .scan h1 h2
    · exact .document ((scansTo_iff _ _ _ _ _ _).mp h1) ((decodeLines_error _ _ _).mp h)
  · intro h
    refine bind_error.mpr ?_
    cases h with
    | scan h1 h2 => exact Or.inl ((scanFails_iff _ _ _ _).mpr ⟨h1, h2⟩)
    | @document lines blanks _ hs hd =>
      exact Or.inr ⟨(lines, blanks), (scansTo_iff _ _ _ _ _ _).mpr hs, (decodeLines_error ⟨strict, blanks⟩ _ _).mpr hd⟩

end

end Toon
