import Verif.Lemmas.Salvage
import Verif.Lemmas.FaultLeaves
import Verif.Lemmas.ResourcesTable
import Verif.Spec.Script

/-! The parts of a line of a script: words, cells, keys and headers. -/

namespace Toon

/-! ## Spaces and quotes -/

theorem spaces_ws (n : Nat) : (List.replicate n ' ').all isWs = true := by
  rw [List.all_eq_true]
  intro c hc
  rw [List.eq_of_mem_replicate hc]
  decide

theorem Visible.noEdge {t : Str} (h : Visible t) : NoEdgeWs t := ⟨h.2.2.1, h.2.2.2⟩

theorem Visible.trim_written {w : Padded} (h : Visible w.text) : trim w.written = w.text :=
  trim_pad h.noEdge (spaces_ws _) (spaces_ws _)

theorem Padded.mem_written {w : Padded} {c : Char} (hc : c ≠ ' ') : c ∈ w.written ↔ c ∈ w.text := by
  have : ∀ n, c ∉ List.replicate n ' ' := fun n h => hc (List.eq_of_mem_replicate h)
  simp [Padded.written, this]

theorem Visible.notBlank {t : Str} (h : Visible t) : ¬ BlankLine t := by
  intro hb
  cases t with
  | nil => exact h.1 rfl
  | cons c t =>
    have h1 := h.2.2.1 c rfl
    have h2 := hb c (by simp)
    rw [h1] at h2
    exact absurd h2 (by simp)

theorem Visible.written_notBlank {w : Padded} (h : Visible w.text) : ¬ BlankLine w.written := by
  intro hb
  rw [blank_trim, h.trim_written] at hb
  exact h.1 hb

theorem literal_state {body : Str} (h : LiteralBody body) : quoteState ('"' :: body ++ ['"']) = .out := by
  unfold quoteState
  rw [List.cons_append, List.foldl_cons, List.foldl_append]
  rw [show QState.step .out '"' = .inside from rfl, h.1]
  rfl

/-- Nothing inside a literal is outside quotes. -/
theorem literal_noCut {d : Char} (hd : d ≠ '"') {body : Str} (h : LiteralBody body) : NoCut d ('"' :: body ++ ['"']) := by
  intro a b he
  cases a with
  | nil => simp at he; exact absurd he.1.symm hd
  | cons x a =>
    simp only [List.cons_append, List.cons.injEq] at he
    obtain ⟨rfl, he⟩ := he
    unfold quoteState
    rw [List.foldl_cons, show QState.step .out '"' = .inside from rfl]
    rcases List.append_eq_append_iff.mp he with ⟨c, h1, h2⟩ | ⟨c, h1, h2⟩
    · cases c with
      | nil => simp at h2; exact absurd h2.1.symm hd
      | cons y c => simp at h2
    · exact h.2 a c h1

theorem state_append_out {a b : Str} (h : quoteState a = .out) : quoteState (a ++ b) = quoteState b := by
  unfold quoteState at h ⊢
  rw [List.foldl_append, h]

theorem state_spaces (n : Nat) : quoteState (List.replicate n ' ') = .out :=
  quoteState_plain (by intro h; have := List.eq_of_mem_replicate h; exact absurd this (by decide))

theorem CellText.state {d : Char} {t : Str} (h : CellText d t) : quoteState t = .out := by
  rcases h with ⟨body, s, rfl, hq⟩ | ⟨h, _⟩
  · exact literal_state (quotedDenotes_literal hq)
  · exact quoteState_plain h

theorem CellText.noCut {d : Char} (hd : d ≠ '"') {t : Str} (h : CellText d t) : NoCut d t := by
  rcases h with ⟨body, s, rfl, hq⟩ | ⟨_, h⟩
  · exact literal_noCut hd (quotedDenotes_literal hq)
  · intro a b he
    exact absurd (by rw [he]; simp) h

theorem CellText.written_state {d : Char} {w : Padded} (h : CellText d w.text) : quoteState w.written = .out := by
  rw [Padded.written, List.append_assoc, state_append_out (state_spaces _), state_append_out h.state, state_spaces]

theorem noCut_append {d : Char} {a b : Str} (ha : NoCut d a) (hs : quoteState a = .out) (hb : NoCut d b) : NoCut d (a ++ b) := by
  intro x y he
  rcases List.append_eq_append_iff.mp he with ⟨c, h1, h2⟩ | ⟨c, h1, h2⟩
  · rw [h1, state_append_out hs]
    exact hb c y h2
  · cases c with
    | nil =>
      rw [List.append_nil] at h1
      simp only [List.nil_append] at h2
      rw [← h1, hs]
      have := hb [] y h2.symm
      exact absurd rfl this
    | cons z c =>
      simp only [List.cons_append, List.cons.injEq] at h2
      obtain ⟨rfl, _⟩ := h2
      exact ha x c h1

theorem noCut_spaces {d : Char} (hd : d ≠ ' ') (n : Nat) : NoCut d (List.replicate n ' ') := by
  intro a b he
  have : d ∈ List.replicate n ' ' := by rw [he]; simp
  exact absurd (List.eq_of_mem_replicate this) hd

theorem CellText.written_noCut {d : Char} (hd : d ≠ '"') (hs : d ≠ ' ') {w : Padded} (h : CellText d w.text) : NoCut d w.written := by
  refine noCut_append (noCut_append (noCut_spaces hs _) (state_spaces _) (h.noCut hd)) ?_ (noCut_spaces hs _)
  rw [state_append_out (state_spaces _), h.state]

/-! ## Cells -/

theorem goodDelim_ne_space {d : Char} (hd : GoodDelim d) : d ≠ ' ' := by
  rcases hd with rfl | rfl | rfl <;> decide

theorem splits_words {d : Char} (hd : GoodDelim d) : ∀ {ws : List Padded}, ws ≠ [] → (∀ w ∈ ws, CellText d w.text) →
    SplitsInto d (separated d (ws.map Padded.written)) (ws.map Padded.written)
  | [w], _, h => .last ((h w (by simp)).written_noCut (goodDelim_ne_quote hd) (goodDelim_ne_space hd))
  | w :: w' :: ws, _, h =>
    .cut ((h w (by simp)).written_noCut (goodDelim_ne_quote hd) (goodDelim_ne_space hd)) (h w (by simp)).written_state
      (splits_words hd (by simp) (fun x hx => h x (List.mem_cons_of_mem _ hx)))

theorem state_words {d : Char} (hd : GoodDelim d) : ∀ {ws : List Padded}, (∀ w ∈ ws, CellText d w.text) →
    quoteState (separated d (ws.map Padded.written)) = .out
  | [], _ => rfl
  | [w], h => (h w (by simp)).written_state
  | w :: w' :: ws, h => by
    rw [show separated d ((w :: w' :: ws).map Padded.written) = w.written ++ ([d] ++ separated d ((w' :: ws).map Padded.written)) from rfl]
    rw [state_append_out (h w (by simp)).written_state, state_append_out]
    · exact state_words hd (fun x hx => h x (List.mem_cons_of_mem _ hx))
    · exact quoteState_plain (by simp [Ne.symm (goodDelim_ne_quote hd)])

theorem words_ne_nil {d : Char} : ∀ {ws : List Padded}, ws ≠ [] → (∀ w ∈ ws, Visible w.text) → separated d (ws.map Padded.written) ≠ []
  | [w], _, h => by
    intro he
    have : w.written = [] := he
    exact (h w (by simp)).written_notBlank (by rw [this]; intro c hc; simp at hc)
  | w :: w' :: ws, _, _ => by
    rw [show separated d ((w :: w' :: ws).map Padded.written) = w.written ++ d :: separated d ((w' :: ws).map Padded.written) from rfl]
    simp

theorem cells_words {d : Char} (hd : GoodDelim d) {ws : List Padded} (hne : ws ≠ []) (h : ∀ w ∈ ws, Visible w.text ∧ CellText d w.text) :
    Cells d (separated d (ws.map Padded.written)) (ws.map Padded.text) := by
  refine Or.inr ⟨words_ne_nil hne (fun w hw => (h w hw).1), _, splits_words hd hne (fun w hw => (h w hw).2), ?_⟩
  rw [List.map_map]
  apply List.map_congr_left
  intro w hw
  exact (h w hw).1.trim_written.symm

/-- The first word without the spaces before it. -/
def stripFirst : List Padded → List Padded
  | [] => []
  | w :: ws => { w with before := 0 } :: ws

/-- The last word without the spaces after it. -/
def stripLast : List Padded → List Padded
  | [] => []
  | [w] => [{ w with after := 0 }]
  | w :: ws => w :: stripLast ws

theorem stripFirst_text (ws : List Padded) : (stripFirst ws).map Padded.text = ws.map Padded.text := by
  cases ws <;> rfl

theorem stripLast_text (ws : List Padded) : (stripLast ws).map Padded.text = ws.map Padded.text := by
  fun_induction stripLast ws with
  | case1 => rfl
  | case2 w => rfl
  | case3 w ws hws ih => simp [ih]

theorem stripLast_ne {ws : List Padded} (h : ws ≠ []) : stripLast ws ≠ [] := by
  cases ws with
  | nil => exact absurd rfl h
  | cons w ws => cases ws <;> simp [stripLast]

theorem separated_first (d : Char) (ws : List Padded) : ∃ n, separated d (ws.map Padded.written) =
    List.replicate n ' ' ++ separated d ((stripFirst ws).map Padded.written) := by
  cases ws with
  | nil => exact ⟨0, rfl⟩
  | cons w ws =>
    refine ⟨w.before, ?_⟩
    cases ws with
    | nil => simp [separated, stripFirst, Padded.written]
    | cons w' ws => simp [separated, stripFirst, Padded.written]

theorem separated_last (d : Char) : ∀ ws : List Padded, ∃ n, separated d (ws.map Padded.written) =
    separated d ((stripLast ws).map Padded.written) ++ List.replicate n ' '
  | [] => ⟨0, rfl⟩
  | [w] => ⟨w.after, by simp [separated, stripLast, Padded.written]⟩
  | w :: w' :: ws => by
    obtain ⟨n, h⟩ := separated_last d (w' :: ws)
    refine ⟨n, ?_⟩
    have hne := stripLast_ne (ws := w' :: ws) (by simp)
    rw [show separated d ((w :: w' :: ws).map Padded.written) = w.written ++ d :: separated d ((w' :: ws).map Padded.written) from rfl, h,
      show stripLast (w :: w' :: ws) = w :: stripLast (w' :: ws) from rfl]
    cases he : stripLast (w' :: ws) with
    | nil => exact absurd he hne
    | cons x xs => simp [separated]

theorem head_separated {d : Char} {ws : List Padded} {w : Padded} (hw : ws.head? = some w) (h0 : w.before = 0) (hne : w.text ≠ []) :
    (separated d (ws.map Padded.written)).head? = w.text.head? := by
  cases ws with
  | nil => simp at hw
  | cons x xs =>
    simp at hw
    subst hw
    cases ht : x.text with
    | nil => exact absurd ht hne
    | cons c t =>
      cases xs <;> simp [separated, Padded.written, h0, ht]

theorem last_separated {d : Char} : ∀ {ws : List Padded}, ws ≠ [] → (∀ w ∈ ws, Visible w.text) →
    ∀ c, (separated d ((stripLast ws).map Padded.written)).getLast? = some c → isWs c = false
  | [w], _, h, c, hc => by
    simp only [stripLast, separated, List.map_cons, List.map_nil, Padded.written, List.replicate_zero, List.append_nil] at hc
    have hv := h w (by simp)
    rw [List.getLast?_append] at hc
    cases hl : w.text.getLast? with
    | none => exact absurd (List.getLast?_eq_none_iff.mp hl) hv.1
    | some x =>
      rw [hl] at hc
      simp at hc
      subst hc
      exact hv.2.2.2 _ hl
  | w :: w' :: ws, _, h, c, hc => by
    have ih := last_separated (d := d) (ws := w' :: ws) (by simp) (fun x hx => h x (List.mem_cons_of_mem _ hx))
    rw [show stripLast (w :: w' :: ws) = w :: stripLast (w' :: ws) from rfl] at hc
    have hne := stripLast_ne (ws := w' :: ws) (by simp)
    cases he : stripLast (w' :: ws) with
    | nil => exact absurd he hne
    | cons x xs =>
      rw [he] at ih hc
      rw [show separated d ((w :: x :: xs).map Padded.written) = w.written ++ d :: separated d ((x :: xs).map Padded.written) from rfl,
        List.getLast?_append, List.getLast?_cons] at hc
      cases hl : (separated d ((x :: xs).map Padded.written)).getLast? with
      | none =>
        have hsn : separated d ((x :: xs).map Padded.written) = [] := List.getLast?_eq_none_iff.mp hl
        have : ∀ y ∈ x :: xs, Visible y.text := by
          intro y hy
          have hm : y.text ∈ (w' :: ws).map Padded.text := by
            rw [← stripLast_text, he]
            exact List.mem_map_of_mem hy
          obtain ⟨z, hz, hzt⟩ := List.mem_map.mp hm
          rw [← hzt]
          exact h z (List.mem_cons_of_mem _ hz)
        exact absurd hsn (words_ne_nil (by simp) this)
      | some y =>
        rw [hl] at hc
        simp at hc
        subst hc
        exact ih _ hl

theorem stripFirst_mem_text {ws : List Padded} {P : Str → Prop} (h : ∀ w ∈ ws, P w.text) : ∀ w ∈ stripFirst ws, P w.text := by
  intro w hw
  have : w.text ∈ ws.map Padded.text := by rw [← stripFirst_text]; exact List.mem_map_of_mem hw
  obtain ⟨z, hz, hzt⟩ := List.mem_map.mp this
  rw [← hzt]
  exact h z hz

theorem stripLast_mem_text {ws : List Padded} {P : Str → Prop} (h : ∀ w ∈ ws, P w.text) : ∀ w ∈ stripLast ws, P w.text := by
  intro w hw
  have : w.text ∈ ws.map Padded.text := by rw [← stripLast_text]; exact List.mem_map_of_mem hw
  obtain ⟨z, hz, hzt⟩ := List.mem_map.mp this
  rw [← hzt]
  exact h z hz

theorem stripFirst_ne {ws : List Padded} (h : ws ≠ []) : stripFirst ws ≠ [] := by
  cases ws with
  | nil => exact absurd rfl h
  | cons w ws => simp [stripFirst]

theorem head_stripLast (d : Char) {ws : List Padded} (hne : ws ≠ []) (h : ∀ w ∈ ws, Visible w.text) :
    ∀ c, (separated d ((stripLast (stripFirst ws)).map Padded.written)).head? = some c → isWs c = false := by
  intro c hc
  cases ws with
  | nil => exact absurd rfl hne
  | cons w ws =>
    have hv := h w (by simp)
    have : ∃ x, (stripLast (stripFirst (w :: ws))).head? = some x ∧ x.before = 0 ∧ x.text = w.text := by
      cases ws <;> exact ⟨_, rfl, rfl, rfl⟩
    obtain ⟨x, h1, h2, h3⟩ := this
    rw [head_separated h1 h2 (by rw [h3]; exact hv.1), h3] at hc
    exact hv.2.2.1 c hc

/-- Trimming the text between the colon and the end of the line does not change the cells. -/
theorem trim_words {d : Char} (hd : GoodDelim d) {ws : List Padded} (hne : ws ≠ []) (h : ∀ w ∈ ws, Visible w.text ∧ CellText d w.text) :
    ¬ BlankLine (separated d (ws.map Padded.written)) ∧
    Cells d (trim (separated d (ws.map Padded.written))) (ws.map Padded.text) := by
  obtain ⟨n, h1⟩ := separated_first d ws
  obtain ⟨m, h2⟩ := separated_last d (stripFirst ws)
  have hV : ∀ w ∈ ws, Visible w.text := fun w hw => (h w hw).1
  have hedge : NoEdgeWs (separated d ((stripLast (stripFirst ws)).map Padded.written)) :=
    ⟨head_stripLast d hne hV, last_separated (stripFirst_ne hne) (stripFirst_mem_text hV)⟩
  have ht : trim (separated d (ws.map Padded.written)) = separated d ((stripLast (stripFirst ws)).map Padded.written) := by
    rw [h1, h2, ← List.append_assoc]
    exact trim_pad hedge (spaces_ws _) (spaces_ws _)
  have hc := cells_words hd (stripLast_ne (stripFirst_ne hne))
    (stripLast_mem_text (P := fun t => Visible t ∧ CellText d t) (stripFirst_mem_text (P := fun t => Visible t ∧ CellText d t) h))
  rw [stripLast_text, stripFirst_text] at hc
  refine ⟨?_, by rw [ht]; exact hc⟩
  rw [blank_trim, ht]
  exact words_ne_nil (stripLast_ne (stripFirst_ne hne)) (stripLast_mem_text (stripFirst_mem_text hV))

/-! ## Keys -/

theorem Key.Right.cases {k : Key} (h : k.Right) :
    (∃ body, k.text = '"' :: body ++ ['"'] ∧ QuotedDenotes body k.name ∧ '\n' ∉ body) ∨
    (∃ c t, k.text = c :: t ∧ isWs c = false ∧ c ≠ '-' ∧ c ≠ '"' ∧ c ≠ '[' ∧ '"' ∉ k.text ∧ ':' ∉ k.text ∧ '[' ∉ k.text ∧ '\n' ∉ k.text ∧
      trim k.text = k.name ∧ k.name ≠ [] ∧ k.name.head? ≠ some '"') := by
  cases h with
  | quoted h1 h2 => exact Or.inl ⟨_, rfl, h1, h2⟩
  | @bare name n hv h1 h2 h3 h4 =>
    right
    have hsp : ∀ c : Char, c ≠ ' ' → c ∉ List.replicate n ' ' := fun c hc h => hc (List.eq_of_mem_replicate h)
    cases name with
    | nil => exact absurd rfl hv.1
    | cons c t =>
      simp only [List.head?_cons, ne_eq, Option.some.injEq, List.mem_cons, not_or] at h1 h2 h3 h4
      have hlf := hv.2.1
      simp only [List.mem_cons, not_or] at hlf
      refine ⟨c, t ++ List.replicate n ' ', rfl, hv.2.2.1 c rfl, h1, fun e => h2.1 e.symm, fun e => h4.1 e.symm, ?_, ?_, ?_, ?_, ?_, by simp, ?_⟩
      · simp [h2, hsp '"' (by decide)]
      · simp [h3, hsp ':' (by decide)]
      · simp [h4, hsp '[' (by decide)]
      · simp [hlf, hsp '\n' (by decide)]
      · have := trim_pad (w := []) hv.noEdge (by rfl) (spaces_ws n)
        simpa using this
      · simp only [List.head?_cons, ne_eq, Option.some.injEq]
        exact fun e => h2.1 e.symm

theorem visibleFirst_cons {c x : Char} {t : Str} (hx : isWs x = false) (h : VisibleFirst c (x :: t)) : c = x := by
  obtain ⟨ws, rest, hb, he⟩ := h
  cases ws with
  | nil => simp at he; exact he.1.symm
  | cons w ws =>
    simp only [List.cons_append, List.cons.injEq] at he
    have := hb w (by simp)
    rw [← he.1, hx] at this
    exact absurd this (by simp)

/-- The first character is visible, no hyphen and no bracket. -/
theorem Key.Right.first {k : Key} (h : k.Right) : ∃ c t, k.text = c :: t ∧ isWs c = false ∧ c ≠ '-' ∧ c ≠ '[' := by
  rcases h.cases with ⟨body, h1, _⟩ | ⟨c, t, h1, h2, h3, _, h4, _⟩
  · exact ⟨'"', body ++ ['"'], h1, by decide, by decide, by decide⟩
  · exact ⟨c, t, h1, h2, h3, h4⟩

theorem Key.Right.state {k : Key} (h : k.Right) : quoteState k.text = .out := by
  rcases h.cases with ⟨body, h1, h2, _⟩ | ⟨c, t, _, _, _, _, _, h1, _⟩
  · rw [h1]; exact literal_state (quotedDenotes_literal h2)
  · exact quoteState_plain h1

theorem Key.Right.lf {k : Key} (h : k.Right) : '\n' ∉ k.text := by
  rcases h.cases with ⟨body, h1, _, h2⟩ | ⟨c, t, _, _, _, _, _, _, _, _, h1, _⟩
  · rw [h1]; simp [h2]
  · exact h1

/-- A line with a key is no header if there is no bracket after the key, or no colon in what follows. -/
theorem Key.Right.noHeader {k : Key} (h : k.Right) {W : Str} (hW : k.text.head? = some '"' ∨ '[' ∉ W ∨ ':' ∉ W) :
    NoHeader (k.text ++ ':' :: W) := by
  rcases h.cases with ⟨body, h1, h2, _⟩ | ⟨c, t, h1, h2, _, hq, _, _, _, hbr, _⟩
  · have hlit := quotedDenotes_literal h2
    rw [h1]
    refine ⟨fun _ => ⟨[], body, ':' :: W, by intro c hc; simp at hc, hlit, by simp⟩, ?_⟩
    rintro pre seg cols after ⟨rest, hb, _, _⟩
    exfalso
    generalize hX : seg ++ ']' :: rest = X at hb
    generalize hC : '"' :: body ++ ['"'] ++ ':' :: W = C at hb
    cases hb with
    | quoted hws hl =>
      rename_i ws body' 
      cases ws with
      | nil =>
        simp only [List.cons_append, List.append_assoc, List.nil_append, List.cons.injEq, true_and] at hC
        have := (closing_unique hlit hl hC).2
        simp at this
      | cons w ws =>
        simp only [List.cons_append, List.cons.injEq] at hC
        have := hws w (by simp)
        rw [← hC.1] at this
        exact absurd this (by decide)
    | bare hv _ =>
      apply hv
      rw [← hC]
      exact ⟨[], body ++ ['"'] ++ ':' :: W, by intro c hc; simp at hc, by simp⟩
  · have hnv : ¬ VisibleFirst '"' (k.text ++ ':' :: W) := by
      intro hv
      rw [h1, List.cons_append] at hv
      exact hq (visibleFirst_cons h2 hv).symm
    refine ⟨fun hv => absurd hv hnv, ?_⟩
    rintro pre seg cols after ⟨rest, hb, _, ha⟩
    exfalso
    generalize hX : seg ++ ']' :: rest = X at hb
    generalize hC : k.text ++ ':' :: W = C at hb
    cases hb with
    | quoted hws hl =>
      apply hnv
      rw [hC]
      rename_i ws body'
      exact ⟨ws, body' ++ '"' :: '[' :: X, hws, by simp⟩
    | bare _ _ =>
      have hcol : ':' ∈ rest := by cases ha <;> simp
      have hcol' : ':' ∈ X := by rw [← hX]; simp [hcol]
      have : ∃ a, W = a ++ '[' :: X := by
        rcases List.append_eq_append_iff.mp hC with ⟨a, e1, e2⟩ | ⟨a, e1, e2⟩
        · cases a with
          | nil => simp at e2
          | cons y a =>
            simp only [List.cons_append, List.cons.injEq] at e2
            exact ⟨a, e2.2⟩
        · cases a with
          | nil => simp at e2
          | cons y a =>
            simp only [List.cons_append, List.cons.injEq] at e2
            exact absurd (by rw [e1, ← e2.1]; simp) hbr
      obtain ⟨a, rfl⟩ := this
      rcases hW with hW | hW | hW
      · rw [h1] at hW
        simp at hW
        exact hq hW
      · exact hW (by simp)
      · exact hW (by simp [hcol'])

theorem Key.Right.keyLine {k : Key} (h : k.Right) (W : Str) : ∃ q, KeyLineMeans (k.text ++ ':' :: W) k.name q W := by
  rcases h.cases with ⟨body, h1, h2, _⟩ | ⟨c, t, h1, _, _, hq, _, _, hc, _, _, ht, _⟩
  · refine ⟨true, ?_⟩
    rw [h1]
    have := KeyLineMeans.quoted (after := W) h2
    simpa using this
  · refine ⟨false, ?_⟩
    rw [← ht]
    exact .bare hc (by rw [h1]; simp [hq])

/-! ## Headers -/

/-- The text before the bracket. -/
def keyBefore : Option Key → Str
  | none => []
  | some k => k.text

theorem before_bracket {key : Option Key} (hk : ∀ k, key = some k → k.Right) (rest : Str) :
    BeforeBracket (keyBefore key ++ '[' :: rest) (keyBefore key) rest ∧
      ∃ q, HeaderKey (keyBefore key) (key.map Key.name) q := by
  cases key with
  | none =>
    refine ⟨.bare ?_ (by simp [keyBefore]), false, .none (by intro c hc; simp [keyBefore] at hc)⟩
    intro hv
    exact absurd (visibleFirst_cons (by decide) hv) (by decide)
  | some k =>
    rcases (hk k rfl).cases with ⟨body, h1, h2, _⟩ | ⟨c, t, h1, h2, _, hq, _, _, _, hbr, _, ht, hne, hh⟩
    · have hlit := quotedDenotes_literal h2
      have hedge : NoEdgeWs ('"' :: body ++ ['"']) := by
        constructor
        · intro c hc; simp at hc; subst hc; decide
        · intro c hc; simp [List.getLast?_cons, List.getLast?_append] at hc; subst hc; decide
      refine ⟨?_, true, .quoted (by rw [keyBefore, h1, trim_eq_self hedge]) h2⟩
      rw [keyBefore, h1]
      have := BeforeBracket.quoted (ws := []) (rest := rest) (by intro c hc; simp at hc) hlit
      simpa using this
    · refine ⟨.bare ?_ hbr, false, ?_⟩
      · intro hv
        rw [keyBefore, h1, List.cons_append] at hv
        exact hq (visibleFirst_cons h2 hv).symm
      · have := HeaderKey.bare (pre := k.text) (by rw [ht]; exact hne) (by rw [ht]; exact hh)
        rw [ht] at this
        exact this

theorem lengthMeans_chars {len : Str} {n : Nat} {d : Char} (h : LengthMeans len n d) {c : Char} (hc : c ∈ len) :
    c = '+' ∨ c.isDigit = true ∨ c = '|' ∨ c = '\t' := by
  obtain ⟨plus, digits, mark, rfl, hp, hd, _, _, hm⟩ := h
  simp only [List.mem_append] at hc
  rcases hc with (hc | hc) | hc
  · rcases hp with rfl | rfl
    · simp at hc
    · simp at hc; exact Or.inl hc
  · exact Or.inr (Or.inl (hd.2 c hc))
  · rcases hm with ⟨rfl, _⟩ | ⟨rfl, _⟩ | ⟨rfl, _⟩ <;> simp at hc
    · exact Or.inr (Or.inr (Or.inl hc))
    · exact Or.inr (Or.inr (Or.inr hc))

theorem lengthMeans_not {len : Str} {n : Nat} {d : Char} (h : LengthMeans len n d) {c : Char}
    (hc : c ≠ '+' ∧ c.isDigit = false ∧ c ≠ '|' ∧ c ≠ '\t') : c ∉ len := by
  intro hm
  rcases lengthMeans_chars h hm with h | h | h | h
  · exact hc.1 h
  · rw [hc.2.1] at h; exact absurd h (by simp)
  · exact hc.2.2.1 h
  · exact hc.2.2.2 h

theorem header_plain {key : Option Key} (hk : ∀ k, key = some k → k.Right) {len : Str} {n : Nat} {d : Char} (hl : LengthMeans len n d)
    (hn : n ≤ 100000000) (after : Str) : ∃ h : Header, HeaderMeans (keyBefore key ++ '[' :: len ++ ']' :: ':' :: after) h ∧
      h.key = key.map Key.name ∧ h.length = n ∧ h.delim = d ∧ h.fields = none ∧
      (BlankLine after ∧ h.inline = none ∨ ¬ BlankLine after ∧ h.inline = some (trim after)) := by
  obtain ⟨hb, q, hq⟩ := before_bracket hk (len ++ ']' :: ':' :: after)
  have hshape : HeaderShape (keyBefore key ++ '[' :: len ++ ']' :: ':' :: after) (keyBefore key) len none after := by
    refine ⟨':' :: after, by simpa using hb, lengthMeans_not hl (by decide), ?_⟩
    exact .plain (u := []) (by simp) (by simp)
  by_cases ha : BlankLine after
  · exact ⟨⟨key.map Key.name, q, n, d, none, none⟩, ⟨_, _, _, _, hshape, hq, hl, hn, .none, Or.inl ⟨ha, rfl⟩⟩, rfl, rfl, rfl, rfl, Or.inl ⟨ha, rfl⟩⟩
  · exact ⟨⟨key.map Key.name, q, n, d, none, some (trim after)⟩, ⟨_, _, _, _, hshape, hq, hl, hn, .none, Or.inr ⟨ha, rfl⟩⟩, rfl, rfl, rfl, rfl,
      Or.inr ⟨ha, rfl⟩⟩

theorem columns_names {d : Char} : ∀ {cols : List Column}, (∀ c ∈ cols, c.Right d) →
    ∃ names : List FieldName, Pointwise NameMeans (cols.map fun c => c.word.text) names ∧ names.map (·.name) = cols.map Column.name
  | [], _ => ⟨[], .nil, rfl⟩
  | c :: cols, h => by
    obtain ⟨_, _, _, q, hq⟩ := h c (by simp)
    obtain ⟨names, h1, h2⟩ := columns_names (fun x hx => h x (List.mem_cons_of_mem _ hx))
    exact ⟨⟨c.name, q⟩ :: names, .cons hq h1, by simp [h2]⟩

theorem separated_mem {d x : Char} (ws : List Padded) (hx : x ≠ ' ') (h : x ∈ separated d (ws.map Padded.written)) :
    x = d ∨ ∃ w ∈ ws, x ∈ w.text := by
  rw [separated_eq] at h
  rcases joinWith_mem h with h | ⟨t, ht, hm⟩
  · exact Or.inl h
  · obtain ⟨w, hw, rfl⟩ := List.mem_map.mp ht
    exact Or.inr ⟨w, hw, (Padded.mem_written hx).mp hm⟩

theorem header_table {key : Option Key} (hk : ∀ k, key = some k → k.Right) {len : Str} {n : Nat} {d : Char} (hl : LengthMeans len n d)
    (hn : n ≤ 100000000) {cols : List Column} (hne : cols ≠ []) (hc : ∀ c ∈ cols, c.Right d) :
    ∃ h : Header, HeaderMeans (keyBefore key ++ '[' :: len ++ ']' :: '{' :: separated d (cols.map fun c => c.word.written) ++ ['}', ':']) h ∧
      h.key = key.map Key.name ∧ h.length = n ∧ h.delim = d ∧ h.inline = none ∧
      ∃ names : List FieldName, h.fields = some names ∧ names.map (·.name) = cols.map Column.name := by
  have hd := lengthMeans_delim hl
  obtain ⟨names, h1, h2⟩ := columns_names hc
  obtain ⟨hb, q, hq⟩ := before_bracket hk (len ++ ']' :: '{' :: separated d (cols.map fun c => c.word.written) ++ ['}', ':'])
  have hmap : (cols.map fun c => c.word.written) = (cols.map Column.word).map Padded.written := by rw [List.map_map]; rfl
  have hcells : Cells d (separated d (cols.map fun c => c.word.written)) (cols.map fun c => c.word.text) := by
    have := cells_words hd (ws := cols.map Column.word) (by simpa using hne) (by
      intro w hw
      obtain ⟨c, hcm, rfl⟩ := List.mem_map.mp hw
      exact ⟨(hc c hcm).1, (hc c hcm).2.1⟩)
    rw [hmap, show (cols.map fun c => c.word.text) = (cols.map Column.word).map Padded.text by rw [List.map_map]; rfl]
    exact this
  have hbrace : '}' ∉ separated d (cols.map fun c => c.word.written) := by
    intro hm
    rw [hmap] at hm
    rcases separated_mem _ (by decide) hm with h | ⟨w, hw, hm⟩
    · rcases hd with h' | h' | h' <;> rw [h'] at h <;> exact absurd h (by decide)
    · obtain ⟨c, hcm, rfl⟩ := List.mem_map.mp hw
      exact (hc c hcm).2.2.1 hm
  refine ⟨⟨key.map Key.name, q, n, d, some names, none⟩, ⟨keyBefore key, len, some (separated d (cols.map fun c => c.word.written)), [], ?_, hq, hl, hn,
    .some hcells h1, Or.inl ⟨by intro c hc; simp at hc, rfl⟩⟩, rfl, rfl, rfl, rfl, names, rfl, h2⟩
  refine ⟨'{' :: separated d (cols.map fun c => c.word.written) ++ ['}', ':'], by simpa using hb, lengthMeans_not hl (by decide), ?_⟩
  have := AfterBracket.columns (u := []) (w := []) (after := []) (by simp) (by simp) hbrace (by simp)
  simpa using this

/-- The line of an array without a key begins with a bracket and has a colon outside quotes. -/
theorem array_line {d : Char} {len : Str} {n : Nat} (hl : LengthMeans len n d) {pre : Str} (hp : quoteState pre = .out) (after : Str) :
    HasColon (pre ++ '[' :: len ++ ']' :: ':' :: after) := by
  refine ⟨pre ++ '[' :: len ++ [']'], after, by simp, ?_⟩
  rw [List.append_assoc, state_append_out hp]
  exact quoteState_plain (by simp [lengthMeans_not hl (c := '"') (by decide)])

theorem table_line {d : Char} {len : Str} {n : Nat} (hl : LengthMeans len n d) {pre : Str} (hp : quoteState pre = .out) {cols : List Column}
    (hc : ∀ c ∈ cols, c.Right d) :
    HasColon (pre ++ '[' :: len ++ ']' :: '{' :: separated d (cols.map fun c => c.word.written) ++ ['}', ':']) := by
  refine ⟨pre ++ ('[' :: len ++ [']', '{']) ++ separated d (cols.map fun c => c.word.written) ++ ['}'], [], by simp, ?_⟩
  have hmap : (cols.map fun c => c.word.written) = (cols.map Column.word).map Padded.written := by rw [List.map_map]; rfl
  rw [List.append_assoc, List.append_assoc, state_append_out hp, state_append_out, state_append_out]
  · rfl
  · rw [hmap]
    refine state_words (lengthMeans_delim hl) ?_
    intro w hw
    obtain ⟨c, hcm, rfl⟩ := List.mem_map.mp hw
    exact (hc c hcm).2.1
  · exact quoteState_plain (by simp [lengthMeans_not hl (c := '"') (by decide)])

end Toon
