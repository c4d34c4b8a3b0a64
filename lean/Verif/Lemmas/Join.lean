import Verif.Lemmas.Cut

/-! A derivation of the grammar stays one when lines are renumbered and more lines follow. -/

namespace Toon

section
variable {F : Type} [F64 F]

/-- The lines begin without indentation. -/
def Unindented (more : List Line) : Prop := ∀ l ls, more = l :: ls → l.depth = 0

/-- Lines `L` renumbered by `f`, with the blank lines `bs'` instead of `bs`. -/
structure Renumbers (L : List Line) (f : Line → Line) (bs bs' : List Nat) : Prop where
  depth : ∀ l, (f l).depth = l.depth
  content : ∀ l, (f l).content = l.content
  blanks : ∀ first ∈ L, ∀ last ∈ L, ∀ b' ∈ bs', (f first).num < b' → b' < (f last).num →
    ∃ b ∈ bs, first.num < b ∧ b < last.num

variable {L : List Line} {f : Line → Line} {bs bs' : List Nat} {more : List Line} {s : Bool}

theorem Renumbers.noBlank (hf : Renumbers L f bs bs') {body : List Line} (hL : ∀ l ∈ body, l ∈ L)
    (h : NoBlankWithin bs body) : NoBlankWithin bs' (body.map f) := by
  intro first last h1 h2 b' hb ⟨h3, h4⟩
  rw [List.head?_map] at h1
  rw [List.getLast?_map] at h2
  cases hh : body.head? with
  | none => rw [hh] at h1; simp at h1
  | some x =>
    cases hl : body.getLast? with
    | none => rw [hl] at h2; simp at h2
    | some y =>
      rw [hh] at h1; rw [hl] at h2
      simp only [Option.map_some, Option.some.injEq] at h1 h2
      subst h1 h2
      obtain ⟨b, k1, k2⟩ := hf.blanks x (hL x (List.mem_of_mem_head? hh)) y (hL y (List.mem_of_mem_getLast? hl)) b' hb h3 h4
      exact h x y hh hl b k1 k2

theorem Renumbers.next (hf : Renumbers L f bs bs') {d : Nat} {p : Str → Prop} {rest : List Line}
    (hr : rest ≠ [] ∨ more = [] ∨ (Unindented more ∧ 0 < d)) (h : ¬ NextIs d p rest) : ¬ NextIs d p (rest.map f ++ more) := by
  rintro ⟨l, ls, h1, h2, h3⟩
  cases rest with
  | nil =>
    rw [List.map_nil, List.nil_append] at h1
    rcases hr with hr | rfl | ⟨hu, hd⟩
    · exact hr rfl
    · simp at h1
    · have := hu l ls h1; omega
  | cons x xs =>
    simp only [List.map_cons, List.cons_append, List.cons.injEq] at h1
    apply h
    refine ⟨x, xs, rfl, ?_, ?_⟩
    · rw [← hf.depth, h1.1, h2]
    · rw [← hf.content, h1.1]; exact h3

section
variable (L f bs bs' more s) (n : Nat)

def JEntry : Prop := ∀ {d : Nat} {c : Str} {rest r : List Line} {e : Str × Bool × ETree F}, rest.length ≤ n →
  (∀ l ∈ rest, l ∈ L) → EntryMeans s bs d c rest e r → r <:+ rest ∧
  (r ≠ [] ∨ Unindented more → EntryMeans s bs' d c (rest.map f ++ more) e (r.map f ++ more))

def JBlock : Prop := ∀ {i : Bool} {d : Nat} {rest r : List Line} {es : List (Str × Bool × ETree F)}, rest.length ≤ n →
  (∀ l ∈ rest, l ∈ L) → BlockMeans s bs i d rest es r → r <:+ rest ∧
  (r ≠ [] ∨ more = [] ∨ (Unindented more ∧ 0 < d) → BlockMeans s bs' i d (rest.map f ++ more) es (r.map f ++ more))

def JArray : Prop := ∀ {d : Nat} {h : Header} {rest r : List Line} {t : ETree F}, rest.length ≤ n →
  (∀ l ∈ rest, l ∈ L) → ArrayMeans s bs d h rest t r → r <:+ rest ∧
  (r ≠ [] ∨ Unindented more → ArrayMeans s bs' d h (rest.map f ++ more) t (r.map f ++ more))

def JItems : Prop := ∀ {m d : Nat} {rest r : List Line} {ts : List (ETree F)}, rest.length ≤ n →
  (∀ l ∈ rest, l ∈ L) → ItemsMean s bs m d rest ts r → r <:+ rest ∧
  (0 < d → r ≠ [] ∨ Unindented more → ItemsMean s bs' m d (rest.map f ++ more) ts (r.map f ++ more))

def JItem : Prop := ∀ {d : Nat} {c : Str} {rest r : List Line} {t : ETree F}, rest.length ≤ n →
  (∀ l ∈ rest, l ∈ L) → ItemMeans' s bs d c rest t r → r <:+ rest ∧
  (r ≠ [] ∨ Unindented more → ItemMeans' s bs' d c (rest.map f ++ more) t (r.map f ++ more))

end

variable {n : Nat}

theorem suffix_ne {a b : List Line} (h : a <:+ b) : a ≠ [] → b ≠ [] := by
  rintro ha rfl
  exact ha (List.suffix_nil.mp h)

theorem join_block (hf : Renumbers L f bs bs') (iE : ∀ m, m < n → JEntry (F := F) L f bs bs' more s m)
    (iB : ∀ m, m < n → JBlock (F := F) L f bs bs' more s m) : JBlock (F := F) L f bs bs' more s n := by
  intro i d rest r es hn hL hb
  cases hb with
  | stop hs => exact ⟨List.suffix_refl _, fun hr => .stop (hf.next hr hs)⟩
  | @entry _ _ line ls rest₁ _ e es hd hh he hb =>
    simp only [List.length_cons] at hn
    obtain ⟨h1, h2⟩ := iE ls.length (by omega) (Nat.le_refl _) (fun l hl => hL l (by simp [hl])) he
    obtain ⟨h3, h4⟩ := iB ls.length (by omega) h1.length_le (fun l hl => hL l (by simp [h1.subset hl])) hb
    refine ⟨(h3.trans h1).trans (List.suffix_cons _ _), fun hr => ?_⟩
    rw [List.map_cons, List.cons_append]
    refine .entry (by rw [hf.depth]; exact hd) (by rw [hf.content]; exact hh) ?_ (h4 hr)
    rw [hf.content]
    apply h2
    rcases hr with hr | rfl | hr
    · exact .inl (suffix_ne h3 hr)
    · exact .inr (fun l ls h => by simp at h)
    · exact .inr hr.1

theorem join_items (hf : Renumbers L f bs bs') (iI : ∀ m, m < n → JItem (F := F) L f bs bs' more s m)
    (iIs : ∀ m, m < n → JItems (F := F) L f bs bs' more s m) : JItems (F := F) L f bs bs' more s n := by
  intro m d rest r ts hn hL hi
  cases hi with
  | stop hs =>
    refine ⟨List.suffix_refl _, fun hd hr => .stop ?_⟩
    rcases hs with hs | hs
    · exact .inl hs
    · refine .inr (hf.next ?_ hs)
      rcases hr with hr | hr
      · exact .inl hr
      · exact .inr (.inr ⟨hr, hd⟩)
  | @item m _ line ls rest₁ _ t ts hd hit hi =>
    simp only [List.length_cons] at hn
    obtain ⟨h1, h2⟩ := iI ls.length (by omega) (Nat.le_refl _) (fun l hl => hL l (by simp [hl])) hit
    obtain ⟨h3, h4⟩ := iIs ls.length (by omega) h1.length_le (fun l hl => hL l (by simp [h1.subset hl])) hi
    refine ⟨(h3.trans h1).trans (List.suffix_cons _ _), fun hd0 hr => ?_⟩
    rw [List.map_cons, List.cons_append]
    refine .item (by rw [hf.depth]; exact hd) ?_ (h4 hd0 hr)
    rw [hf.content]
    exact h2 (hr.imp (suffix_ne h3) id)

theorem rows_map (hf : Renumbers L f bs bs') {fields : List FieldName} {dl : Char} {body : List Line} {ts : List (ETree F)}
    (h : Pointwise (TableRow s fields dl) body ts) : Pointwise (TableRow s fields dl) (body.map f) ts := by
  induction h with
  | nil => exact .nil
  | cons hr _ ih =>
    refine .cons ?_ ih
    obtain ⟨cells, prims, h1, h2⟩ := hr
    exact ⟨cells, prims, by rw [hf.content]; exact h1, h2⟩

theorem join_array (hf : Renumbers L f bs bs') (hI : JItems (F := F) L f bs bs' more s n) : JArray (F := F) L f bs bs' more s n := by
  intro d h rest r t hn hL ha
  cases ha with
  | inline h1 h2 h3 h4 => exact ⟨List.suffix_refl _, fun _ => .inline h1 h2 h3 h4⟩
  | @table _ _ body _ fields ts h1 h2 h3 h4 h5 h6 h7 h8 =>
    refine ⟨List.suffix_append _ _, fun hr => ?_⟩
    have hr' : r ≠ [] ∨ more = [] ∨ (Unindented more ∧ 0 < d + 1) := by
      rcases hr with hr | hr
      · exact .inl hr
      · exact .inr (.inr ⟨hr, by omega⟩)
    rw [List.map_append, List.append_assoc]
    refine .table h1 h2 h3 ?_ (rows_map hf h5) (by simpa using h6) ?_ ?_
    · intro line hl
      obtain ⟨l, hl', rfl⟩ := List.mem_map.mp hl
      rw [hf.depth]; exact h4 l hl'
    · intro hlt
      exact hf.next hr' (h7 (by simpa using hlt))
    · intro hs
      obtain ⟨k1, k2, k3⟩ := h8 hs
      exact ⟨by simpa using k1, hf.noBlank (fun l hl => hL l (by simp [hl])) k2, hf.next hr' k3⟩
  | @list _ _ body _ ts h1 h2 hi hs =>
    refine ⟨List.suffix_append _ _, fun hr => ?_⟩
    have hr' : r ≠ [] ∨ more = [] ∨ (Unindented more ∧ 0 < d + 1) := by
      rcases hr with hr | hr
      · exact .inl hr
      · exact .inr (.inr ⟨hr, by omega⟩)
    have h3 := (hI hn hL hi).2 (by omega) hr
    rw [List.map_append, List.append_assoc] at h3 ⊢
    refine .list h1 h2 h3 ?_
    intro hst
    obtain ⟨k1, k2, k3⟩ := hs hst
    exact ⟨k1, hf.noBlank (fun l hl => hL l (by simp [hl])) k2, hf.next hr' k3⟩

theorem join_entry (hf : Renumbers L f bs bs') (hA : JArray (F := F) L f bs bs' more s n)
    (hB : JBlock (F := F) L f bs bs' more s n) : JEntry (F := F) L f bs bs' more s n := by
  intro d c rest r e hn hL he
  cases he with
  | array hm hk ha =>
    obtain ⟨h1, h2⟩ := hA hn hL ha
    exact ⟨h1, fun hr => .array hm hk (h2 hr)⟩
  | prim h1 h2 h3 h4 => exact ⟨List.suffix_refl _, fun _ => .prim h1 h2 h3 h4⟩
  | empty h1 h2 h3 h4 =>
    refine ⟨List.suffix_refl _, fun hr => .empty h1 h2 h3 ?_⟩
    intro l ls hl
    cases rest with
    | nil =>
      rcases hr with hr | hr
      · exact absurd rfl hr
      · rw [hr l ls (by simpa using hl)]; omega
    | cons x xs =>
      simp only [List.map_cons, List.cons_append, List.cons.injEq] at hl
      rw [← hl.1, hf.depth]
      exact h4 x xs rfl
  | @object _ _ _ _ _ line ls _ es h1 h2 h3 h4 hb =>
    obtain ⟨k1, k2⟩ := hB hn hL hb
    refine ⟨k1, fun hr => ?_⟩
    have h5 := k2 (by
      rcases hr with hr | hr
      · exact .inl hr
      · exact .inr (.inr ⟨hr, by omega⟩))
    rw [List.map_cons, List.cons_append] at h5 ⊢
    exact .object h1 h2 h3 (by rw [hf.depth]; exact h4) (by rw [hf.depth]; exact h5)

theorem join_item (hA : JArray (F := F) L f bs bs' more s n) (hE : JEntry (F := F) L f bs bs' more s n)
    (hB : JBlock (F := F) L f bs bs' more s n) : JItem (F := F) L f bs bs' more s n := by
  intro d c rest r t hn hL hi
  cases hi with
  | hyphen => exact ⟨List.suffix_refl _, fun _ => .hyphen⟩
  | blank h => exact ⟨List.suffix_refl _, fun _ => .blank h⟩
  | array h1 h2 h3 ha =>
    obtain ⟨k1, k2⟩ := hA hn hL ha
    exact ⟨k1, fun hr => .array h1 h2 h3 (k2 hr)⟩
  | object h1 h2 he hb =>
    obtain ⟨k1, k2⟩ := hE hn hL he
    obtain ⟨k3, k4⟩ := hB (Nat.le_trans k1.length_le hn) (fun l hl => hL l (k1.subset hl)) hb
    refine ⟨k3.trans k1, fun hr => .object h1 h2 (k2 (hr.imp (suffix_ne k3) id)) (k4 ?_)⟩
    rcases hr with hr | hr
    · exact .inl hr
    · exact .inr (.inr ⟨hr, by omega⟩)
  | prim h1 h2 h3 h4 => exact ⟨List.suffix_refl _, fun _ => .prim h1 h2 h3 h4⟩

theorem join_all (hf : Renumbers L f bs bs') (more : List Line) (s : Bool) (n : Nat) :
    JEntry (F := F) L f bs bs' more s n ∧ JBlock (F := F) L f bs bs' more s n ∧ JArray (F := F) L f bs bs' more s n ∧
    JItems (F := F) L f bs bs' more s n ∧ JItem (F := F) L f bs bs' more s n := by
  induction n using Nat.strongRecOn with
  | ind n ih =>
    have hB : JBlock (F := F) L f bs bs' more s n := join_block hf (fun m h => (ih m h).1) (fun m h => (ih m h).2.1)
    have hIs : JItems (F := F) L f bs bs' more s n := join_items hf (fun m h => (ih m h).2.2.2.2) (fun m h => (ih m h).2.2.2.1)
    have hA : JArray (F := F) L f bs bs' more s n := join_array hf hIs
    have hE : JEntry (F := F) L f bs bs' more s n := join_entry hf hA hB
    exact ⟨hE, hB, hA, hIs, join_item hA hE hB⟩

/-- The entries of two blocks of the outermost level, one after the other. -/
theorem join_root (hf : Renumbers L f bs bs') {rest r₂ : List Line} {es es₂ : List (Str × Bool × ETree F)}
    (hL : ∀ l ∈ rest, l ∈ L) (hu : Unindented more) (hb : BlockMeans s bs false 0 rest es [])
    (hb₂ : BlockMeans s bs' false 0 more es₂ r₂) : BlockMeans s bs' false 0 (rest.map f ++ more) (es ++ es₂) r₂ := by
  generalize hk : rest.length = k
  induction k using Nat.strongRecOn generalizing rest es with
  | ind k ih =>
    generalize hR : ([] : List Line) = R at hb
    cases hb with
    | stop _ => subst hR; exact hb₂
    | @entry _ _ line ls rest₁ _ e es hd hh he hb =>
      subst hR
      simp only [List.length_cons] at hk
      obtain ⟨h1, h2⟩ := (join_all (F := F) hf more s ls.length).1 (Nat.le_refl _) (fun l hl => hL l (by simp [hl])) he
      rw [List.map_cons, List.cons_append, List.cons_append]
      refine .entry (by rw [hf.depth]; exact hd) (by simp) (by rw [hf.content]; exact h2 (.inr hu)) ?_
      exact ih rest₁.length (by have := h1.length_le; omega) (fun l hl => hL l (by simp [h1.subset hl])) hb rfl

end

end Toon
