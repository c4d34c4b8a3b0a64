import Verif.Lemmas.PadScan
import Verif.Lemmas.RoundTrip

/-! The encoder writes a hyphen alone only for an empty object in an array. -/

namespace Toon

/-- No line is a hyphen alone. -/
def NoHyphen (ls : List OutLine) : Prop := ∀ l ∈ ls, l.content ≠ ['-']

theorem NoHyphen.nil : NoHyphen [] := by intro l hl; simp at hl

theorem NoHyphen.cons {l : OutLine} {ls : List OutLine} (h : l.content ≠ ['-']) (hs : NoHyphen ls) : NoHyphen (l :: ls) := by
  intro x hx
  rcases List.mem_cons.mp hx with rfl | hx
  · exact h
  · exact hs x hx

theorem NoHyphen.append {ls ls' : List OutLine} (h : NoHyphen ls) (h' : NoHyphen ls') : NoHyphen (ls ++ ls') := by
  intro x hx
  rcases List.mem_append.mp hx with hx | hx
  · exact h x hx
  · exact h' x hx

theorem colon_ne_hyphen {c : Str} (h : ':' ∈ c) : c ≠ ['-'] := by
  rintro rfl
  exact absurd h (by decide)

theorem dash_ne_hyphen (c : Str) : dash c ≠ ['-'] := by simp [dash]

theorem header_ne_hyphen (n : Nat) (key : Option Str) (fields : Option (List Str)) (d : Char) :
    ':' ∈ formatHeader n key fields d := by
  rw [formatHeader_eq]
  simp

section
variable {F : Type} [F64 F]

theorem inline_colon (items : List (Json F)) (d : Char) (key : Option Str) : ':' ∈ encodeInlineArrayLine items d key := by
  unfold encodeInlineArrayLine
  simp only
  split
  · exact header_ne_hyphen _ _ _ _
  · exact List.mem_append_left _ (header_ne_hyphen _ _ _ _)

theorem arrayHead_colon (opts : EncOpts) (key : Option Str) (items : List (Json F)) : ':' ∈ arrayHead opts key items := by
  unfold arrayHead
  split
  · exact inline_colon _ _ _
  · exact header_ne_hyphen _ _ _ _

theorem encodePrimitive_ne_hyphen [LawfulF64 F] (p : Prim F) (d : Char) : encodePrimitive p d ≠ ['-'] := by
  cases p with
  | null => simp [encodePrimitive]
  | bool b => cases b <;> simp [encodePrimitive]
  | str s =>
    simp only [encodePrimitive, encodeStringLiteral]
    split
    · rename_i h
      have := ((isSafeUnquoted_iff s d).mp h).dash
      rintro rfl
      simp at this
    · simp
  | num x =>
    simp only [encodePrimitive, formatNumber]
    split
    · simp
    · split
      · simp
      · rename_i h1 h2
        simp only [Bool.not_eq_true, Bool.not_eq_eq_eq_not, Bool.not_true, Bool.not_eq_false] at h1 h2
        obtain ⟨sign, ip, frac, he, hs, hne, hdig, _⟩ := LawfulF64.display_plain x h2 h1
        intro hx
        have hm : ∀ c ∈ ip, c = '-' := by
          intro c hc
          have : c ∈ F64.display x := by rw [he]; simp [hc]
          rw [hx] at this
          simpa using this
        cases ip with
        | nil => exact hne rfl
        | cons c ip =>
          have h1 := hm c (by simp)
          have h2 := hdig c (by simp)
          subst h1
          exact absurd h2 (by decide)

theorem joinPrims_ne_hyphen [LawfulF64 F] {d : Char} (hd : GoodDelim d) (ps : List (Prim F)) : encodeAndJoin ps d ≠ ['-'] := by
  unfold encodeAndJoin
  match ps with
  | [] => simp [joinWith]
  | [p] => simpa [joinWith] using encodePrimitive_ne_hyphen p d
  | p :: q :: ps =>
    intro h
    have : d ∈ joinWith d (List.map (fun x => encodePrimitive x d) (p :: q :: ps)) := by simp [joinWith]
    rw [h] at this
    simp only [List.mem_cons, List.not_mem_nil, or_false] at this
    rcases hd with rfl | rfl | rfl <;> exact absurd this (by decide)

omit [F64 F] in
theorem collectChain_noEmpty (budget : Nat) (v : Json F) (h : NoEmptyElements v) : NoEmptyElements (collectChain budget v).2 := by
  fun_induction collectChain budget v with
  | case1 v => exact h
  | case2 budget k v segs leaf hc ih =>
    simp only [hc] at ih ⊢
    simp only [NoEmptyElements, NoEmptyElementsEntries] at h
    exact ih h.1
  | case3 => exact h

variable [LawfulF64 F]

theorem noHyphen_rows {opts : EncOpts} (hd : GoodDelim opts.delim) (items : List (Json F)) (cols : List Str) (depth : Nat) :
    NoHyphen (tabularRows items cols depth opts.delim) := by
  intro l hl
  unfold tabularRows at hl
  obtain ⟨row, hrow, he⟩ := List.mem_filterMap.mp hl
  cases row with
  | prim _ => simp at he
  | arr _ => simp at he
  | obj es =>
    simp only [Option.some.injEq] at he
    subst he
    exact joinPrims_ne_hyphen hd _

mutual
theorem noHyphen_object {opts : EncOpts} (hd : GoodDelim opts.delim) (entries : List (Str × Json F)) (depth : Nat)
    (rlk : Option (List Str)) (pp : Option Str) (rem : Option Nat) (h : NoEmptyElementsEntries entries) :
    NoHyphen (encodeObject opts entries depth rlk pp rem) := by
  rw [encodeObject]
  exact noHyphen_entries hd _ _ _ _ entries depth h
termination_by (sizeOf entries, 3)

theorem noHyphen_entries {opts : EncOpts} (hd : GoodDelim opts.delim) (siblings : List Str) (rlk : Option (List Str))
    (pp : Option Str) (fd : Nat) (entries : List (Str × Json F)) (depth : Nat) (h : NoEmptyElementsEntries entries) :
    NoHyphen (encodeEntries opts siblings rlk pp fd entries depth) := by
  match entries with
  | [] => rw [encodeEntries]; exact NoHyphen.nil
  | (k, v) :: rest =>
    rw [encodeEntries]
    simp only [NoEmptyElementsEntries] at h
    have h1 := noHyphen_keyValue hd siblings rlk pp fd k v depth h.1
    have h2 := noHyphen_entries hd siblings rlk pp fd rest depth h.2
    exact h1.append h2
termination_by (sizeOf entries, 2)

theorem noHyphen_keyValue {opts : EncOpts} (hd : GoodDelim opts.delim) (siblings : List Str) (rlk : Option (List Str))
    (pp : Option Str) (fd : Nat) (key : Str) (value : Json F) (depth : Nat) (h : NoEmptyElements value) :
    NoHyphen (encodeKeyValue opts siblings rlk pp fd key value depth) := by
  rw [encodeKeyValue_eq]
  cases hf : tryFold key value siblings opts rlk pp fd with
  | some folded =>
    simp only
    have hlt := tryFold_size hf
    have hh : NoEmptyElements folded.leaf := by
      rw [(tryFold_some hf).2.2.2.2.2.2.1]
      exact collectChain_noEmpty _ _ h
    exact noHyphen_entry hd rlk _ _ folded.foldedKey folded.leaf depth hh
  | none =>
    simp only
    exact noHyphen_entry hd rlk _ _ key value depth h
termination_by (sizeOf value, 1)
decreasing_by
  all_goals first
    | (apply Prod.Lex.left; assumption)
    | (apply Prod.Lex.right; decide)

theorem noHyphen_entry {opts : EncOpts} (hd : GoodDelim opts.delim) (rlk : Option (List Str)) (path : Str) (fd : Nat)
    (key : Str) (value : Json F) (depth : Nat) (h : NoEmptyElements value) :
    NoHyphen (writeEntry opts rlk path fd key value depth) := by
  match value with
  | .prim p =>
    simp only [writeEntry]
    exact NoHyphen.cons (colon_ne_hyphen (by simp)) NoHyphen.nil
  | .arr items =>
    simp only [writeEntry]
    rw [encodeArray_head_tail]
    simp only [NoEmptyElements] at h
    exact NoHyphen.cons (colon_ne_hyphen (arrayHead_colon _ _ items)) (noHyphen_tail hd items depth h)
  | .obj es =>
    simp only [writeEntry]
    simp only [NoEmptyElements] at h
    exact NoHyphen.cons (colon_ne_hyphen (by simp)) (noHyphen_object hd es (depth + 1) _ _ _ h)
termination_by (sizeOf value, 0)

theorem noHyphen_tail {opts : EncOpts} (hd : GoodDelim opts.delim) (items : List (Json F)) (depth : Nat)
    (h : NoEmptyElementsItems items) : NoHyphen (arrayTail opts items depth) := by
  rw [arrayTail]
  split
  · exact NoHyphen.nil
  · cases ht : tableHeader items with
    | some cols => exact noHyphen_rows hd items cols (depth + 1)
    | none => exact noHyphen_items hd items (depth + 1) h
termination_by (sizeOf items, 4)

theorem noHyphen_items {opts : EncOpts} (hd : GoodDelim opts.delim) (items : List (Json F)) (depth : Nat)
    (h : NoEmptyElementsItems items) : NoHyphen (encodeItems opts items depth) := by
  match items with
  | [] => rw [encodeItems]; exact NoHyphen.nil
  | v :: vs =>
    rw [encodeItems]
    simp only [NoEmptyElementsItems] at h
    have h1 := noHyphen_item hd v depth h.2.1 h.1
    have h2 := noHyphen_items hd vs depth h.2.2
    exact h1.append h2
termination_by (sizeOf items, 3)

theorem noHyphen_item {opts : EncOpts} (hd : GoodDelim opts.delim) (value : Json F) (depth : Nat)
    (h : NoEmptyElements value) (hne : value ≠ .obj []) : NoHyphen (encodeItem opts value depth) := by
  match value with
  | .prim p =>
    rw [encodeItem]
    exact NoHyphen.cons (dash_ne_hyphen _) NoHyphen.nil
  | .arr items =>
    rw [encodeItem]
    simp only [NoEmptyElements] at h
    split
    · exact NoHyphen.cons (dash_ne_hyphen _) NoHyphen.nil
    · exact NoHyphen.cons (dash_ne_hyphen _) (noHyphen_items hd items (depth + 1) h)
  | .obj es =>
    rw [encodeItem]
    simp only [NoEmptyElements] at h
    exact noHyphen_objectItem hd es depth h (by rintro rfl; exact hne rfl)
termination_by (sizeOf value, 1)

theorem noHyphen_objectItem {opts : EncOpts} (hd : GoodDelim opts.delim) (entries : List (Str × Json F)) (depth : Nat)
    (h : NoEmptyElementsEntries entries) (hne : entries ≠ []) : NoHyphen (encodeObjectItem opts entries depth) := by
  match entries with
  | [] => exact absurd rfl hne
  | (k, v) :: rest =>
    simp only [NoEmptyElementsEntries] at h
    have hrest := noHyphen_object hd rest (depth + 1) none none none h.2
    have hv := h.1
    rw [encodeObjectItem_cons]
    refine NoHyphen.append ?_ hrest
    match v with
    | .prim p => exact NoHyphen.cons (dash_ne_hyphen _) NoHyphen.nil
    | .arr items =>
      simp only [NoEmptyElements] at hv
      exact NoHyphen.cons (dash_ne_hyphen _) (noHyphen_tail hd items (depth + 1) hv)
    | .obj es =>
      simp only [NoEmptyElements] at hv
      exact NoHyphen.cons (dash_ne_hyphen _) (noHyphen_object hd es (depth + 2) _ _ _ hv)
termination_by (sizeOf entries, 0)
end

theorem noHyphen_value {opts : EncOpts} (hd : GoodDelim opts.delim) (v : Json F) (h : NoEmptyElements v) :
    NoHyphen (encodeValue opts v) := by
  unfold encodeValue
  split
  · rename_i p
    simp only
    split
    · exact NoHyphen.nil
    · exact NoHyphen.cons (encodePrimitive_ne_hyphen p _) NoHyphen.nil
  · rename_i items
    rw [encodeArray_head_tail]
    simp only [NoEmptyElements] at h
    exact NoHyphen.cons (colon_ne_hyphen (arrayHead_colon _ _ items)) (noHyphen_tail hd items 0 h)
  · rename_i es
    simp only [NoEmptyElements] at h
    exact noHyphen_object hd es 0 none none none h

omit [LawfulF64 F] in
mutual
theorem noEmpty_normalize : ∀ v : Json F, NoEmptyElements v → NoEmptyElements (normalize v)
  | .prim _, _ => by simp [normalize, NoEmptyElements]
  | .arr items, h => by
    simp only [normalize, NoEmptyElements] at h ⊢
    exact noEmpty_normalizeItems items h
  | .obj es, h => by
    simp only [normalize, NoEmptyElements] at h ⊢
    exact noEmpty_normalizeEntries es h
theorem noEmpty_normalizeItems : ∀ vs : List (Json F), NoEmptyElementsItems vs → NoEmptyElementsItems (normalizeItems vs)
  | [], _ => by simp [normalizeItems, NoEmptyElementsItems]
  | v :: vs, h => by
    simp only [normalizeItems, NoEmptyElementsItems] at h ⊢
    refine ⟨?_, noEmpty_normalize v h.2.1, noEmpty_normalizeItems vs h.2.2⟩
    intro hv
    apply h.1
    match v with
    | .prim _ => simp [normalize] at hv
    | .arr _ => simp [normalize] at hv
    | .obj [] => rfl
    | .obj ((k, w) :: es) => simp [normalize, normalizeEntries] at hv
theorem noEmpty_normalizeEntries : ∀ es : List (Str × Json F), NoEmptyElementsEntries es →
    NoEmptyElementsEntries (normalizeEntries es)
  | [], _ => by simp [normalizeEntries, NoEmptyElementsEntries]
  | (k, v) :: es, h => by
    simp only [normalizeEntries, NoEmptyElementsEntries] at h ⊢
    exact ⟨noEmpty_normalize v h.1, noEmpty_normalizeEntries es h.2⟩
end

theorem replicate_hyphen {a b : Nat} {c : Str} (hc : LineOk c)
    (h : List.replicate a ' ' ++ c = List.replicate b ' ' ++ ['-']) : c = ['-'] := by
  have key := congrArg (List.dropWhile (· == ' ')) h
  have hd : ∀ (n : Nat) (c : Str), (∀ x, c.head? = some x → x ≠ ' ') →
      (List.replicate n ' ' ++ c).dropWhile (· == ' ') = c := by
    intro n c hx
    induction n with
    | zero =>
      cases c with
      | nil => rfl
      | cons x c => simp [hx x rfl]
    | succ n ih => rw [List.replicate_succ, List.cons_append, List.dropWhile_cons]; simp [ih]
  rwa [hd, hd] at key
  · intro x hx; simp at hx; subst hx; decide
  · intro x hx hs
    subst hs
    exact absurd (hc.edge.1 _ hx) (by decide)

/-- The lines of an encoding without empty objects in arrays. -/
theorem encode_noHyphen {opts : EncOpts} (hd : GoodDelim opts.delim) {v : Json F} (h : NoEmptyElements v) :
    ∀ line ∈ splitOn '\n' (encode opts v), ¬ BareHyphen line := by
  have key : ∀ line ∈ encodeLines opts v, ¬ BareHyphen line := by
    rintro line hl ⟨n, hn⟩
    obtain ⟨o, ho, rfl⟩ := List.mem_map.mp hl
    have h1 := noHyphen_value hd _ (noEmpty_normalize v h) o ho
    exact h1 (replicate_hyphen (linesIn_value hd _ o ho).1 hn)
  intro line hl
  rw [splitOn_encode hd] at hl
  split at hl
  · simp at hl
    subst hl
    rintro ⟨n, hn⟩
    simp at hn
  · exact key line hl

end

end Toon
