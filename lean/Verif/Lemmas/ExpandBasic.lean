import Verif.Lemmas.Fuel
import Verif.Lemmas.DecodeValue

/-! Path expansion keeps the primitives and never reports the model's out-of-fuel error. -/

namespace Toon

section
variable {F : Type}

/-! ## Entries -/

theorem entryGet_mem {es : List (Str × Node F)} {k : Str} {v : Node F} (h : entryGet es k = some v) : (k, v) ∈ es := by
  induction es with
  | nil => simp [entryGet] at h
  | cons e es ih =>
    obtain ⟨k', v'⟩ := e
    simp only [entryGet] at h
    split at h
    · rename_i hk; simp at h; subst h; subst hk; simp
    · simp [ih h]

theorem entrySet_mem {es : List (Str × Node F)} {k : Str} {v : Node F} {e : Str × Node F} (h : e ∈ entrySet es k v) :
    e ∈ es ∨ e = (k, v) := by
  induction es with
  | nil => simp [entrySet] at h
  | cons e' es ih =>
    obtain ⟨k', v'⟩ := e'
    simp only [entrySet] at h
    split at h
    · rename_i hk
      rcases List.mem_cons.mp h with h | h
      · exact Or.inr (by rw [h, hk])
      · exact Or.inl (by simp [h])
    · rcases List.mem_cons.mp h with h | h
      · exact Or.inl (by simp [h])
      · rcases ih h with h | h
        · exact Or.inl (by simp [h])
        · exact Or.inr h

/-! ## Primitives -/

theorem allPrimsEntries_iff (P : Prim F → Prop) (es : List (Str × Node F)) :
    AllPrimsEntries P (entriesToJson es) ↔ ∀ e ∈ es, AllPrims P (nodeToJson e.2) := by
  induction es with
  | nil => simp [entriesToJson, AllPrimsEntries]
  | cons e es ih => obtain ⟨k, v⟩ := e; simp [entriesToJson, AllPrimsEntries, ih]

theorem allPrimsItems_iff (P : Prim F → Prop) (ns : List (Node F)) :
    AllPrimsItems P (nodesToJson ns) ↔ ∀ n ∈ ns, AllPrims P (nodeToJson n) := by
  induction ns with
  | nil => simp [nodesToJson, AllPrimsItems]
  | cons n ns ih => simp [nodesToJson, AllPrimsItems, ih]

/-- All primitives below an entry list. -/
def PE (P : Prim F → Prop) (es : List (Str × Node F)) : Prop := ∀ e ∈ es, AllPrims P (nodeToJson e.2)

theorem pe_obj {P : Prim F → Prop} {es : List (Str × Node F)} {q : List Str} :
    AllPrims P (nodeToJson (.obj es q)) ↔ PE P es := by
  simp only [nodeToJson, AllPrims, allPrimsEntries_iff, PE]

theorem PE.append {P : Prim F → Prop} {es : List (Str × Node F)} {k : Str} {v : Node F} (h : PE P es)
    (hv : AllPrims P (nodeToJson v)) : PE P (es ++ [(k, v)]) := by
  intro e he
  rcases List.mem_append.mp he with he | he
  · exact h e he
  · simp at he; subst he; exact hv

theorem PE.set {P : Prim F → Prop} {es : List (Str × Node F)} {k : Str} {v : Node F} (h : PE P es)
    (hv : AllPrims P (nodeToJson v)) : PE P (entrySet es k v) := by
  intro e he
  rcases entrySet_mem he with he | rfl
  · exact h e he
  · exact hv

mutual
theorem mergeInto_pe {P : Prim F → Prop} {strict : Bool} {depth : Nat} {target out : List (Str × Node F)} {source : Node F}
    (h : mergeInto strict depth target source = .ok out) (ht : PE P target) (hs : AllPrims P (nodeToJson source)) :
    PE P out := by
  match source with
  | .obj entries q =>
    rw [mergeInto] at h
    split at h
    · simp at h
    · exact mergeEntries_pe h ht (pe_obj.mp hs)
  | .prim _ => simp [mergeInto] at h
  | .arr _ => simp [mergeInto] at h
theorem mergeEntries_pe {P : Prim F → Prop} {strict : Bool} {depth : Nat} {target out source : List (Str × Node F)}
    (h : mergeEntries strict depth target source = .ok out) (ht : PE P target) (hs : PE P source) : PE P out := by
  match source with
  | [] => simp only [mergeEntries, Except.ok.injEq] at h; subst h; exact ht
  | (key, value) :: rest =>
    rw [mergeEntries] at h
    have hv : AllPrims P (nodeToJson value) := hs (key, value) (by simp)
    have hr : PE P rest := fun e he => hs e (by simp [he])
    split at h
    · exact mergeEntries_pe h (ht.append hv) hr
    · rename_i es q hg
      have hes : PE P es := pe_obj.mp (ht _ (entryGet_mem hg))
      split at h
      · split at h
        · simp at h
        · rename_i merged hm
          exact mergeEntries_pe h (ht.set (pe_obj.mpr (mergeInto_pe hm hes hv))) hr
      · split at h
        · simp at h
        · exact mergeEntries_pe h (ht.set hv) hr
    · split at h
      · simp at h
      · exact mergeEntries_pe h (ht.set hv) hr
end

theorem insertLiteral_pe {P : Prim F → Prop} {strict : Bool} {depth : Nat} {entries out : List (Str × Node F)} {key : Str}
    {value : Node F} (h : insertLiteral strict depth entries key value = .ok out) (ht : PE P entries)
    (hv : AllPrims P (nodeToJson value)) : PE P out := by
  unfold insertLiteral at h
  split at h
  · simp at h
  · split at h
    · simp at h; subst h; exact ht.append hv
    · rename_i es q hg
      have hes : PE P es := pe_obj.mp (ht _ (entryGet_mem hg))
      split at h
      · split at h
        · simp at h
        · rename_i merged hm
          simp at h; subst h
          exact ht.set (pe_obj.mpr (mergeInto_pe hm hes hv))
      · split at h
        · simp at h
        · simp at h; subst h; exact ht.set hv
    · split at h
      · simp at h
      · simp at h; subst h; exact ht.set hv

theorem insertPath_pe {P : Prim F → Prop} {strict : Bool} {segments : List Str} : ∀ {depth : Nat}
    {entries out : List (Str × Node F)} {value : Node F}, insertPath strict depth entries segments value = .ok out →
    PE P entries → AllPrims P (nodeToJson value) → PE P out := by
  induction segments with
  | nil =>
    intro depth entries out value h ht hv
    rw [insertPath] at h
    split at h
    · simp at h
    · simp at h; subst h; exact ht
  | cons key segs ih =>
    intro depth entries out value h ht hv
    cases segs with
    | nil =>
      rw [insertPath] at h
      split at h
      · simp at h
      · exact insertLiteral_pe h ht hv
    | cons s segs =>
      rw [insertPath] at h
      · split at h
        · simp at h
        · split at h
          · rename_i es q hg
            have hes : PE P es := pe_obj.mp (ht _ (entryGet_mem hg))
            split at h
            · simp at h
            · rename_i es' hp
              simp at h; subst h
              exact ht.set (pe_obj.mpr (ih hp hes hv))
          · split at h
            · simp at h
            · split at h
              · simp at h
              · rename_i es' hp
                simp at h; subst h
                exact ht.set (pe_obj.mpr (ih hp (by intro e he; simp at he) hv))
          · split at h
            · simp at h
            · rename_i es' hp
              simp at h; subst h
              exact ht.append (pe_obj.mpr (ih hp (by intro e he; simp at he) hv))
      · simp

mutual
theorem expandInner_prims {P : Prim F → Prop} {strict : Bool} {n n' : Node F} {depth : Nat}
    (h : expandInner strict n depth = .ok n') (hn : AllPrims P (nodeToJson n)) : AllPrims P (nodeToJson n') := by
  match n with
  | .arr items =>
    rw [expandInner] at h
    split at h
    · simp at h
    · split at h
      · simp at h
      · rename_i items' hi
        simp at h; subst h
        simp only [nodeToJson, AllPrims, allPrimsItems_iff] at hn ⊢
        exact expandItems_prims hi hn
  | .obj entries q =>
    rw [expandInner] at h
    split at h
    · simp at h
    · split at h
      · simp at h
      · split at h
        · simp at h
        · rename_i es he
          simp at h; subst h
          exact pe_obj.mpr (expandEntries_prims he (pe_obj.mp hn) (by intro e he; simp at he))
  | .prim p =>
    rw [expandInner] at h
    split at h
    · simp at h
    · simp at h; subst h; exact hn
theorem expandItems_prims {P : Prim F → Prop} {strict : Bool} {ns ns' : List (Node F)} {depth : Nat}
    (h : expandItems strict ns depth = .ok ns') (hn : ∀ n ∈ ns, AllPrims P (nodeToJson n)) :
    ∀ n ∈ ns', AllPrims P (nodeToJson n) := by
  match ns with
  | [] => simp only [expandItems, Except.ok.injEq] at h; subst h; exact hn
  | n :: ns =>
    rw [expandItems] at h
    split at h
    · simp at h
    · rename_i n1 h1
      split at h
      · simp at h
      · rename_i ns1 h2
        simp at h; subst h
        intro m hm
        rcases List.mem_cons.mp hm with rfl | hm
        · exact expandInner_prims h1 (hn n (by simp))
        · exact expandItems_prims h2 (fun x hx => hn x (by simp [hx])) m hm
theorem expandEntries_prims {P : Prim F → Prop} {strict : Bool} {quoted : List Str} {es acc out : List (Str × Node F)}
    {depth : Nat} (h : expandEntries strict quoted es depth acc = .ok out) (hn : PE P es) (ha : PE P acc) : PE P out := by
  match es with
  | [] => simp only [expandEntries, Except.ok.injEq] at h; subst h; exact ha
  | (key, value) :: rest =>
    rw [expandEntries] at h
    split at h
    · simp at h
    · rename_i value' hv
      have hv' := expandInner_prims hv (hn (key, value) (by simp))
      simp only at h
      split at h
      · simp at h
      · rename_i acc' hr
        refine expandEntries_prims h (fun e he => hn e (by simp [he])) ?_
        split at hr
        · exact insertPath_pe hr ha hv'
        · exact insertLiteral_pe hr ha hv'
end

/-! ## Errors of expansion -/

/-- One of the three errors of path expansion. -/
def ExpandErr (e : Err) : Prop := e = .expandDepth ∨ (∃ c, e = .pathConflict c) ∨ e = .expectedObject

mutual
theorem mergeInto_err {strict : Bool} {depth : Nat} {target : List (Str × Node F)} {source : Node F} {e : Err}
    (h : mergeInto strict depth target source = .error e) (hs : ∃ es q, source = .obj es q) :
    e = .expandDepth ∨ (strict = true ∧ ∃ c, e = .pathConflict c) := by
  match source with
  | .obj entries q =>
    rw [mergeInto] at h
    split at h
    · simp at h; exact Or.inl h.symm
    · exact mergeEntries_err h
  | .prim _ => obtain ⟨_, _, h⟩ := hs; cases h
  | .arr _ => obtain ⟨_, _, h⟩ := hs; cases h
theorem mergeEntries_err {strict : Bool} {depth : Nat} {target source : List (Str × Node F)} {e : Err}
    (h : mergeEntries strict depth target source = .error e) :
    e = .expandDepth ∨ (strict = true ∧ ∃ c, e = .pathConflict c) := by
  match source with
  | [] => simp [mergeEntries] at h
  | (key, value) :: rest =>
    rw [mergeEntries] at h
    split at h
    · exact mergeEntries_err h
    · split at h
      · rename_i es' q'
        split at h
        · rename_i hm; simp at h; subst h; exact mergeInto_err hm ⟨_, _, rfl⟩
        · exact mergeEntries_err h
      · split at h
        · rename_i hs; simp at h; exact Or.inr ⟨hs, _, h.symm⟩
        · exact mergeEntries_err h
    · split at h
      · rename_i hs; simp at h; exact Or.inr ⟨hs, _, h.symm⟩
      · exact mergeEntries_err h
end

theorem insertLiteral_err {strict : Bool} {depth : Nat} {entries : List (Str × Node F)} {key : Str} {value : Node F} {e : Err}
    (h : insertLiteral strict depth entries key value = .error e) :
    e = .expandDepth ∨ (strict = true ∧ ∃ c, e = .pathConflict c) := by
  unfold insertLiteral at h
  split at h
  · simp at h; exact Or.inl h.symm
  · split at h
    · simp at h
    · split at h
      · split at h
        · rename_i hm; simp at h; subst h; exact mergeInto_err hm ⟨_, _, rfl⟩
        · simp at h
      · split at h
        · rename_i hs; simp at h; exact Or.inr ⟨hs, _, h.symm⟩
        · simp at h
    · split at h
      · rename_i hs; simp at h; exact Or.inr ⟨hs, _, h.symm⟩
      · simp at h

theorem insertPath_err {strict : Bool} {segments : List Str} : ∀ {depth : Nat} {entries : List (Str × Node F)} {value : Node F}
    {e : Err}, insertPath strict depth entries segments value = .error e →
    e = .expandDepth ∨ (strict = true ∧ ∃ c, e = .pathConflict c) := by
  induction segments with
  | nil =>
    intro depth entries value e h
    rw [insertPath] at h
    split at h
    · simp at h; exact Or.inl h.symm
    · simp at h
  | cons key segs ih =>
    intro depth entries value e h
    cases segs with
    | nil =>
      rw [insertPath] at h
      split at h
      · simp at h; exact Or.inl h.symm
      · exact insertLiteral_err h
    | cons s segs =>
      rw [insertPath] at h
      · split at h
        · simp at h; exact Or.inl h.symm
        · split at h
          · split at h
            · rename_i hp; simp at h; subst h; exact ih hp
            · simp at h
          · split at h
            · rename_i hs; simp at h; exact Or.inr ⟨hs, _, h.symm⟩
            · split at h
              · rename_i hp; simp at h; subst h; exact ih hp
              · simp at h
          · split at h
            · rename_i hp; simp at h; subst h; exact ih hp
            · simp at h
      · simp

mutual
theorem expandInner_err {strict : Bool} {n : Node F} {depth : Nat} {e : Err}
    (h : expandInner strict n depth = .error e) : e = .expandDepth ∨ (strict = true ∧ ∃ c, e = .pathConflict c) := by
  match n with
  | .arr items =>
    rw [expandInner] at h
    split at h
    · simp at h; exact Or.inl h.symm
    · split at h
      · rename_i hi; simp at h; subst h; exact expandItems_err hi
      · simp at h
  | .obj entries q =>
    rw [expandInner] at h
    split at h
    · simp at h; exact Or.inl h.symm
    · split at h
      · simp at h; exact Or.inl h.symm
      · split at h
        · rename_i hi; simp at h; subst h; exact expandEntries_err hi
        · simp at h
  | .prim p =>
    rw [expandInner] at h
    split at h
    · simp at h; exact Or.inl h.symm
    · simp at h
theorem expandItems_err {strict : Bool} {ns : List (Node F)} {depth : Nat} {e : Err}
    (h : expandItems strict ns depth = .error e) : e = .expandDepth ∨ (strict = true ∧ ∃ c, e = .pathConflict c) := by
  match ns with
  | [] => simp [expandItems] at h
  | n :: ns =>
    rw [expandItems] at h
    split at h
    · rename_i h1; simp at h; subst h; exact expandInner_err h1
    · split at h
      · rename_i h1; simp at h; subst h; exact expandItems_err h1
      · simp at h
theorem expandEntries_err {strict : Bool} {quoted : List Str} {es acc : List (Str × Node F)} {depth : Nat} {e : Err}
    (h : expandEntries strict quoted es depth acc = .error e) : e = .expandDepth ∨ (strict = true ∧ ∃ c, e = .pathConflict c) := by
  match es with
  | [] => simp [expandEntries] at h
  | (key, value) :: rest =>
    rw [expandEntries] at h
    split at h
    · rename_i h1; simp at h; subst h; exact expandInner_err h1
    · simp only at h
      split at h
      · rename_i hr
        simp at h; subst h
        split at hr
        · exact insertPath_err hr
        · exact insertLiteral_err hr
      · exact expandEntries_err h
end

end

section
variable {F : Type} [F64 F]

/-- Decoding in terms of the tree of the events. -/
theorem decodeFromLines_expand [LawfulF64 F] {opts : DecOpts} {ls : List Str} {t : ETree F}
    (h : decodeStream (F := F) opts.indent opts.strict ls = .ok t.events) :
    decodeFromLines opts ls =
      if opts.expand then (match expandPathsSafe opts.strict t.node with
        | .error e => .error e
        | .ok n => .ok (nodeToJson n))
      else .ok t.json := by
  unfold decodeFromLines
  simp only [h, buildNode_events, bind, Except.bind, pure, Except.pure]
  split
  · split <;> rename_i he <;> split <;> simp_all
  · simp [nodeToJson_node]

end

end Toon
