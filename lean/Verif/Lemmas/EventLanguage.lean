import Verif.Spec.EventLanguage
import Verif.Spec.Events

namespace Toon

variable {F : Type}

/-! ## The builder -/

theorem applyEvents_split (st : BState F) (a b : List (Ev F)) :
    applyEvents st (a ++ b) = (match applyEvents st a with | .error e => .error e | .ok st' => applyEvents st' b) := by
  induction a generalizing st with
  | nil => rfl
  | cons e a ih =>
    simp only [List.cons_append, applyEvents]
    cases applyEvent st e with
    | error => rfl
    | ok st' => exact ih st'

/-- Putting a finished entry into an open object. -/
def addKey (q : Bool) (k : Str) (quoted : List Str) : List Str := if q then k :: quoted else quoted

theorem addKey_eq (q : Bool) (k : Str) (quoted : List Str) : addKey q k quoted = (if q then [k] else []) ++ quoted := by
  unfold addKey; split <;> rfl

mutual
theorem builds_run {evs : List (Ev F)} {v : Node F} : Builds evs v → ∀ stack root, applyEvents ⟨stack, root⟩ evs = attach stack root v
  | .prim p, stack, root => by
    simp only [applyEvents, applyEvent]
    cases attach stack root (.prim p) <;> rfl
  | .arr n h, stack, root => by
    simp only [applyEvents, applyEvent]
    rw [applyEvents_split, buildsItems_run h]
    simp only [applyEvents, applyEvent, List.nil_append]
    cases attach stack root _ <;> rfl
  | .obj h, stack, root => by
    simp only [applyEvents, applyEvent]
    obtain ⟨cur, h1⟩ := buildsEntries_run h [] none [] stack root
    rw [applyEvents_split, h1]
    simp only [applyEvents, applyEvent, List.nil_append, List.append_nil]
    cases attach stack root _ <;> rfl
theorem buildsItems_run {evs : List (Ev F)} {vs : List (Node F)} : BuildsItems evs vs → ∀ items stack root,
    applyEvents ⟨.arr items :: stack, root⟩ evs = .ok ⟨.arr (items ++ vs) :: stack, root⟩
  | .nil, items, stack, root => by simp [applyEvents]
  | .cons h ht, items, stack, root => by
    rw [applyEvents_split, builds_run h]
    simp only [attach]
    rw [buildsItems_run ht]
    simp
theorem buildsEntries_run {evs : List (Ev F)} {es : List (Str × Node F)} {qs : List Str} : BuildsEntries evs es qs → ∀ entries cur quoted stack root,
    ∃ cur', applyEvents ⟨.obj entries cur quoted :: stack, root⟩ evs = .ok ⟨.obj (entries ++ es) cur' (qs ++ quoted) :: stack, root⟩
  | .nil, entries, cur, quoted, stack, root => ⟨cur, by simp [applyEvents]⟩
  | .entry k q h ht, entries, cur, quoted, stack, root => by
    obtain ⟨cur', h2⟩ := buildsEntries_run ht (entries ++ [(k, _)]) none (if q then k :: quoted else quoted) stack root
    refine ⟨cur', ?_⟩
    simp only [applyEvents, applyEvent]
    rw [applyEvents_split, builds_run h]
    simp only [attach]
    rw [h2]
    cases q <;> simp
  | .drop k q ht, entries, cur, quoted, stack, root => by
    obtain ⟨cur', h2⟩ := buildsEntries_run ht entries (some k) (if q then k :: quoted else quoted) stack root
    refine ⟨cur', ?_⟩
    simp only [applyEvents, applyEvent]
    rw [h2]
    cases q <;> simp
end

theorem buildsItems_append {a b : List (Ev F)} {vs ws : List (Node F)} (h : BuildsItems a vs) (h' : BuildsItems b ws) :
    BuildsItems (a ++ b) (vs ++ ws) := by
  induction vs generalizing a with
  | nil => cases h; exact h'
  | cons v vs ih =>
    cases h with
    | cons h1 h2 => rw [List.append_assoc]; exact .cons h1 (ih h2)

theorem buildsEntries_append {a b : List (Ev F)} {es fs : List (Str × Node F)} {qs rs : List Str} (h : BuildsEntries a es qs)
    (h' : BuildsEntries b fs rs) : BuildsEntries (a ++ b) (es ++ fs) (rs ++ qs) := by
  match h with
  | .nil => simpa using h'
  | .entry k q h1 h2 =>
    have := BuildsEntries.entry k q h1 (buildsEntries_append h2 h')
    simpa using this
  | .drop k q h2 =>
    have := BuildsEntries.drop k q (buildsEntries_append h2 h')
    simpa using this

theorem builds_one {evs : List (Ev F)} {v : Node F} (h : Builds evs v) : BuildsItems evs [v] := by
  have := BuildsItems.cons h .nil
  simpa using this

/-- What has been read when the state is reached. -/
inductive Reached : List (Ev F) → List (BCtx F) → Option (Node F) → Prop where
  | roots {evs : List (Ev F)} {vs : List (Node F)} (h : BuildsItems evs vs) : Reached evs [] vs.getLast?
  | arr (n : Nat) {a b : List (Ev F)} {vs : List (Node F)} {stack : List (BCtx F)} {root : Option (Node F)} (h : Reached a stack root) (hb : BuildsItems b vs) :
      Reached (a ++ .startArr n :: b) (.arr vs :: stack) root
  | obj {a b : List (Ev F)} {es : List (Str × Node F)} {qs : List Str} {stack : List (BCtx F)} {root : Option (Node F)} (h : Reached a stack root) (hb : BuildsEntries b es qs) :
      Reached (a ++ .startObj :: b) (.obj es none qs :: stack) root
  | key (k : Str) (q : Bool) {a b : List (Ev F)} {es : List (Str × Node F)} {qs : List Str} {stack : List (BCtx F)} {root : Option (Node F)} (h : Reached a stack root) (hb : BuildsEntries b es qs) :
      Reached (a ++ .startObj :: (b ++ [.key k q])) (.obj es (some k) ((if q then [k] else []) ++ qs) :: stack) root

theorem reached_attach {a e : List (Ev F)} {stack : List (BCtx F)} {root : Option (Node F)} {v : Node F} {st : BState F} (h : Reached a stack root)
    (hv : Builds e v) (hs : attach stack root v = .ok st) : Reached (a ++ e) st.stack st.root := by
  cases h with
  | roots h =>
    injection hs with hs
    subst hs
    have := Reached.roots (buildsItems_append h (builds_one hv))
    simpa using this
  | arr n h hb =>
    injection hs with hs
    subst hs
    have := Reached.arr n h (buildsItems_append hb (builds_one hv))
    simpa using this
  | obj h hb => cases hs
  | key k q h hb =>
    injection hs with hs
    subst hs
    have := Reached.obj h (buildsEntries_append hb (.entry k q hv .nil))
    simpa using this

theorem reached_step {a : List (Ev F)} {st st' : BState F} {e : Ev F} (h : Reached a st.stack st.root) (hs : applyEvent st e = .ok st') :
    Reached (a ++ [e]) st'.stack st'.root := by
  obtain ⟨stack, root⟩ := st
  cases e with
  | startObj => injection hs with hs; subst hs; exact .obj h .nil
  | startArr n => injection hs with hs; subst hs; exact .arr n h .nil
  | prim p => exact reached_attach h (.prim p) hs
  | endObj =>
    dsimp only at h
    cases h with
    | roots h => cases hs
    | arr n h hb => cases hs
    | obj h hb => have := reached_attach h (.obj hb) hs; simpa using this
    | key k q h hb =>
      have hb' := buildsEntries_append hb (.drop k q .nil)
      rw [List.append_nil, List.nil_append] at hb'
      have := reached_attach h (.obj hb') hs
      simpa using this
  | endArr =>
    dsimp only at h
    cases h with
    | roots h => cases hs
    | arr n h hb => have := reached_attach h (.arr n hb) hs; simpa using this
    | obj h hb => cases hs
    | key k q h hb => cases hs
  | key k q =>
    dsimp only at h
    cases h with
    | roots h => cases hs
    | arr n h hb => cases hs
    | obj h hb =>
      injection hs with hs; subst hs
      have := Reached.key k q h hb
      cases q <;> simpa using this
    | key k' q' h hb =>
      injection hs with hs; subst hs
      have := Reached.key k q h (buildsEntries_append hb (.drop k' q' .nil))
      cases q <;> simpa using this

theorem reached_run {a evs : List (Ev F)} {st st' : BState F} (h : Reached a st.stack st.root) (hs : applyEvents st evs = .ok st') :
    Reached (a ++ evs) st'.stack st'.root := by
  induction evs generalizing a st with
  | nil => injection hs with hs; subst hs; simpa using h
  | cons e evs ih =>
    rw [applyEvents] at hs
    cases h1 : applyEvent st e with
    | error x => rw [h1] at hs; cases hs
    | ok st1 =>
      rw [h1] at hs
      have := ih (reached_step h h1) hs
      simpa using this

theorem buildNode_iff (evs : List (Ev F)) (v : Node F) :
    buildNode evs = .ok v ↔ ∃ a b vs, evs = a ++ b ∧ BuildsItems a vs ∧ Builds b v := by
  constructor
  · intro h
    unfold buildNode at h
    cases hs : applyEvents ⟨[], none⟩ evs with
    | error e => rw [hs] at h; cases h
    | ok st =>
      rw [hs] at h
      have hr := reached_run (a := []) (st := ⟨[], none⟩) (.roots .nil) hs
      obtain ⟨stack, root⟩ := st
      cases stack with
      | cons c stack => cases h
      | nil =>
        cases root with
        | none => cases h
        | some n =>
          have hn : n = v := by simpa using h
          subst hn
          dsimp only [List.nil_append] at hr
          generalize hq : some n = r at hr
          cases hr with
          | roots h' =>
            have key : ∀ (vs : List (Node F)) (e : List (Ev F)), BuildsItems e vs → some n = vs.getLast? →
                ∃ a b ws, e = a ++ b ∧ BuildsItems a ws ∧ Builds b n := by
              intro vs
              induction vs with
              | nil => intro e _ h; cases h
              | cons w ws ih =>
                intro e he hl
                cases he with
                | cons h1 h2 =>
                  rename_i x y
                  cases ws with
                  | nil =>
                    cases h2
                    simp only [List.getLast?_singleton, Option.some.injEq] at hl
                    subst hl
                    exact ⟨[], x, [], by simp, .nil, h1⟩
                  | cons w' ws' =>
                    rw [List.getLast?_cons_cons] at hl
                    obtain ⟨a, b, us, rfl, h3, h4⟩ := ih _ h2 hl
                    exact ⟨x ++ a, b, w :: us, by simp, .cons h1 h3, h4⟩
            exact key _ _ h' hq
  · rintro ⟨a, b, vs, rfl, ha, hb⟩
    have key : ∀ (vs : List (Node F)) (e : List (Ev F)) root, BuildsItems e vs →
        ∃ root', applyEvents ⟨[], root⟩ e = .ok ⟨[], root'⟩ := by
      intro vs
      induction vs with
      | nil => intro e root h; cases h; exact ⟨root, rfl⟩
      | cons w ws ih =>
        intro e root h
        cases h with
        | cons h1 h2 =>
          obtain ⟨r, hr⟩ := ih _ (some w) h2
          refine ⟨r, ?_⟩
          rw [applyEvents_split, builds_run h1]
          exact hr
    obtain ⟨r, hr⟩ := key vs a none ha
    unfold buildNode
    rw [applyEvents_split, hr]
    dsimp only
    rw [builds_run hb]
    rfl

/-! ## The printer -/

section
variable [F64 F] [JsonNum F]

theorem streamSteps_append (indent : Nat) (st : JState) (a b : List (Ev F)) :
    jsonStreamSteps indent st (a ++ b) = (match jsonStreamSteps indent st a with | .error e => .error e | .ok st' => jsonStreamSteps indent st' b) := by
  induction a generalizing st with
  | nil => rfl
  | cons e a ih =>
    simp only [List.cons_append, jsonStreamSteps]
    cases jsonStreamStep indent st e with
    | error => rfl
    | ok st' => exact ih st'

theorem prints_ne {indent d : Nat} {evs : List (Ev F)} {s : Str} (h : Prints indent d evs s) : evs ≠ [] := by
  cases h <;> simp

/-- What is written before a container. -/
def beforeText (indent d : Nat) : List JCtx → Str
  | .arr c :: _ => (if c then [','] else []) ++ lineBreak indent d
  | _ => []

theorem beforeText_eq (indent : Nat) (st : JState) : (jsonBeforeContainer indent st).flatten = beforeText indent st.depth st.stack := by
  unfold jsonBeforeContainer beforeText lineBreak
  split
  · split <;> split <;> simp_all
  · rename_i h
    split
    · rename_i h'; exact absurd h' (h _ _)
    · rfl

theorem lineBreak_flatten (indent d : Nat) :
    (if indent > 0 then [['\n'], List.replicate (d * indent) ' '] else []).flatten = lineBreak indent d := by
  unfold lineBreak; split <;> simp

theorem comma_flatten (c : Bool) : (if c then [[',']] else [] : List Str).flatten = if c then [','] else [] := by cases c <;> rfl

theorem isEmpty_snoc (b : List (Ev F)) (x : Ev F) (l : List (Ev F)) : (b ++ x :: l).isEmpty = false := by cases b <;> rfl

theorem comma_flatten' (b : List (Ev F)) : (if b = [] then [] else [[',']] : List Str).flatten = if b = [] then [] else [','] := by
  cases b <;> rfl

theorem break_flatten (indent d : Nat) :
    (if 0 < indent then [['\n'], List.replicate (d * indent) ' '] else []).flatten = lineBreak indent d := lineBreak_flatten indent d

theorem close_flatten (indent d : Nat) (b : Bool) :
    (if indent > 0 ∧ b = true then [['\n'], List.replicate (d * indent) ' '] else []).flatten = if b then lineBreak indent d else [] := by
  unfold lineBreak; cases b <;> simp
  split <;> simp

mutual
theorem prints_run {indent d : Nat} {evs : List (Ev F)} {s : Str} : Prints indent d evs s → ∀ stack out,
    ∃ cs, jsonStreamSteps indent ⟨stack, d, out⟩ evs = .ok ⟨jsonAfterContainer stack, d, out ++ cs⟩ ∧ cs.flatten = beforeText indent d stack ++ s
  | .arr d n (evs := evs) h, stack, out => by
    obtain ⟨cs, h1, h2⟩ := printsItems_run h stack (out ++ (jsonBeforeContainer indent ⟨stack, d, out⟩ ++ [['[']]))
    simp only [jsonStreamSteps, jsonStreamStep]
    rw [streamSteps_append, h1]
    simp only [jsonStreamSteps, jsonStreamStep, Nat.add_sub_cancel]
    refine ⟨_, by rw [List.append_assoc, List.append_assoc], ?_⟩
    simp only [List.flatten_append, beforeText_eq, h2, close_flatten]
    cases evs <;> simp
  | .obj d (evs := evs) h, stack, out => by
    obtain ⟨cs, h1, h2⟩ := printsBody_run h stack (out ++ (jsonBeforeContainer indent ⟨stack, d, out⟩ ++ [['{']])) false
    simp only [jsonStreamSteps, jsonStreamStep]
    obtain ⟨x, h1⟩ := h1
    rw [streamSteps_append, h1]
    simp only [jsonStreamSteps, jsonStreamStep, Nat.add_sub_cancel]
    refine ⟨_, by rw [List.append_assoc, List.append_assoc], ?_⟩
    simp only [List.flatten_append, beforeText_eq, h2, close_flatten]
    cases evs <;> simp
theorem printsItems_run {indent d : Nat} {c : Bool} {evs : List (Ev F)} {s : Str} : PrintsItems indent d c evs s → ∀ stack out,
    ∃ cs, jsonStreamSteps indent ⟨.arr c :: stack, d, out⟩ evs = .ok ⟨.arr (c || !evs.isEmpty) :: stack, d, out ++ cs⟩ ∧ cs.flatten = s
  | .nil d c, stack, out => ⟨[], by simp [jsonStreamSteps], rfl⟩
  | .prim d c p ht, stack, out => by
    simp only [jsonStreamSteps, jsonStreamStep]
    obtain ⟨cs, h1, h2⟩ := printsItems_run ht stack (out ++
        ((if c then [[',']] else []) ++
          ((if indent > 0 then [['\n'], List.replicate (d * indent) ' '] else []) ++ [streamPrimitive p])))
    refine ⟨((if c then [[',']] else []) ++
          ((if indent > 0 then [['\n'], List.replicate (d * indent) ' '] else []) ++ [streamPrimitive p])) ++ cs, by rw [h1]; simp, ?_⟩
    simp only [List.flatten_append, comma_flatten, lineBreak_flatten, h2]
    simp
  | .cons d c (a := a) (b := b) h ht, stack, out => by
    obtain ⟨cs, h1, h2⟩ := prints_run h (.arr c :: stack) out
    obtain ⟨cs', h3, h4⟩ := printsItems_run ht stack (out ++ cs)
    refine ⟨cs ++ cs', ?_, ?_⟩
    · rw [streamSteps_append, h1]
      simp only [jsonAfterContainer]
      rw [h3]
      have := prints_ne h
      cases a with
      | nil => exact absurd rfl this
      | cons => simp
    · simp [h2, h4, beforeText]
theorem printsBody_run {indent d : Nat} {c : Bool} {evs : List (Ev F)} {s : Str} : PrintsBody indent d c evs s → ∀ stack out x,
    ∃ cs, (∃ x', jsonStreamSteps indent ⟨.obj c x :: stack, d, out⟩ evs = .ok ⟨.obj (c || !evs.isEmpty) x' :: stack, d, out ++ cs⟩) ∧ cs.flatten = s
  | .nil d c, stack, out, x => ⟨[], ⟨x, by simp [jsonStreamSteps]⟩, rfl⟩
  | .prim d c k q p ht, stack, out, x => by
    obtain ⟨cs, ⟨x', h1⟩, h2⟩ := printsBody_run ht stack (out ++
        ((if c then [[',']] else []) ++
          ((if indent > 0 then [['\n'], List.replicate (d * indent) ' '] else []) ++
            [serdeString k, if indent > 0 then [':', ' '] else [':']])) ++ [streamPrimitive p]) false
    simp only [jsonStreamSteps, jsonStreamStep, if_true]
    refine ⟨((if c then [[',']] else []) ++
          ((if indent > 0 then [['\n'], List.replicate (d * indent) ' '] else []) ++
            [serdeString k, if indent > 0 then [':', ' '] else [':']])) ++ [streamPrimitive p] ++ cs, ⟨x', by rw [h1]; simp⟩, ?_⟩
    simp only [List.flatten_append, comma_flatten, lineBreak_flatten, h2]
    simp
  | .key d c k q ht, stack, out, x => by
    obtain ⟨cs, ⟨x', h1⟩, h2⟩ := printsBody_run ht stack (out ++
        ((if c then [[',']] else []) ++
          ((if indent > 0 then [['\n'], List.replicate (d * indent) ' '] else []) ++
            [serdeString k, if indent > 0 then [':', ' '] else [':']]))) true
    simp only [jsonStreamSteps, jsonStreamStep]
    refine ⟨((if c then [[',']] else []) ++
          ((if indent > 0 then [['\n'], List.replicate (d * indent) ' '] else []) ++
            [serdeString k, if indent > 0 then [':', ' '] else [':']])) ++ cs, ⟨x', by rw [h1]; simp⟩, ?_⟩
    simp only [List.flatten_append, comma_flatten, lineBreak_flatten, h2]
    simp
  | .container d c (a := a) (b := b) h ht, stack, out, x => by
    obtain ⟨cs, h1, h2⟩ := prints_run h (.obj c x :: stack) out
    obtain ⟨cs', ⟨x', h3⟩, h4⟩ := printsBody_run ht stack (out ++ cs) false
    refine ⟨cs ++ cs', ⟨x', ?_⟩, ?_⟩
    · rw [streamSteps_append, h1]
      simp only [jsonAfterContainer]
      rw [h3]
      have := prints_ne h
      cases a with
      | nil => exact absurd rfl this
      | cons => simp
    · simp [h2, h4, beforeText]
end

theorem printsItems_append {indent d : Nat} {c : Bool} {a b : List (Ev F)} {s t : Str} (h : PrintsItems indent d c a s)
    (h' : PrintsItems indent d (c || !a.isEmpty) b t) : PrintsItems indent d c (a ++ b) (s ++ t) := by
  match h with
  | .nil d c => simpa using h'
  | .prim d c p h2 =>
    have := PrintsItems.prim d c p (printsItems_append h2 (by simpa using h'))
    simpa using this
  | .cons d c (a := x) h1 h2 =>
    have hx := prints_ne h1
    have := PrintsItems.cons d c h1 (printsItems_append h2 (by
      cases x with
      | nil => exact absurd rfl hx
      | cons => simpa using h'))
    simpa using this

theorem printsBody_append {indent d : Nat} {c : Bool} {a b : List (Ev F)} {s t : Str} (h : PrintsBody indent d c a s)
    (h' : PrintsBody indent d (c || !a.isEmpty) b t) : PrintsBody indent d c (a ++ b) (s ++ t) := by
  match h with
  | .nil d c => simpa using h'
  | .prim d c k q p h2 =>
    have := PrintsBody.prim d c k q p (printsBody_append h2 (by simpa using h'))
    simpa using this
  | .key d c k q h2 =>
    have := PrintsBody.key d c k q (printsBody_append h2 (by simpa using h'))
    simpa using this
  | .container d c (a := x) h1 h2 =>
    have hx := prints_ne h1
    have := PrintsBody.container d c h1 (printsBody_append h2 (by
      cases x with
      | nil => exact absurd rfl hx
      | cons => simpa using h'))
    simpa using this

theorem printsRoots_append {indent : Nat} {a b : List (Ev F)} {s t : Str} (h : PrintsRoots indent a s)
    (h' : PrintsRoots indent b t) : PrintsRoots indent (a ++ b) (s ++ t) := by
  induction h with
  | nil => exact h'
  | prim p _ ih => have := PrintsRoots.prim p ih; simpa using this
  | cons h1 _ ih => have := PrintsRoots.cons h1 ih; simpa using this

/-- The text of a key in an object. -/
def jsonKeyText (indent d : Nat) (c : Bool) (k : Str) : Str :=
  (if c then [','] else []) ++ (lineBreak indent d ++ (serdeString k ++ (if indent > 0 then [':', ' '] else [':'])))

/-- What has been read when the printer is in this state, and the text written. -/
inductive PReached (indent : Nat) : List (Ev F) → List JCtx → Str → Prop where
  | roots {evs : List (Ev F)} {s : Str} (h : PrintsRoots indent evs s) : PReached indent evs [] s
  | arr (n : Nat) {a b : List (Ev F)} {stack : List JCtx} {r s : Str} (h : PReached indent a stack r)
      (hb : PrintsItems indent (stack.length + 1) false b s) :
      PReached indent (a ++ .startArr n :: b) (.arr (!b.isEmpty) :: stack) (r ++ (beforeText indent stack.length stack ++ '[' :: s))
  | obj {a b : List (Ev F)} {stack : List JCtx} {r s : Str} (h : PReached indent a stack r)
      (hb : PrintsBody indent (stack.length + 1) false b s) :
      PReached indent (a ++ .startObj :: b) (.obj (!b.isEmpty) false :: stack) (r ++ (beforeText indent stack.length stack ++ '{' :: s))
  | key (k : Str) (q : Bool) {a b : List (Ev F)} {stack : List JCtx} {r s : Str} (h : PReached indent a stack r)
      (hb : PrintsBody indent (stack.length + 1) false b s) :
      PReached indent (a ++ .startObj :: (b ++ [.key k q])) (.obj true true :: stack)
        (r ++ (beforeText indent stack.length stack ++ '{' :: (s ++ jsonKeyText indent (stack.length + 1) (!b.isEmpty) k)))

theorem preached_container {indent : Nat} {a e : List (Ev F)} {stack : List JCtx} {r s : Str} (h : PReached indent a stack r)
    (he : Prints indent stack.length e s) : PReached indent (a ++ e) (jsonAfterContainer stack) (r ++ (beforeText indent stack.length stack ++ s)) := by
  have hne := prints_ne he
  have hne' : ∀ b : List (Ev F), (b ++ e).isEmpty = false := by
    intro b; cases b with
    | nil => cases e with
      | nil => exact absurd rfl hne
      | cons => rfl
    | cons => rfl
  cases h with
  | roots h =>
    have := PReached.roots (printsRoots_append h (.cons he .nil))
    simpa [beforeText, jsonAfterContainer] using this
  | arr n h hb =>
    rename_i a b stack r s'
    have := PReached.arr n h (printsItems_append hb (.cons _ _ he (.nil _ _)))
    simpa [beforeText, jsonAfterContainer, hne'] using this
  | obj h hb =>
    have := PReached.obj h (printsBody_append hb (.container _ _ he (.nil _ _)))
    simpa [beforeText, jsonAfterContainer, hne'] using this
  | key k q h hb =>
    have := PReached.obj h (printsBody_append hb (.key _ _ k q (.container _ _ he (.nil _ _))))
    simpa [beforeText, jsonAfterContainer, hne', jsonKeyText, isEmpty_snoc] using this

theorem preached_step {indent : Nat} {a : List (Ev F)} {st st' : JState} {e : Ev F} (h : PReached indent a st.stack st.out.flatten)
    (hd : st.depth = st.stack.length) (hs : jsonStreamStep indent st e = .ok st') :
    PReached indent (a ++ [e]) st'.stack st'.out.flatten ∧ st'.depth = st'.stack.length := by
  obtain ⟨stack, depth, out⟩ := st
  dsimp only at h hd
  subst hd
  have hafter : ∀ s : List JCtx, (jsonAfterContainer s).length = s.length := by
    intro s; cases s with
    | nil => rfl
    | cons c s => cases c <;> rfl
  cases e with
  | startObj =>
    injection hs with hs; subst hs
    refine ⟨?_, rfl⟩
    have := PReached.obj h (.nil _ _)
    simpa [beforeText_eq] using this
  | startArr n =>
    injection hs with hs; subst hs
    refine ⟨?_, rfl⟩
    have := PReached.arr n h (.nil _ _)
    simpa [beforeText_eq] using this
  | prim p =>
    generalize ho : out.flatten = o at h
    cases h with
    | roots h =>
      injection hs with hs; subst hs
      refine ⟨?_, rfl⟩
      have := PReached.roots (printsRoots_append h (.prim p .nil))
      simpa [ho] using this
    | arr n h hb =>
      injection hs with hs; subst hs
      refine ⟨?_, rfl⟩
      have := PReached.arr n h (printsItems_append hb (.prim _ _ p (.nil _ _)))
      simpa [ho, isEmpty_snoc, comma_flatten', break_flatten] using this
    | obj h hb => cases hs
    | key k q h hb =>
      injection hs with hs; subst hs
      refine ⟨?_, rfl⟩
      have := PReached.obj h (printsBody_append hb (.prim _ _ k q p (.nil _ _)))
      simpa [ho, jsonKeyText, isEmpty_snoc] using this
  | endObj =>
    generalize ho : out.flatten = o at h
    cases h with
    | roots h => cases hs
    | arr n h hb => cases hs
    | obj h hb =>
      injection hs with hs; subst hs
      refine ⟨?_, by simp [hafter]⟩
      have := preached_container h (.obj _ hb)
      rename_i b _ _ _
      cases b <;> simpa [ho, isEmpty_snoc, break_flatten] using this
    | key k q h hb =>
      injection hs with hs; subst hs
      refine ⟨?_, by simp [hafter]⟩
      have := preached_container h (.obj _ (printsBody_append hb (.key _ _ k q (.nil _ _))))
      simpa [ho, isEmpty_snoc, break_flatten, jsonKeyText] using this
  | endArr =>
    generalize ho : out.flatten = o at h
    cases h with
    | roots h => cases hs
    | arr n h hb =>
      injection hs with hs; subst hs
      refine ⟨?_, by simp [hafter]⟩
      have := preached_container h (.arr _ n hb)
      rename_i b _ _ _
      cases b <;> simpa [ho, isEmpty_snoc, break_flatten] using this
    | obj h hb => cases hs
    | key k q h hb => cases hs
  | key k q =>
    generalize ho : out.flatten = o at h
    cases h with
    | roots h => cases hs
    | arr n h hb => cases hs
    | obj h hb =>
      injection hs with hs; subst hs
      refine ⟨?_, rfl⟩
      have := PReached.key k q h hb
      simpa [ho, isEmpty_snoc, comma_flatten', break_flatten, jsonKeyText] using this
    | key k' q' h hb =>
      injection hs with hs; subst hs
      refine ⟨?_, rfl⟩
      have := PReached.key k q h (printsBody_append hb (.key _ _ k' q' (.nil _ _)))
      simpa [ho, isEmpty_snoc, comma_flatten', break_flatten, jsonKeyText] using this

theorem preached_run {indent : Nat} {a evs : List (Ev F)} {st st' : JState} (h : PReached indent a st.stack st.out.flatten)
    (hd : st.depth = st.stack.length) (hs : jsonStreamSteps indent st evs = .ok st') : PReached indent (a ++ evs) st'.stack st'.out.flatten := by
  induction evs generalizing a st with
  | nil => injection hs with hs; subst hs; simpa using h
  | cons e evs ih =>
    rw [jsonStreamSteps] at hs
    cases h1 : jsonStreamStep indent st e with
    | error x => rw [h1] at hs; cases hs
    | ok st1 =>
      rw [h1] at hs
      obtain ⟨h2, h3⟩ := preached_step h hd h1
      have := ih h2 h3 hs
      simpa using this

theorem printsRoots_run {indent : Nat} {evs : List (Ev F)} {s : Str} (h : PrintsRoots indent evs s) : ∀ out,
    ∃ cs, jsonStreamSteps indent ⟨[], 0, out⟩ evs = .ok ⟨[], 0, out ++ cs⟩ ∧ cs.flatten = s := by
  induction h with
  | nil => exact fun out => ⟨[], by simp [jsonStreamSteps], rfl⟩
  | prim p _ ih =>
    intro out
    obtain ⟨cs, h1, h2⟩ := ih (out ++ [streamPrimitive p])
    exact ⟨streamPrimitive p :: cs, by simp [jsonStreamSteps, jsonStreamStep, h1], by simp [h2]⟩
  | cons h _ ih =>
    intro out
    obtain ⟨cs, h1, h2⟩ := prints_run h [] out
    obtain ⟨cs', h3, h4⟩ := ih (out ++ cs)
    refine ⟨cs ++ cs', ?_, by simp [h2, h4, beforeText]⟩
    rw [streamSteps_append, h1]
    simp [jsonAfterContainer, h3]

theorem jsonStream_iff (indent : Nat) (evs : List (Ev F)) (s : Str) :
    (∃ cs, jsonStreamFromEvents evs indent = .ok cs ∧ cs.flatten = s) ↔ PrintsRoots indent evs s := by
  constructor
  · rintro ⟨cs, h, rfl⟩
    unfold jsonStreamFromEvents at h
    cases hs : jsonStreamSteps indent ⟨[], 0, []⟩ evs with
    | error e => rw [hs] at h; cases h
    | ok st =>
      rw [hs] at h
      have hr := preached_run (a := []) (st := ⟨[], 0, []⟩) (.roots .nil) rfl hs
      obtain ⟨stack, depth, out⟩ := st
      cases stack with
      | cons c stack => cases h
      | nil =>
        have : out = cs := by simpa using h
        subst this
        rw [List.nil_append] at hr
        generalize out.flatten = o at hr
        cases hr with
        | roots h => exact h
  · intro h
    obtain ⟨cs, h1, h2⟩ := printsRoots_run h []
    refine ⟨cs, ?_, h2⟩
    unfold jsonStreamFromEvents
    rw [h1]
    simp

end

end Toon
