import Verif.Model.Expand

/-! What strict path expansion accepts lax path expansion accepts with the same result. -/

namespace Toon

section
variable {F : Type}

mutual
theorem mergeInto_lax {depth : Nat} {target out : List (Str × Node F)} {source : Node F}
    (h : mergeInto true depth target source = .ok out) : mergeInto false depth target source = .ok out := by
  match source, h with
  | .obj es q, h =>
    simp only [mergeInto] at h ⊢
    split
    · rename_i hd; rw [if_pos hd] at h; exact h
    · rename_i hd; rw [if_neg hd] at h; exact mergeEntries_lax h
  | .prim p, h => simp [mergeInto] at h
  | .arr _, h => simp [mergeInto] at h
theorem mergeEntries_lax {depth : Nat} {target out source : List (Str × Node F)}
    (h : mergeEntries true depth target source = .ok out) : mergeEntries false depth target source = .ok out := by
  match source, h with
  | [], h => simpa only [mergeEntries] using h
  | (key, value) :: rest, h =>
    simp only [mergeEntries] at h ⊢
    cases hg : entryGet target key with
    | none => simp only [hg] at h ⊢; exact mergeEntries_lax h
    | some old =>
      cases old with
      | obj es q =>
        cases value with
        | obj es2 q2 =>
          simp only [hg] at h ⊢
          cases hm : mergeInto true (depth + 1) es (.obj es2 q2) with
          | error e => rw [hm] at h; simp at h
          | ok merged =>
            rw [hm] at h
            rw [mergeInto_lax hm]
            exact mergeEntries_lax h
        | prim p => simp [hg] at h
        | arr ns => simp [hg] at h
      | prim p => simp [hg] at h
      | arr ns => simp [hg] at h
end

theorem insertLiteral_lax {depth : Nat} {entries out : List (Str × Node F)} {key : Str} {value : Node F}
    (h : insertLiteral true depth entries key value = .ok out) : insertLiteral false depth entries key value = .ok out := by
  unfold insertLiteral at h ⊢
  split
  · rename_i hd; rw [if_pos hd] at h; exact h
  · rename_i hd
    rw [if_neg hd] at h
    cases hg : entryGet entries key with
    | none => simp only [hg] at h ⊢; exact h
    | some old =>
      cases old with
      | obj es q =>
        cases value with
        | obj es2 q2 =>
          simp only [hg] at h ⊢
          cases hm : mergeInto true (depth + 1) es (.obj es2 q2) with
          | error e => rw [hm] at h; simp at h
          | ok merged =>
            rw [hm] at h
            rw [mergeInto_lax hm]
            exact h
        | prim p => simp [hg] at h
        | arr ns => simp [hg] at h
      | prim p => simp [hg] at h
      | arr ns => simp [hg] at h

theorem insertPath_lax {segments : List Str} : ∀ {depth : Nat} {entries out : List (Str × Node F)} {value : Node F},
    insertPath true depth entries segments value = .ok out → insertPath false depth entries segments value = .ok out := by
  induction segments with
  | nil => intro depth entries out value h; simpa only [insertPath] using h
  | cons key segs ih =>
    intro depth entries out value h
    cases segs with
    | nil =>
      simp only [insertPath] at h ⊢
      split
      · rename_i hd; rw [if_pos hd] at h; exact h
      · rename_i hd; rw [if_neg hd] at h; exact insertLiteral_lax h
    | cons s ss =>
      rw [insertPath] at h ⊢
      · split
        · rename_i hd; rw [if_pos hd] at h; exact h
        · rename_i hd
          rw [if_neg hd] at h
          cases hg : entryGet entries key with
          | none =>
            simp only [hg] at h ⊢
            cases hm : insertPath true (depth + 1) [] (s :: ss) value with
            | error e => rw [hm] at h; simp at h
            | ok es' => rw [hm] at h; rw [ih hm]; exact h
          | some old =>
            cases old with
            | obj es q =>
              simp only [hg] at h ⊢
              cases hm : insertPath true (depth + 1) es (s :: ss) value with
              | error e => rw [hm] at h; simp at h
              | ok es' => rw [hm] at h; rw [ih hm]; exact h
            | prim p => simp [hg] at h
            | arr ns => simp [hg] at h
      · simp
      · simp

mutual
theorem expandInner_lax {n n' : Node F} {depth : Nat} (h : expandInner true n depth = .ok n') :
    expandInner false n depth = .ok n' := by
  match n, h with
  | .arr items, h =>
    simp only [expandInner] at h ⊢
    split
    · rename_i hd; rw [if_pos hd] at h; exact h
    · rename_i hd
      rw [if_neg hd] at h
      cases hm : expandItems true items (depth + 1) with
      | error e => rw [hm] at h; simp at h
      | ok ns => rw [hm] at h; rw [expandItems_lax hm]; exact h
  | .obj entries quoted, h =>
    simp only [expandInner] at h ⊢
    split
    · rename_i hd; rw [if_pos hd] at h; exact h
    · rename_i hd
      rw [if_neg hd] at h
      split
      · rename_i hd; rw [if_pos hd] at h; exact h
      · rename_i hd
        rw [if_neg hd] at h
        cases hm : expandEntries true quoted entries (depth + 1) [] with
        | error e => rw [hm] at h; simp at h
        | ok ns => rw [hm] at h; rw [expandEntries_lax hm]; exact h
  | .prim p, h => simpa only [expandInner] using h
theorem expandItems_lax {ns ns' : List (Node F)} {depth : Nat} (h : expandItems true ns depth = .ok ns') :
    expandItems false ns depth = .ok ns' := by
  match ns, h with
  | [], h => simpa only [expandItems] using h
  | n :: ns, h =>
    simp only [expandItems] at h ⊢
    cases h1 : expandInner true n depth with
    | error e => rw [h1] at h; simp at h
    | ok m =>
      rw [h1] at h
      rw [expandInner_lax h1]
      cases h2 : expandItems true ns depth with
      | error e => rw [h2] at h; simp at h
      | ok ms => rw [h2] at h; rw [expandItems_lax h2]; exact h
theorem expandEntries_lax {quoted : List Str} {es acc out : List (Str × Node F)} {depth : Nat}
    (h : expandEntries true quoted es depth acc = .ok out) : expandEntries false quoted es depth acc = .ok out := by
  match es, h with
  | [], h => simpa only [expandEntries] using h
  | (key, value) :: rest, h =>
    simp only [expandEntries] at h ⊢
    cases h1 : expandInner true value (depth + 1) with
    | error e => rw [h1] at h; simp at h
    | ok v =>
      rw [h1] at h
      rw [expandInner_lax h1]
      simp only at h ⊢
      cases hs : expandSegments key quoted with
      | none =>
        simp only [hs] at h ⊢
        cases h2 : insertLiteral true (depth + 1) acc key v with
        | error e => rw [h2] at h; simp at h
        | ok acc' => rw [h2] at h; rw [insertLiteral_lax h2]; exact expandEntries_lax h
      | some segs =>
        simp only [hs] at h ⊢
        cases h2 : insertPath true (depth + 1) acc segs v with
        | error e => rw [h2] at h; simp at h
        | ok acc' => rw [h2] at h; rw [insertPath_lax h2]; exact expandEntries_lax h
end

end

end Toon
