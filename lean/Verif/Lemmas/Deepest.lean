import Verif.Lemmas.QuotedText
import Verif.Lemmas.Levels
import Verif.Lemmas.Hurdles
import Verif.Lemmas.OutcomeFold

/-! A text whose expanded value nests as deep as possible. -/

namespace Toon

section
variable {F : Type}

/-- `n` identifiers joined by dots. -/
def longKey (n : Nat) : Str := dotted (List.replicate n ['a'])

/-- Objects inside each other, the keys of which get two segments shorter, around four arrays. -/
def deepTree : Nat → ETree F
  | 0 => .arr 1 [.arr 1 [.arr 1 [.arr 0 []]]]
  | n + 1 => .obj [(longKey (2 * n + 3), false, deepTree n)]

theorem longKey_path (n : Nat) : keyPath false (longKey (2 * n + 3)) = List.replicate (2 * n + 3) ['a'] :=
  keyPath_dotted (by simp) (fun s hs => by rw [List.eq_of_mem_replicate hs]; decide)

theorem deepTree_key (n : Nat) (t : ETree F) : quotedIn [(longKey (2 * n + 3), false, t)] (longKey (2 * n + 3)) = false := by
  simp [quotedIn]

theorem longKey_bare (n : Nat) : isValidUnquotedKey (longKey (2 * n + 3)) = true :=
  dotted_bare ⟨_, by simp, fun s hs => by rw [List.eq_of_mem_replicate hs]; decide, rfl⟩

theorem pathHurdles_fresh (v : Json F) : ∀ (segs : List Str) (n : Nat), ∀ h ∈ pathHurdles n [] segs v,
    ∃ m, h = .level m ∧ m ≤ n + segs.length
  | [], n, h, hm => by simp [pathHurdles] at hm
  | [s], n, h, hm => by
    simp only [pathHurdles, literalHurdles, lookupKey, List.mem_cons, List.not_mem_nil, or_false] at hm
    rcases hm with rfl | rfl
    · exact ⟨n, rfl, by simp⟩
    · exact ⟨n + 1, rfl, by simp⟩
  | s :: s' :: ss, n, h, hm => by
    simp only [pathHurdles, lookupKey, List.mem_cons] at hm
    rcases hm with rfl | hm
    · exact ⟨n, rfl, by simp⟩
    · obtain ⟨m, rfl, h1⟩ := pathHurdles_fresh v (s' :: ss) (n + 1) h (by simpa [lookupKey] using hm)
      exact ⟨m, rfl, by simp only [List.length_cons] at h1 ⊢; omega⟩

theorem deepTree_hurdles : ∀ (k n : Nat), n + 2 * k ≤ 253 → ∀ h ∈ hurdles n (deepTree (F := F) k), ∃ m, h = .level m ∧ m ≤ 256
  | 0, n, hn, h, hm => by
    simp only [deepTree, hurdles, hurdlesItems, List.append_nil, List.mem_cons, List.not_mem_nil, or_false] at hm
    rcases hm with rfl | rfl | rfl | rfl
    · exact ⟨_, rfl, by omega⟩
    · exact ⟨_, rfl, by omega⟩
    · exact ⟨_, rfl, by omega⟩
    · exact ⟨_, rfl, by omega⟩
  | k + 1, n, hn, h, hm => by
    simp only [deepTree, hurdles, hurdlesEntries, deepTree_key, longKey_path, List.append_nil, List.mem_cons, List.mem_append] at hm
    rcases hm with rfl | rfl | hm | hm
    · exact ⟨_, rfl, by omega⟩
    · exact ⟨_, rfl, by omega⟩
    · exact deepTree_hurdles k (n + 2) (by omega) h hm
    · have he : insertHurdles (n + 2) [] (List.replicate (2 * k + 3) ['a']) (expanded (deepTree (F := F) k)) =
          pathHurdles (n + 2) [] (List.replicate (2 * k + 3) ['a']) (expanded (deepTree (F := F) k)) := by
        rw [show 2 * k + 3 = (2 * k + 1) + 1 + 1 by omega, List.replicate_succ, List.replicate_succ, insertHurdles]
        simp
      rw [he] at hm
      obtain ⟨m, rfl, h1⟩ := pathHurdles_fresh _ _ _ _ hm
      rw [List.length_replicate] at h1
      exact ⟨m, rfl, by omega⟩

theorem deepTree_height : ∀ k : Nat, height (expanded (deepTree (F := F) k)) = 4 + k * (k + 2)
  | 0 => by simp [deepTree, expanded, expandedItems, height, heightItems]
  | k + 1 => by
    simp only [deepTree, expanded, expandedEntries, deepTree_key, longKey_path, height]
    rw [show 2 * k + 3 = (2 * k + 2) + 1 by omega, List.replicate_succ, atPath, mergeObj_nil]
    simp only [heightEntries, nested_height, List.length_replicate, deepTree_height k]
    have : (k + 1) * (k + 1 + 2) = k * (k + 2) + (2 * k + 3) := by
      simp only [Nat.mul_add, Nat.add_mul]; omega
    omega

variable [F64 F]

theorem deepTree_base (depth : Nat) (key : Option Str) : ∃ c tl, LineOk c ∧ LinesOk tl ∧
    ∀ ctx : Ctx, ctx.blanks = [] → ArrRun (F := F) ctx depth c tl key (.ok (ETree.events (deepTree 0))) := by
  refine ⟨formatHeader 1 key none ',',
    [⟨depth + 1, dash (formatHeader 1 none none ',')⟩, ⟨depth + 1 + 1, dash (formatHeader 1 none none ',')⟩,
      ⟨depth + 1 + 1 + 1, dash (formatHeader 0 none none ',')⟩], lineOk_header 1 key none (Or.inl rfl), ?_, ?_⟩
  · exact (((LinesOk.nil).cons (lineOk_dash (lineOk_header 0 none none (Or.inl rfl)))).cons
      (lineOk_dash (lineOk_header 1 none none (Or.inl rfl)))).cons (lineOk_dash (lineOk_header 1 none none (Or.inl rfl)))
  · intro ctx hb
    have h0 := arrRun_list (F := F) hb (base := depth + 1 + 1 + 1) (d := ',') (Or.inl rfl) (key := none) (by decide) .nil
    have h1 := arrRun_list hb (base := depth + 1 + 1) (d := ',') (Or.inl rfl) (key := none) (by decide) (.cons (itemRun_arr h0) .nil)
    have h2 := arrRun_list hb (base := depth + 1) (d := ',') (Or.inl rfl) (key := none) (by decide) (.cons (itemRun_arr h1) .nil)
    have h3 := arrRun_list hb (base := depth) (d := ',') (Or.inl rfl) (key := key) (by decide) (.cons (itemRun_arr h2) .nil)
    simpa [Reading.seq, deepTree, ETree.events, ETree.eventsItems] using h3

theorem deepTree_entries : ∀ (k depth : Nat), ∃ os, LinesOk os ∧ ∀ ctx : Ctx, ctx.blanks = [] →
    KVRuns (F := F) ctx depth os (.ok (ETree.eventsEntries [(longKey (2 * k + 3), false, deepTree k)]))
  | 0, depth => by
    obtain ⟨c, tl, h1, h2, h3⟩ := deepTree_base (F := F) depth (some (longKey 3))
    refine ⟨⟨depth, c⟩ :: tl ++ [], (h2.cons h1).append .nil, fun ctx hb => ?_⟩
    have := KVRuns.cons (kvRun_arr (h3 ctx hb)) .nil
    have hq := longKey_bare 0
    simp only [Nat.mul_zero, Nat.zero_add] at hq
    simpa [Reading.seq, ETree.eventsEntries, hq] using this
  | k + 1, depth => by
    obtain ⟨os, h1, h2⟩ := deepTree_entries k (depth + 1)
    refine ⟨⟨depth, encodeKey (longKey (2 * (k + 1) + 3)) ++ [':']⟩ :: os ++ [], (h1.cons (lineOk_keyColon _)).append .nil, fun ctx hb => ?_⟩
    have := KVRuns.cons (kvRun_obj (k := longKey (2 * (k + 1) + 3)) (h2 ctx hb)) .nil
    simpa [Reading.seq, ETree.eventsEntries, ETree.events, longKey_bare, deepTree] using this

omit [F64 F] in
theorem deepTree_events (k : Nat) : ETree.events (deepTree (F := F) (k + 1)) =
    .startObj :: ETree.eventsEntries [(longKey (2 * k + 3), false, deepTree k)] ++ [.endObj] := by
  rw [deepTree, ETree.events]

end

end Toon
