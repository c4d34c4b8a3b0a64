import Verif.Lemmas.Shards
import Verif.Lemmas.Float64
import Verif.Lemmas.Dec
import Verif.Props.Clashes
import Verif.Props.SurviveExpand

/-!
# C107: texts of several objects, one after the other

`Parts`, `partsText` (the texts of the parts, a line break between them) and `GoodParts` (the same indentation, good
delimiters, no empty object) are in `Spec/Shards.lean`, `Collide` in `Spec/Clashes.lean`, `mergeObj` in `Spec/Expansion.lean`.
-/

namespace Toon

section
variable {F : Type} [F64 F] [LawfulF64 F]

/-- C107.  Without path expansion the text of all parts is read as the entries of all parts, one after the other; it is accepted
exactly if the text of every part is. -/
theorem C107_plain (indent : Nat) (strict : Bool) (hi : 0 < indent) (parts : Parts F) (hg : GoodParts indent parts) (v : Json F) :
    decode ⟨indent, strict, false⟩ (partsText parts) = .ok v ↔
    ∃ bs, Pointwise (fun p b => decode ⟨indent, strict, false⟩ (encode p.1 (.obj p.2)) = .ok (.obj b)) parts bs ∧ v = .obj bs.flatten := by
  rw [C58_value _ rfl]
  simp only [parts_means strict hi parts hg]
  have single : ∀ p ∈ parts, ∀ t, TextMeans (F := F) indent strict (splitOn '\n' (encode p.1 (.obj p.2))) t → ∃ ts, t = .obj ts := by
    intro p hm t ht
    obtain ⟨ha, hb, hc, hd⟩ := hg.2 p hm
    have := (parts_means strict hi [p] ⟨by simp, by intro q hq; simp at hq; subst hq; exact ⟨ha, hb, hc, hd⟩⟩ t).mp
      (by simpa [partsText, joinWith] using ht)
    obtain ⟨tss, _, rfl⟩ := this
    exact ⟨_, rfl⟩
  have hjoin : ∀ tss : List (List (Str × Bool × ETree F)), ETree.jsonEntries tss.flatten = (tss.map ETree.jsonEntries).flatten := by
    intro tss
    induction tss with
    | nil => rfl
    | cons ts tss ih =>
      rw [List.flatten_cons, List.map_cons, List.flatten_cons, ← ih]
      induction ts with
      | nil => rfl
      | cons e ts ih => obtain ⟨k, q, t⟩ := e; simp [ETree.jsonEntries, ih]
  have to : ∀ (ps : Parts F) (tss : List (List (Str × Bool × ETree F))), Pointwise (fun p ts =>
      TextMeans indent strict (splitOn '\n' (encode p.1 (.obj p.2))) (.obj ts)) ps tss →
      Pointwise (fun p b => decode ⟨indent, strict, false⟩ (encode p.1 (.obj p.2)) = .ok (.obj b)) ps (tss.map ETree.jsonEntries) := by
    intro ps tss h
    induction h with
    | nil => exact .nil
    | cons h1 _ ih => exact .cons ((C58_value _ rfl _ _).mpr ⟨_, h1, by rw [ETree.json]⟩) ih
  have fro : ∀ (ps : Parts F) (bs : List (List (Str × Json F))), (∀ p ∈ ps, p ∈ parts) →
      Pointwise (fun p b => decode ⟨indent, strict, false⟩ (encode p.1 (.obj p.2)) = .ok (.obj b)) ps bs →
      ∃ tss, Pointwise (fun p ts => TextMeans indent strict (splitOn '\n' (encode p.1 (.obj p.2))) (.obj ts)) ps tss ∧
        bs = tss.map ETree.jsonEntries := by
    intro ps bs hm h
    induction h with
    | nil => exact ⟨[], .nil, rfl⟩
    | @cons p b ps bs h1 _ ih =>
      obtain ⟨tss, h2, rfl⟩ := ih fun q hq => hm q (by simp [hq])
      obtain ⟨t, h3, h4⟩ := (C58_value _ rfl _ _).mp h1
      obtain ⟨ts, rfl⟩ := single p (hm p (by simp)) t h3
      simp only [ETree.json, Json.obj.injEq] at h4
      exact ⟨ts :: tss, .cons h3 h2, by rw [h4, List.map_cons]⟩
  constructor
  · rintro ⟨t, ⟨tss, h1, rfl⟩, rfl⟩
    exact ⟨_, to _ _ h1, by rw [ETree.json, hjoin]⟩
  · rintro ⟨bs, h1, rfl⟩
    obtain ⟨tss, h2, rfl⟩ := fro _ _ (fun _ h => h) h1
    exact ⟨_, ⟨tss, h2, rfl⟩, by rw [ETree.json, hjoin]⟩

/-- C107.  With path expansion in strict mode: parts that are accepted give, one after the other, their deep merge, or a
conflict exactly if two of them collide. -/
theorem C107_merged (indent : Nat) (hi : 0 < indent) (parts : Parts F) (hg : GoodParts indent parts) (bs : List (List (Str × Json F)))
    (h : Pointwise (fun p b => decode ⟨indent, true, true⟩ (encode p.1 (.obj p.2)) = .ok (.obj b)) parts bs)
    (hh : ∀ b ∈ bs, height (.obj b) ≤ 127) :
    ((bs.Pairwise fun b c => ¬ Collide (.obj b) (.obj c)) →
      decode ⟨indent, true, true⟩ (partsText parts) = .ok (.obj (bs.foldl mergeObj []))) ∧
    (¬ (bs.Pairwise fun b c => ¬ Collide (.obj b) (.obj c)) →
      ∃ c, decode (F := F) ⟨indent, true, true⟩ (partsText parts) = .error (.pathConflict c)) := by
  have single : ∀ p ∈ parts, ∀ t, TextMeans (F := F) indent true (splitOn '\n' (encode p.1 (.obj p.2))) t → ∃ ts, t = .obj ts := by
    intro p hm t ht
    obtain ⟨ha, hb, hc, hd⟩ := hg.2 p hm
    have := (parts_means true hi [p] ⟨by simp, by intro q hq; simp at hq; subst hq; exact ⟨ha, hb, hc, hd⟩⟩ t).mp
      (by simpa [partsText, joinWith] using ht)
    obtain ⟨tss, _, rfl⟩ := this
    exact ⟨_, rfl⟩
  have trees : ∀ (ps : Parts F) (bs : List (List (Str × Json F))), (∀ p ∈ ps, p ∈ parts) → (∀ b ∈ bs, height (.obj b) ≤ 127) →
      Pointwise (fun p b => decode ⟨indent, true, true⟩ (encode p.1 (.obj p.2)) = .ok (.obj b)) ps bs →
      ∃ tss, Pointwise (fun p ts => TextMeans indent true (splitOn '\n' (encode p.1 (.obj p.2))) (.obj ts)) ps tss ∧
        Pointwise (fun ts b => expanded (.obj ts) = .obj b ∧ conflicting (.obj ts) = false) tss bs ∧
        ∀ ts ∈ tss, pathHeight (.obj ts) ≤ 127 := by
    intro ps bs hm hb h
    induction h with
    | nil => exact ⟨[], .nil, .nil, by simp⟩
    | @cons p b ps bs h1 _ ih =>
      obtain ⟨tss, h2, h3, h4⟩ := ih (fun q hq => hm q (by simp [hq])) fun c hc => hb c (by simp [hc])
      obtain ⟨t, h5, h6, h7⟩ := C27_value ⟨indent, true, true⟩ rfl _ _ h1
      obtain ⟨t', h8, h9⟩ := (C58_events _ _ _ _).mp h5
      cases events_inj h9
      obtain ⟨ts, rfl⟩ := single p (hm p (by simp)) t h8
      refine ⟨ts :: tss, .cons h8 h2, .cons ⟨h6.symm, h7 rfl⟩ h3, ?_⟩
      intro us hu
      rcases List.mem_cons.mp hu with rfl | hu
      · have := expanded_heights _ (h7 rfl)
        rw [← h6] at this
        rw [← this]
        exact hb b (by simp)
      · exact h4 us hu
  obtain ⟨tss, h1, h2, h3⟩ := trees parts bs (fun _ h => h) hh h
  have hq := parts_quotes hi hg.2 h1
  have hm := (parts_means true hi parts hg _).mpr ⟨tss, h1, rfl⟩
  obtain ⟨h4, h5⟩ := expanded_flatten tss [] [] bs (by simpa using hq) (by rw [expanded]; rfl) rfl h2
  simp only [List.nil_append] at h4 h5
  have hpw : (bs.Pairwise fun b c => ¬ Collide (.obj b) (.obj c)) ↔ conflicting (.obj tss.flatten) = false := by
    rw [h4]
    have hdist : ∀ b ∈ bs, DistinctKeys (.obj b) := by
      intro b hb
      clear h4 h5 h1 hq hm h hh h3
      induction h2 with
      | nil => simp at hb
      | @cons ts c _ _ h1 _ ih =>
        rcases List.mem_cons.mp hb with rfl | hb
        · rw [← h1.1]; exact expanded_distinct _
        · exact ih hb
    have : ∀ b c : List (Str × Json F), DistinctKeys (.obj c) → (¬ Collide (.obj b) (.obj c) ↔ clashEntries b c = false) := by
      intro b c hc
      rw [← clash_collide _ _ hc, clash]
      simp
    constructor
    · intro hp
      exact ⟨fun b _ => clashEntries_nil b, hp.imp_of_mem fun {b c} _ hc hbc => (this b c (hdist c hc)).mp hbc⟩
    · rintro ⟨_, hp⟩
      exact hp.imp_of_mem fun {b c} _ hc hbc => (this b c (hdist c hc)).mpr hbc
  rcases C102_depth ⟨indent, true, true⟩ rfl _ _ hm (pathHeight_flatten tss (by omega) h3 hq) with ⟨h6, h7⟩ | ⟨_, h7, c, h6⟩
  · exact ⟨fun _ => by rw [h6, h5 (h7 rfl)], fun hn => absurd (hpw.mpr (h7 rfl)) hn⟩
  · refine ⟨fun hp => ?_, fun _ => ⟨c, h6⟩⟩
    rw [hpw.mp hp] at h7
    simp at h7

/-- C107.  So values that survive by themselves (C80) can be written in parts. -/
theorem C107_values (indent : Nat) (hi : 0 < indent) (parts : Parts F) (hg : GoodParts indent parts)
    (hv : ∀ p ∈ parts, DistinctKeys (.obj p.2) ∧ Writable true (.obj p.2) ∧ PlainNumbers (.obj p.2) ∧ NoDottedKeys (.obj p.2) ∧
      Aligned true (.obj p.2) ∧ height (.obj p.2) ≤ 127)
    (hc : parts.Pairwise fun p q => ¬ Collide (.obj p.2) (.obj q.2)) :
    decode ⟨indent, true, true⟩ (partsText parts) = .ok (.obj ((parts.map Prod.snd).foldl mergeObj [])) := by
  refine (C107_merged indent hi parts hg (parts.map Prod.snd) ?_ ?_).1 ?_
  · have : ∀ ps : Parts F, (∀ p ∈ ps, p ∈ parts) → Pointwise (fun p b =>
        decode ⟨indent, true, true⟩ (encode p.1 (.obj p.2)) = .ok (.obj b)) ps (ps.map Prod.snd) := by
      intro ps
      induction ps with
      | nil => intro _; exact .nil
      | cons p ps ih =>
        intro hm
        obtain ⟨ha, hb, hs, _⟩ := hg.2 p (hm p (by simp))
        obtain ⟨h1, h2, h3, h4, h5, h6⟩ := hv p (hm p (by simp))
        refine .cons ?_ (ih fun q hq => hm q (by simp [hq]))
        have := (C80_survives_exact p.1 true (.obj p.2) (by rw [ha]; exact hi) hb h1 hs h6).mpr ⟨h2, h3, h4, h5⟩
        rw [ha] at this
        exact this
    exact this parts fun _ h => h
  · intro b hb
    obtain ⟨p, hm, rfl⟩ := List.mem_map.mp hb
    exact (hv p hm).2.2.2.2.2
  · exact List.pairwise_map.mpr hc

end

/-! ## Non-vacuity -/

namespace JoinExpanded

/-- Two parts, the first with key folding, the second with other delimiters. -/
def twoParts : Parts B64 :=
  [(⟨2, ',', true, 4⟩, [("a".toList, .obj [("b".toList, .prim (.str "u".toList))])]),
   (⟨2, '|', false, 4⟩, [("a".toList, .obj [("c".toList, .prim (.str "v".toList)), ("d".toList, .obj [])])])]

theorem twoParts_good : GoodParts 2 twoParts := by
  refine ⟨by simp [twoParts], ?_⟩
  intro p hp
  simp only [twoParts, List.mem_cons, List.not_mem_nil, or_false] at hp
  rcases hp with rfl | rfl
  · exact ⟨rfl, by decide, by simp [Sized, SizedEntries], by simp⟩
  · exact ⟨rfl, by decide, by simp [Sized, SizedEntries], by simp⟩

/-- C107_values (and with it C107_merged): the parts are merged. -/
example : decode (F := B64) ⟨2, true, true⟩ (partsText twoParts) =
    .ok (.obj [("a".toList, .obj [("b".toList, .prim (.str "u".toList)),
      ("c".toList, .prim (.str "v".toList)), ("d".toList, .obj [])])]) := by
  have := C107_values 2 (by decide) twoParts twoParts_good
    (by intro p hp
        simp only [twoParts, List.mem_cons, List.not_mem_nil, or_false] at hp
        rcases hp with rfl | rfl
        · exact ⟨by simp [DistinctKeys, DistinctKeysEntries], by simp [Writable, WritableEntries]; decide +kernel,
            by simp [PlainNumbers, AllPrims, AllPrimsEntries, PlainPrim],
            by simp only [NoDottedKeys, AllKeys, AllKeysEntries]; decide +kernel, by simp [Aligned, AlignedEntries], by decide⟩
        · exact ⟨by simp only [DistinctKeys, DistinctKeysEntries]; decide, by simp [Writable, WritableEntries]; decide +kernel,
            by simp [PlainNumbers, AllPrims, AllPrimsEntries, PlainPrim],
            by simp only [NoDottedKeys, AllKeys, AllKeysEntries]; decide +kernel, by simp [Aligned, AlignedEntries], by decide⟩)
    (by simp only [twoParts, List.pairwise_cons, List.mem_cons, List.not_mem_nil, or_false, forall_eq, List.Pairwise.nil, and_true]
        refine ⟨?_, by simp⟩
        rw [← clash_collide _ _ (by simp only [DistinctKeys, DistinctKeysEntries]; decide)]
        decide +kernel)
  rw [this]
  decide +kernel

/-- C107_plain: without path expansion the text has the entries of both. -/
example (v : Json B64) : decode ⟨2, true, false⟩ (partsText twoParts) = .ok v ↔
    ∃ bs, Pointwise (fun p b => decode ⟨2, true, false⟩ (encode p.1 (.obj p.2)) = .ok (.obj b)) twoParts bs ∧ v = .obj bs.flatten :=
  C107_plain 2 true (by decide) twoParts twoParts_good v

end JoinExpanded

end Toon
