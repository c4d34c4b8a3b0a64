import Verif.Model.Message
import Verif.Lemmas.Str

/-!
# The messages of different errors differ
-/

namespace Toon

theorem natDigits_inj {a b : Nat} (h : natDigits a = natDigits b) : a = b := by
  rw [← digitsVal_natDigits a, h, digitsVal_natDigits]

/-- Where digits end. -/
theorem digits_end : (u v : Str) → {x y : Char} → {s t : Str} → (∀ c ∈ u, c.isDigit = true) → (∀ c ∈ v, c.isDigit = true) →
    x.isDigit = false → y.isDigit = false → u ++ x :: s = v ++ y :: t → u = v ∧ x = y ∧ s = t
  | [], [], _, _, _, _, _, _, _, _, h => by simpa using h
  | c :: u, [], _, _, _, _, hu, _, _, hy, h => by
    simp only [List.cons_append, List.nil_append, List.cons.injEq] at h
    rw [← h.1, hu c (by simp)] at hy
    cases hy
  | [], c :: v, _, _, _, _, _, hv, hx, _, h => by
    simp only [List.cons_append, List.nil_append, List.cons.injEq] at h
    rw [h.1, hv c (by simp)] at hx
    cases hx
  | c :: u, d :: v, _, _, _, _, hu, hv, hx, hy, h => by
    simp only [List.cons_append, List.cons.injEq] at h
    have := digits_end u v (fun c hc => hu c (by simp [hc])) (fun c hc => hv c (by simp [hc])) hx hy h.2
    exact ⟨by rw [h.1, this.1], this.2⟩

theorem number_end {a b : Nat} {x y : Char} {s t : Str} (hx : x.isDigit = false) (hy : y.isDigit = false)
    (h : natDigits a ++ x :: s = natDigits b ++ y :: t) : a = b ∧ x = y ∧ s = t := by
  have := digits_end _ _ (fun c hc => natDigits_mem hc) (fun c hc => natDigits_mem hc) hx hy h
  exact ⟨natDigits_inj this.1, this.2⟩

theorem number_eq {a b : Nat} {x : Char} {s t : Str} (hx : x.isDigit = false) :
    natDigits a ++ x :: s = natDigits b ++ x :: t ↔ a = b ∧ s = t :=
  ⟨fun h => ⟨(number_end hx hx h).1, (number_end hx hx h).2.2⟩, fun h => by rw [h.1, h.2]⟩

theorem number_ne_text {a : Nat} {c : Char} {s t : Str} (hc : c.isDigit = false) : natDigits a ++ s ≠ c :: t := by
  intro h
  have := natDigits_ne_nil a
  cases hd : natDigits a with
  | nil => exact this hd
  | cons d ds =>
    rw [hd] at h
    simp only [List.cons_append, List.cons.injEq] at h
    have := natDigits_mem (n := a) (c := d) (by rw [hd]; simp)
    rw [h.1, hc] at this
    cases this

theorem kind_end {s t : Str} {k l : NodeKind} (h : s ++ k.text = t ++ l.text) : k = l ∧ s = t := by
  have hk : k = l := by
    have := congrArg List.getLast? h
    have hp : NodeKind.primitive.text.getLast? = some 'e' := by decide +kernel
    have ha : NodeKind.array.text.getLast? = some 'y' := by decide +kernel
    have ho : NodeKind.object.text.getLast? = some 't' := by decide +kernel
    cases k <;> cases l <;> first
      | rfl
      | (simp only [List.getLast?_append, hp, ha, ho, Option.some_or, Option.some.injEq, Char.reduceEq] at this)
  subst hk
  exact ⟨rfl, List.append_cancel_right h⟩

theorem differ (n : Nat) {u v s t : Str} (hu : n ≤ u.length) (hv : n ≤ v.length) (hn : u.take n ≠ v.take n) : u ++ s ≠ v ++ t := by
  intro h
  have := congrArg (List.take n) h
  rw [List.take_append_of_le_length hu, List.take_append_of_le_length hv] at this
  exact hn this

theorem conflict_distinct {c c' : Conflict} (h : c.text = c'.text) : c = c' := by
  cases c with
  | segment k f => cases c' with
    | segment k' f' =>
      dsimp only [Conflict.text] at h
      obtain ⟨rfl, h1⟩ := kind_end h
      rw [List.append_cancel_left (List.append_cancel_right h1)]
    | merge k' l r =>
      dsimp only [Conflict.text] at h
      simp only [List.append_assoc] at h
      exact absurd h (differ 28 (by decide +kernel) (by decide +kernel) (by decide +kernel))
  | merge k l r => cases c' with
    | segment k' f' =>
      dsimp only [Conflict.text] at h
      simp only [List.append_assoc] at h
      exact absurd h (differ 28 (by decide +kernel) (by decide +kernel) (by decide +kernel))
    | merge k' l' r' =>
      dsimp only [Conflict.text] at h
      obtain ⟨rfl, h1⟩ := kind_end h
      obtain ⟨rfl, h2⟩ := kind_end (List.append_cancel_right h1)
      rw [List.append_cancel_left (List.append_cancel_right h2)]

theorem counted_distinct {w w' : Counted} {n m : Nat}
    (h : w.text ++ (", but got ".toList ++ natDigits n) = w'.text ++ (", but got ".toList ++ natDigits m)) : w = w' ∧ n = m := by
  have key : w = w' := by
    cases w <;> cases w' <;> first
      | rfl
      | exact absurd h (differ 12 (by decide +kernel) (by decide +kernel) (by decide +kernel))
  subst key
  exact ⟨rfl, natDigits_inj (List.append_cancel_left (List.append_cancel_left h))⟩

/-- How the message begins. -/
def Err.lead : Err → Str
  | .unterminatedString => "Unter".toList
  | .trailingChars => "Unexp".toList
  | .badEscape _ => "Inval".toList
  | .missingColon => "Missi".toList
  | .unterminatedKey => "Unter".toList
  | .lengthCap _ => "Decla".toList
  | .tabsInIndent _ => "Valid".toList
  | .badIndent _ _ _ => "Valid".toList
  | .countMismatch _ _ _ => "Expec".toList
  | .extraItems _ => "Expec".toList
  | .extraRows _ => "Expec".toList
  | .blankLine _ _ => "Line ".toList
  | .expectedListItem => "Expec".toList
  | .expectedHyphen => "Expec".toList
  | .missingFields => "Tabul".toList
  | .pathConflict _ => "Path ".toList
  | .expandDepth => "Path ".toList
  | _ => []

theorem take_lead {u s l : Str} (hn : 5 ≤ u.length) (hl : u.take 5 = l) : (u ++ s).take 5 = l := by
  rw [List.take_append_of_le_length hn, hl]

theorem lead_of {e : Err} {s : Str} (h : e.text = some s) : s.take 5 = e.lead := by
  cases e with
  | unterminatedString =>
    obtain rfl := Option.some.inj h
    decide +kernel
  | trailingChars =>
    obtain rfl := Option.some.inj h
    decide +kernel
  | missingColon =>
    obtain rfl := Option.some.inj h
    decide +kernel
  | unterminatedKey =>
    obtain rfl := Option.some.inj h
    decide +kernel
  | expectedListItem =>
    obtain rfl := Option.some.inj h
    decide +kernel
  | expectedHyphen =>
    obtain rfl := Option.some.inj h
    decide +kernel
  | missingFields =>
    obtain rfl := Option.some.inj h
    decide +kernel
  | expandDepth =>
    obtain rfl := Option.some.inj h
    decide +kernel
  | badEscape c =>
    cases c
    · obtain rfl := Option.some.inj h
      decide +kernel
    · obtain rfl := Option.some.inj h
      exact take_lead (by decide +kernel) (by dsimp only [Err.lead]; decide +kernel)
  | pathConflict c =>
    obtain rfl := Option.some.inj h
    cases c <;> dsimp only [Conflict.text] <;> simp only [List.append_assoc] <;>
      exact take_lead (by decide +kernel) (by dsimp only [Err.lead]; decide +kernel)
  | lengthCap n =>
    obtain rfl := Option.some.inj h
    simp only [List.append_assoc]
    exact take_lead (by decide +kernel) (by dsimp only [Err.lead]; decide +kernel)
  | tabsInIndent n =>
    obtain rfl := Option.some.inj h
    unfold validationText
    simp only [List.append_assoc]
    exact take_lead (by decide +kernel) (by dsimp only [Err.lead]; decide +kernel)
  | badIndent n k f =>
    obtain rfl := Option.some.inj h
    unfold validationText
    simp only [List.append_assoc]
    exact take_lead (by decide +kernel) (by dsimp only [Err.lead]; decide +kernel)
  | countMismatch n w m =>
    obtain rfl := Option.some.inj h
    simp only [List.append_assoc]
    exact take_lead (by decide +kernel) (by dsimp only [Err.lead]; decide +kernel)
  | extraItems n =>
    obtain rfl := Option.some.inj h
    simp only [List.append_assoc]
    exact take_lead (by decide +kernel) (by dsimp only [Err.lead]; decide +kernel)
  | extraRows n =>
    obtain rfl := Option.some.inj h
    simp only [List.append_assoc]
    exact take_lead (by decide +kernel) (by dsimp only [Err.lead]; decide +kernel)
  | blankLine n t =>
    obtain rfl := Option.some.inj h
    simp only [List.append_assoc]
    exact take_lead (by decide +kernel) (by dsimp only [Err.lead]; decide +kernel)
  | badEvent => exact nomatch h
  | expectedObject => exact nomatch h
  | jsonParse => exact nomatch h
  | badOptions => exact nomatch h
  | panicMissingKey => exact nomatch h
  | panicNotPrimitive => exact nomatch h
  | fuel => exact nomatch h

theorem lead_Unter {e : Err} (h : e.lead = "Unter".toList) : e = .unterminatedString ∨ e = .unterminatedKey := by
  cases e
  case unterminatedString => exact .inl rfl
  case unterminatedKey => exact .inr (rfl)
  all_goals exact absurd h (by dsimp only [Err.lead]; decide +kernel)

theorem lead_Unexp {e : Err} (h : e.lead = "Unexp".toList) : e = .trailingChars := by
  cases e
  case trailingChars => exact rfl
  all_goals exact absurd h (by dsimp only [Err.lead]; decide +kernel)

theorem lead_Inval {e : Err} (h : e.lead = "Inval".toList) : (∃ c, e = .badEscape c) := by
  cases e
  case badEscape => exact ⟨_, rfl⟩
  all_goals exact absurd h (by dsimp only [Err.lead]; decide +kernel)

theorem lead_Missi {e : Err} (h : e.lead = "Missi".toList) : e = .missingColon := by
  cases e
  case missingColon => exact rfl
  all_goals exact absurd h (by dsimp only [Err.lead]; decide +kernel)

theorem lead_Decla {e : Err} (h : e.lead = "Decla".toList) : (∃ n, e = .lengthCap n) := by
  cases e
  case lengthCap => exact ⟨_, rfl⟩
  all_goals exact absurd h (by dsimp only [Err.lead]; decide +kernel)

theorem lead_Valid {e : Err} (h : e.lead = "Valid".toList) : (∃ n, e = .tabsInIndent n) ∨ (∃ n k f, e = .badIndent n k f) := by
  cases e
  case tabsInIndent => exact .inl ⟨_, rfl⟩
  case badIndent => exact .inr (⟨_, _, _, rfl⟩)
  all_goals exact absurd h (by dsimp only [Err.lead]; decide +kernel)

theorem lead_Expec {e : Err} (h : e.lead = "Expec".toList) : (∃ n w m, e = .countMismatch n w m) ∨ (∃ n, e = .extraItems n) ∨ (∃ n, e = .extraRows n) ∨ e = .expectedListItem ∨ e = .expectedHyphen := by
  cases e
  case countMismatch => exact .inl ⟨_, _, _, rfl⟩
  case extraItems => exact .inr (.inl ⟨_, rfl⟩)
  case extraRows => exact .inr (.inr (.inl ⟨_, rfl⟩))
  case expectedListItem => exact .inr (.inr (.inr (.inl rfl)))
  case expectedHyphen => exact .inr (.inr (.inr (.inr (rfl))))
  all_goals exact absurd h (by dsimp only [Err.lead]; decide +kernel)

theorem lead_Line {e : Err} (h : e.lead = "Line ".toList) : (∃ n t, e = .blankLine n t) := by
  cases e
  case blankLine => exact ⟨_, _, rfl⟩
  all_goals exact absurd h (by dsimp only [Err.lead]; decide +kernel)

theorem lead_Tabul {e : Err} (h : e.lead = "Tabul".toList) : e = .missingFields := by
  cases e
  case missingFields => exact rfl
  all_goals exact absurd h (by dsimp only [Err.lead]; decide +kernel)

theorem lead_Path {e : Err} (h : e.lead = "Path ".toList) : (∃ c, e = .pathConflict c) ∨ e = .expandDepth := by
  cases e
  case pathConflict => exact .inl ⟨_, rfl⟩
  case expandDepth => exact .inr (rfl)
  all_goals exact absurd h (by dsimp only [Err.lead]; decide +kernel)

theorem number_text {p a b : Str} {x : Char} {n m : Nat} (hx : x.isDigit = false)
    (h : p ++ (natDigits n ++ x :: a) = p ++ (natDigits m ++ x :: b)) : n = m ∧ a = b :=
  (number_eq hx).mp (List.append_cancel_left h)

theorem colon_lit : ": ".toList = [':', ' '] := by decide +kernel

theorem lit_items : " list array items, but found more".toList = ' ' :: (Counted.listItems.text ++ ", but found more".toList) := by decide +kernel

theorem lit_rows : " tabular rows, but found more".toList = ' ' :: (Counted.rows.text ++ ", but found more".toList) := by decide +kernel

/-- The three messages that begin with a number. -/
def expectedText (n : Nat) (r : Str) : Str := "Expected ".toList ++ (natDigits n ++ ' ' :: r)

theorem expected_eq {n m : Nat} {r t : Str} (h : expectedText n r = expectedText m t) : n = m ∧ r = t :=
  number_text (by decide) h

theorem expected_lit {n : Nat} {r t : Str} {c : Char} (hc : c.isDigit = false) : expectedText n r ≠ "Expected ".toList ++ c :: t :=
  fun h => number_ne_text hc (List.append_cancel_left h)

theorem text_countMismatch (n : Nat) (w : Counted) (m : Nat) :
    (Err.countMismatch n w m).text = some (expectedText n (w.text ++ (", but got ".toList ++ natDigits m))) := by
  dsimp only [Err.text, expectedText]
  simp only [List.append_assoc, List.cons_append]

theorem text_extraItems (n : Nat) : (Err.extraItems n).text = some (expectedText n (Counted.listItems.text ++ ", but found more".toList)) := by
  dsimp only [Err.text, expectedText]
  rw [lit_items, List.append_assoc]

theorem text_extraRows (n : Nat) : (Err.extraRows n).text = some (expectedText n (Counted.rows.text ++ ", but found more".toList)) := by
  dsimp only [Err.text, expectedText]
  rw [lit_rows, List.append_assoc]

theorem text_listItem : Err.expectedListItem.text = some ("Expected ".toList ++ 'l' :: "ist item".toList) := by decide +kernel

theorem text_hyphen : Err.expectedHyphen.text = some ("Expected ".toList ++ 'l' :: "ist item to start with \"- \"".toList) := by decide +kernel

theorem counted_more {w w' : Counted} {m : Nat} : w.text ++ (", but got ".toList ++ natDigits m) ≠ w'.text ++ ", but found more".toList := by
  by_cases h : w = w'
  · subst h
    intro h
    have := List.append_cancel_left h
    rw [← List.append_nil ", but found more".toList] at this
    exact differ 8 (by decide +kernel) (by decide +kernel) (by decide +kernel) this
  · cases w <;> cases w' <;> first
      | exact absurd rfl h
      | exact differ 12 (by decide +kernel) (by decide +kernel) (by decide +kernel)

theorem text_tabs (n : Nat) : (Err.tabsInIndent n).text =
    some ("Validation error at line ".toList ++ (natDigits n ++ ':' :: ' ' :: "Tabs are not allowed in indentation in strict mode".toList)) := by
  dsimp only [Err.text]
  unfold validationText
  rw [colon_lit]
  simp only [List.append_assoc, List.cons_append, List.nil_append]

/-- What is said about indentation. -/
def indentText (size found : Nat) : Str :=
  if size = 0 then "Indentation not allowed when indent size is 0, but found ".toList ++ (natDigits found ++ " spaces".toList)
  else "Indentation must be exact multiple of ".toList ++ (natDigits size ++ (", but found ".toList ++ (natDigits found ++ " spaces".toList)))

theorem text_indent (n k f : Nat) : (Err.badIndent n k f).text =
    some ("Validation error at line ".toList ++ (natDigits n ++ ':' :: ' ' :: indentText k f)) := by
  dsimp only [Err.text]
  unfold validationText indentText
  rw [colon_lit]
  simp only [List.append_assoc, List.cons_append, List.nil_append]

theorem lit_spaces : " spaces".toList = ' ' :: "spaces".toList := by decide +kernel

theorem lit_found : ", but found ".toList = ',' :: " but found ".toList := by decide +kernel

theorem indent_eq {k f k' f' : Nat} (h : indentText k f = indentText k' f') : k = k' ∧ f = f' := by
  unfold indentText at h
  by_cases h1 : k = 0 <;> by_cases h2 : k' = 0
  · rw [if_pos h1, if_pos h2, lit_spaces] at h
    exact ⟨by omega, (number_text (by decide) h).1⟩
  · rw [if_pos h1, if_neg h2] at h
    exact absurd h (differ 15 (by decide +kernel) (by decide +kernel) (by decide +kernel))
  · rw [if_neg h1, if_pos h2] at h
    exact absurd h (differ 15 (by decide +kernel) (by decide +kernel) (by decide +kernel))
  · rw [if_neg h1, if_neg h2, lit_found, lit_spaces, List.cons_append, List.cons_append] at h
    obtain ⟨h3, h4⟩ := number_text (by decide) h
    exact ⟨h3, (number_text (by decide) h4).1⟩

theorem indent_tabs {k f : Nat} : indentText k f ≠ "Tabs are not allowed in indentation in strict mode".toList := by
  intro h
  rw [← List.append_nil "Tabs are not allowed in indentation in strict mode".toList] at h
  unfold indentText at h
  split at h
  · exact differ 1 (by decide +kernel) (by decide +kernel) (by decide +kernel) h
  · exact differ 1 (by decide +kernel) (by decide +kernel) (by decide +kernel) h

theorem lit_blank : ": Blank lines inside ".toList = ':' :: " Blank lines inside ".toList := by decide +kernel

theorem blank_eq {n m : Nat} {t t' : Bool} (h : (Err.blankLine n t).text = (Err.blankLine m t').text) : n = m ∧ t = t' := by
  dsimp only [Err.text] at h
  have h := Option.some.inj h
  simp only [List.append_assoc] at h
  rw [lit_blank, List.cons_append, List.cons_append] at h
  obtain ⟨h1, h2⟩ := number_text (by decide) h
  refine ⟨h1, ?_⟩
  have h3 := List.append_cancel_left h2
  cases t <;> cases t' <;> first
    | rfl
    | exact absurd h3 (differ 1 (by decide +kernel) (by decide +kernel) (by decide +kernel))

theorem lit_cap : " exceeds maximum allowed (100000000)".toList = ' ' :: "exceeds maximum allowed (100000000)".toList := by decide +kernel

theorem cap_eq {n m : Nat} (h : (Err.lengthCap n).text = (Err.lengthCap m).text) : n = m := by
  dsimp only [Err.text] at h
  have h := Option.some.inj h
  simp only [List.append_assoc] at h
  rw [lit_cap] at h
  exact (number_text (by decide) h).1

theorem escape_eq {c c' : Option Char} (h : (Err.badEscape c).text = (Err.badEscape c').text) : c = c' := by
  cases c with
  | none => cases c' with
    | none => rfl
    | some y =>
      have h := Option.some.inj h
      rw [← List.append_nil "Invalid escape sequence: backslash at end of string".toList] at h
      exact absurd h (differ 26 (by decide +kernel) (by decide +kernel) (by decide +kernel))
  | some x => cases c' with
    | none =>
      have h := Option.some.inj h
      rw [← List.append_nil "Invalid escape sequence: backslash at end of string".toList] at h
      exact absurd h (differ 26 (by decide +kernel) (by decide +kernel) (by decide +kernel))
    | some y =>
      have h := List.append_cancel_left (Option.some.inj h)
      simpa using h

theorem depth_ne (c : Conflict) : (Err.pathConflict c).text ≠ Err.expandDepth.text := by
  intro h
  have h := Option.some.inj h
  rw [← List.append_nil "Path expansion exceeded maximum depth of 256".toList] at h
  cases c <;> dsimp only [Conflict.text] at h <;> simp only [List.append_assoc] at h <;>
    exact differ 16 (by decide +kernel) (by decide +kernel) (by decide +kernel) h

/-- Different errors have different messages. -/
theorem err_distinct {e e' : Err} {s : Str} (h : e.text = some s) (h' : e'.text = some s) : e = e' := by
  have hl : e'.lead = e.lead := (lead_of h').symm.trans (lead_of h)
  have hn : e.text ≠ none := by rw [h]; exact Option.some_ne_none s
  rw [← h'] at h
  clear h'
  cases e with
  | unterminatedString => rcases lead_Unter hl with rfl | rfl <;> first | rfl | exact absurd h (by decide +kernel)
  | unterminatedKey => rcases lead_Unter hl with rfl | rfl <;> first | rfl | exact absurd h (by decide +kernel)
  | trailingChars => exact (lead_Unexp hl).symm
  | missingColon => exact (lead_Missi hl).symm
  | missingFields => exact (lead_Tabul hl).symm
  | badEscape c => obtain ⟨c', rfl⟩ := lead_Inval hl; rw [escape_eq h]
  | lengthCap n => obtain ⟨n', rfl⟩ := lead_Decla hl; rw [cap_eq h]
  | blankLine n t => obtain ⟨n', t', rfl⟩ := lead_Line hl; rw [(blank_eq h).1, (blank_eq h).2]
  | expandDepth =>
    rcases lead_Path hl with ⟨c, rfl⟩ | rfl
    · exact absurd h.symm (depth_ne c)
    · rfl
  | pathConflict c =>
    rcases lead_Path hl with ⟨c', rfl⟩ | rfl
    · rw [conflict_distinct (Option.some.inj h)]
    · exact absurd h (depth_ne c)
  | tabsInIndent n =>
    rcases lead_Valid hl with ⟨n', rfl⟩ | ⟨n', k, f, rfl⟩
    · rw [text_tabs, text_tabs] at h
      rw [(number_text (by decide) (Option.some.inj h)).1]
    · rw [text_tabs, text_indent] at h
      exact absurd (List.cons.inj (number_text (by decide) (Option.some.inj h)).2).2.symm indent_tabs
  | badIndent n k f =>
    rcases lead_Valid hl with ⟨n', rfl⟩ | ⟨n', k', f', rfl⟩
    · rw [text_tabs, text_indent] at h
      exact absurd (List.cons.inj (number_text (by decide) (Option.some.inj h)).2).2 indent_tabs
    · rw [text_indent, text_indent] at h
      obtain ⟨rfl, h1⟩ := number_text (by decide) (Option.some.inj h)
      obtain ⟨rfl, rfl⟩ := indent_eq (List.cons.inj h1).2
      rfl
  | countMismatch n w m =>
    rcases lead_Expec hl with ⟨n', w', m', rfl⟩ | ⟨n', rfl⟩ | ⟨n', rfl⟩ | rfl | rfl
    · rw [text_countMismatch, text_countMismatch] at h
      obtain ⟨rfl, h1⟩ := expected_eq (Option.some.inj h)
      obtain ⟨rfl, rfl⟩ := counted_distinct h1
      rfl
    · rw [text_countMismatch, text_extraItems] at h
      exact absurd (expected_eq (Option.some.inj h)).2 counted_more
    · rw [text_countMismatch, text_extraRows] at h
      exact absurd (expected_eq (Option.some.inj h)).2 counted_more
    · rw [text_countMismatch, text_listItem] at h
      exact absurd (Option.some.inj h) (expected_lit (by decide))
    · rw [text_countMismatch, text_hyphen] at h
      exact absurd (Option.some.inj h) (expected_lit (by decide))
  | extraItems n =>
    rcases lead_Expec hl with ⟨n', w', m', rfl⟩ | ⟨n', rfl⟩ | ⟨n', rfl⟩ | rfl | rfl
    · rw [text_countMismatch, text_extraItems] at h
      exact absurd (expected_eq (Option.some.inj h)).2.symm counted_more
    · rw [text_extraItems, text_extraItems] at h
      rw [(expected_eq (Option.some.inj h)).1]
    · rw [text_extraItems, text_extraRows] at h
      exact absurd (expected_eq (Option.some.inj h)).2 (differ 1 (by decide +kernel) (by decide +kernel) (by decide +kernel))
    · rw [text_extraItems, text_listItem] at h
      exact absurd (Option.some.inj h) (expected_lit (by decide))
    · rw [text_extraItems, text_hyphen] at h
      exact absurd (Option.some.inj h) (expected_lit (by decide))
  | extraRows n =>
    rcases lead_Expec hl with ⟨n', w', m', rfl⟩ | ⟨n', rfl⟩ | ⟨n', rfl⟩ | rfl | rfl
    · rw [text_countMismatch, text_extraRows] at h
      exact absurd (expected_eq (Option.some.inj h)).2.symm counted_more
    · rw [text_extraItems, text_extraRows] at h
      exact absurd (expected_eq (Option.some.inj h)).2.symm (differ 1 (by decide +kernel) (by decide +kernel) (by decide +kernel))
    · rw [text_extraRows, text_extraRows] at h
      rw [(expected_eq (Option.some.inj h)).1]
    · rw [text_extraRows, text_listItem] at h
      exact absurd (Option.some.inj h) (expected_lit (by decide))
    · rw [text_extraRows, text_hyphen] at h
      exact absurd (Option.some.inj h) (expected_lit (by decide))
  | expectedListItem =>
    rcases lead_Expec hl with ⟨n', w', m', rfl⟩ | ⟨n', rfl⟩ | ⟨n', rfl⟩ | rfl | rfl
    · rw [text_countMismatch, text_listItem] at h
      exact absurd (Option.some.inj h).symm (expected_lit (by decide))
    · rw [text_extraItems, text_listItem] at h
      exact absurd (Option.some.inj h).symm (expected_lit (by decide))
    · rw [text_extraRows, text_listItem] at h
      exact absurd (Option.some.inj h).symm (expected_lit (by decide))
    · rfl
    · exact absurd h (by decide +kernel)
  | expectedHyphen =>
    rcases lead_Expec hl with ⟨n', w', m', rfl⟩ | ⟨n', rfl⟩ | ⟨n', rfl⟩ | rfl | rfl
    · rw [text_countMismatch, text_hyphen] at h
      exact absurd (Option.some.inj h).symm (expected_lit (by decide))
    · rw [text_extraItems, text_hyphen] at h
      exact absurd (Option.some.inj h).symm (expected_lit (by decide))
    · rw [text_extraRows, text_hyphen] at h
      exact absurd (Option.some.inj h).symm (expected_lit (by decide))
    · exact absurd h (by decide +kernel)
    · rfl
  | _ => exact absurd rfl hn

end Toon
