import Verif.Spec.Files
import Verif.Lemmas.Utf8

/-! # Lemmas about the writers and the effects of a run -/

namespace Toon

/-! ## Devices and buffers -/

theorem Device.writeAll_none {dev dev' : Device} {bs : List UInt8} (h : dev.writeAll bs = (dev', none)) :
    dev'.sent.flatten = dev.sent.flatten ++ bs := by
  unfold Device.writeAll at h
  split at h
  · rename_i hb
    simp only [List.isEmpty_iff] at hb
    simp only [Prod.mk.injEq, and_true] at h
    rw [← h, hb]; simp
  · split at h <;> simp only [Prod.mk.injEq, and_true, reduceCtorEq, and_false] at h
    · rw [← h]; simp
    · rw [← h]; simp

theorem Device.writeAll_some {dev dev' : Device} {bs rest : List UInt8} (h : dev.writeAll bs = (dev', some rest)) :
    dev'.sent.flatten ++ rest = dev.sent.flatten ++ bs := by
  unfold Device.writeAll at h
  split at h
  · simp at h
  · split at h <;> simp only [Prod.mk.injEq, Option.some.injEq, reduceCtorEq, and_false] at h
    obtain ⟨h1, h2⟩ := h
    rw [← h1, ← h2]; simp

def Device.Healthy (dev : Device) : Prop := ∀ f ∈ dev.fates, f = none

theorem Device.writeAll_healthy {dev : Device} (hd : dev.Healthy) (bs : List UInt8) :
    ∃ dev', dev.writeAll bs = (dev', none) ∧ dev'.Healthy := by
  unfold Device.writeAll
  split
  · exact ⟨dev, rfl, hd⟩
  · split
    · exact ⟨_, rfl, fun f hf => by simp at hf⟩
    · rename_i fates h
      exact ⟨_, rfl, fun f hf => hd f (by rw [h]; exact List.mem_cons_of_mem _ hf)⟩
    · rename_i k fates h
      have := hd (some k) (by rw [h]; exact List.mem_cons_self)
      simp at this

/-- Everything handed to the buffered writer that is not lost. -/
def Buffered.text (w : Buffered) : List UInt8 := w.dev.sent.flatten ++ w.buf

theorem Buffered.flushBuf_text (w : Buffered) : w.flushBuf.1.text = w.text := by
  unfold Buffered.flushBuf
  split
  · rename_i dev h
    simp [Buffered.text, Device.writeAll_none h]
  · rename_i dev rest h
    simp [Buffered.text, Device.writeAll_some h]

theorem Buffered.flushBuf_capacity (w : Buffered) : w.flushBuf.1.capacity = w.capacity := by
  unfold Buffered.flushBuf; split <;> rfl

theorem Buffered.flushBuf_buf {w : Buffered} (h : w.flushBuf.2 = true) : w.flushBuf.1.buf = [] := by
  unfold Buffered.flushBuf at h ⊢
  split
  · rfl
  · rename_i dev rest he; rw [he] at h; simp at h

theorem Buffered.drop_prefix (w : Buffered) : w.drop.sent.flatten <+: w.text := by
  rw [← w.flushBuf_text]; exact ⟨_, rfl⟩

/-- What can be said of an operation on a buffered writer. -/
structure Buffered.Wrote (w w' : Buffered) (good : Bool) (bs : List UInt8) : Prop where
  capacity : w'.capacity = w.capacity
  ok : good = true → w'.text = w.text ++ bs
  fails : good = false → w'.text <+: w.text ++ bs
  room : good = true → w.buf.length ≤ w.capacity → w'.buf.length ≤ w'.capacity

theorem Buffered.writeLarge_wrote (w : Buffered) (bs : List UInt8) (h : bs.length ≥ w.capacity → w.buf = [])
    (hr : w.buf.length + bs.length ≤ w.capacity ∨ w.buf = []) :
    w.Wrote (w.writeLarge bs).1 (w.writeLarge bs).2 bs := by
  unfold Buffered.writeLarge
  split
  · rename_i hc
    have hb := h hc
    split
    · rename_i dev he
      exact ⟨rfl, fun _ => by simp [Buffered.text, hb, Device.writeAll_none he], fun h => by simp at h,
        fun _ hr => by simpa [hb] using hr⟩
    · rename_i dev rest he
      refine ⟨rfl, fun h => by simp at h, fun _ => ⟨rest, ?_⟩, fun h => by simp at h⟩
      simp [Buffered.text, hb, Device.writeAll_some he]
  · rename_i hc
    refine ⟨rfl, fun _ => by simp [Buffered.text], fun h => by simp at h, fun _ _ => ?_⟩
    rcases hr with hr | hr
    · simpa using hr
    · simp only [hr, List.nil_append]; omega

theorem Buffered.writeAll_wrote (w : Buffered) (bs : List UInt8) (hw : w.buf.length ≤ w.capacity) :
    w.Wrote (w.writeAll bs).1 (w.writeAll bs).2 bs := by
  unfold Buffered.writeAll
  split
  · rename_i hl
    refine ⟨rfl, fun _ => by simp [Buffered.text], fun h => by simp at h, fun _ _ => ?_⟩
    simp only [List.length_append]; omega
  · rename_i hl
    split
    · rename_i hg
      cases hf : w.flushBuf with
      | mk w1 b =>
        have ht := w.flushBuf_text
        have hc := w.flushBuf_capacity
        rw [hf] at ht hc
        cases b with
        | true =>
          have hb := Buffered.flushBuf_buf (w := w) (by rw [hf])
          rw [hf] at hb
          have := w1.writeLarge_wrote bs (fun _ => hb) (.inr hb)
          refine ⟨by rw [this.capacity]; exact hc, fun h => by rw [this.ok h]; dsimp only at ht; rw [ht],
            fun h => by dsimp only at ht; rw [← ht]; exact this.fails h, fun h _ => this.room h ?_⟩
          dsimp only at hb; rw [hb]; simp
        | false =>
          refine ⟨hc, fun h => by simp at h, fun _ => ?_, fun h => by simp at h⟩
          dsimp only at ht ⊢; rw [ht]; exact ⟨bs, rfl⟩
    · rename_i hg
      refine w.writeLarge_wrote bs (fun hc => ?_) (.inl (by omega))
      cases hb : w.buf with
      | nil => rfl
      | cons a as => rw [hb] at hl hw hg; simp only [List.length_cons] at hl hw hg; omega

theorem lastLine_some {bs lines tail : List UInt8} (h : lastLine bs = some (lines, tail)) : lines ++ tail = bs := by
  unfold lastLine at h
  simp only at h
  split at h
  · simp at h
  · simp only [Option.some.injEq, Prod.mk.injEq] at h
    obtain ⟨h1, h2⟩ := h
    have hsuf : tail <:+ bs := by
      rw [← h2, ← List.reverse_prefix, List.reverse_reverse]
      exact List.takeWhile_prefix _
    obtain ⟨p, hp⟩ := hsuf
    rw [h2] at h1
    rw [← h1, ← hp]; simp

theorem Buffered.writeAllLines_wrote (w : Buffered) (bs : List UInt8) (hw : w.buf.length ≤ w.capacity) :
    w.Wrote (w.writeAllLines bs).1 (w.writeAllLines bs).2 bs := by
  unfold Buffered.writeAllLines
  split
  · split
    · cases hf : w.flushBuf with
      | mk w1 b =>
        have ht := w.flushBuf_text
        have hc := w.flushBuf_capacity
        rw [hf] at ht hc
        dsimp only at ht hc
        cases b with
        | true =>
          have hb := Buffered.flushBuf_buf (w := w) (by rw [hf])
          rw [hf] at hb
          dsimp only at hb
          have hl : w1.buf.length ≤ w1.capacity := by rw [hb]; simp
          have := w1.writeAll_wrote bs hl
          exact ⟨by rw [this.capacity, hc], fun h => by rw [this.ok h, ht], fun h => by rw [← ht]; exact this.fails h,
            fun h _ => this.room h hl⟩
        | false =>
          refine ⟨hc, fun h => by simp at h, fun _ => ?_, fun h => by simp at h⟩
          dsimp only; rw [ht]; exact ⟨bs, rfl⟩
    · exact w.writeAll_wrote bs hw
  · rename_i lines tail hl
    have hbs := lastLine_some hl
    split
    · rename_i hb
      simp only [List.isEmpty_iff] at hb
      split
      · rename_i dev he
        have := Buffered.writeAll_wrote { w with dev := dev } tail hw
        have ht : ({ w with dev := dev } : Buffered).text = w.text ++ lines := by
          simp [Buffered.text, hb, Device.writeAll_none he]
        obtain ⟨h1, h2, h3, h4⟩ := this
        rw [ht, List.append_assoc, hbs] at h2 h3
        exact ⟨h1, h2, h3, h4⟩
      · rename_i dev rest he
        refine ⟨rfl, fun h => by simp at h, fun _ => ⟨rest ++ tail, ?_⟩, fun h => by simp at h⟩
        have := Device.writeAll_some he
        simp only [Buffered.text, hb, List.append_nil]
        rw [← List.append_assoc, this, ← hbs]; simp
    · have hL := w.writeAll_wrote lines hw
      cases hf : w.writeAll lines with
      | mk w1 b =>
        rw [hf] at hL
        cases b with
        | false =>
          refine ⟨hL.capacity, fun h => by simp at h, fun _ => ?_, fun h => by simp at h⟩
          refine (hL.fails rfl).trans ⟨tail, ?_⟩
          rw [List.append_assoc, hbs]
        | true =>
          have ht1 := hL.ok rfl
          dsimp only at ht1
          dsimp only
          have ht := w1.flushBuf_text
          have hc := w1.flushBuf_capacity
          cases hg : w1.flushBuf with
          | mk w2 b2 =>
            rw [hg] at ht hc
            dsimp only at ht hc
            cases b2 with
            | false =>
              refine ⟨hc.trans hL.capacity, fun h => by simp at h, fun _ => ?_, fun h => by simp at h⟩
              dsimp only; rw [ht, ht1]; exact ⟨tail, by rw [List.append_assoc, hbs]⟩
            | true =>
              have hb := Buffered.flushBuf_buf (w := w1) (by rw [hg])
              rw [hg] at hb
              dsimp only at hb ⊢
              have hl : w2.buf.length ≤ w2.capacity := by rw [hb]; simp
              obtain ⟨h1, h2, h3, h4⟩ := w2.writeAll_wrote tail hl
              rw [ht, ht1, List.append_assoc, hbs] at h2 h3
              exact ⟨h1.trans (hc.trans hL.capacity), h2, h3, fun h _ => h4 h hl⟩

/-! ## Sequences of pieces -/

/-- The bytes of the pieces. -/
def pieceBytes (pieces : List Str) : List UInt8 := Utf8.bytes pieces.flatten

theorem pieceBytes_nil : pieceBytes [] = [] := rfl

theorem pieceBytes_cons (p : Str) (ps : List Str) : pieceBytes (p :: ps) = Utf8.bytes p ++ pieceBytes ps := by
  simp [pieceBytes, Utf8.bytes_append]

theorem writeFile_sent (pieces : List Str) : ∀ dev : Device,
    ((writeFile dev pieces).2 = true → (writeFile dev pieces).1.sent.flatten = dev.sent.flatten ++ pieceBytes pieces) ∧
    (writeFile dev pieces).1.sent.flatten <+: dev.sent.flatten ++ pieceBytes pieces := by
  induction pieces with
  | nil => intro dev; simp [writeFile, pieceBytes_nil]
  | cons p ps ih =>
    intro dev
    unfold writeFile
    split
    · rename_i dev' h
      have := Device.writeAll_none h
      have ih := ih dev'
      rw [this, List.append_assoc, ← pieceBytes_cons] at ih
      exact ih
    · rename_i dev' rest h
      refine ⟨fun h => by simp at h, ⟨rest ++ pieceBytes ps, ?_⟩⟩
      rw [pieceBytes_cons, ← List.append_assoc, Device.writeAll_some h, List.append_assoc]

theorem writeBuffered_sent (pieces : List Str) : ∀ w : Buffered, w.buf.length ≤ w.capacity →
    (writeBuffered w pieces).1.sent.flatten <+: w.text ++ pieceBytes pieces ∧
    ((writeBuffered w pieces).2 = true → ∃ lost, lost.length ≤ w.capacity ∧
      w.text ++ pieceBytes pieces = (writeBuffered w pieces).1.sent.flatten ++ lost) := by
  induction pieces with
  | nil =>
    intro w hw
    simp only [writeBuffered, pieceBytes_nil, List.append_nil]
    refine ⟨w.drop_prefix, fun _ => ⟨w.flushBuf.1.buf, ?_, ?_⟩⟩
    · unfold Buffered.flushBuf
      split
      · simp
      · rename_i dev rest h
        unfold Device.writeAll at h
        split at h
        · simp at h
        · split at h <;> simp only [Prod.mk.injEq, Option.some.injEq, reduceCtorEq, and_false] at h
          rw [← h.2]; simp only [List.length_drop]; omega
    · rw [← w.flushBuf_text]; rfl
  | cons p ps ih =>
    intro w hw
    have hwr := w.writeAll_wrote (Utf8.bytes p) hw
    unfold writeBuffered
    cases hf : w.writeAll (Utf8.bytes p) with
    | mk w1 b =>
      rw [hf] at hwr
      cases b with
      | true =>
        have ih := ih w1 (hwr.room rfl hw)
        have ht := hwr.ok rfl
        dsimp only at ht
        rw [ht, List.append_assoc, ← pieceBytes_cons, hwr.capacity] at ih
        exact ih
      | false =>
        refine ⟨?_, fun h => by simp at h⟩
        refine (w1.drop_prefix.trans (hwr.fails rfl)).trans ⟨pieceBytes ps, ?_⟩
        rw [pieceBytes_cons, List.append_assoc]

theorem writeStdout_prefix (pieces : List Str) : ∀ w : Buffered, w.buf.length ≤ w.capacity →
    (writeStdout w pieces).1.sent.flatten <+: w.text ++ pieceBytes pieces := by
  induction pieces with
  | nil =>
    intro w hw
    simp only [writeStdout, pieceBytes_nil, List.append_nil]
    exact w.drop_prefix
  | cons p ps ih =>
    intro w hw
    have hwr := w.writeAllLines_wrote (Utf8.bytes p) hw
    unfold writeStdout
    cases hf : w.writeAllLines (Utf8.bytes p) with
    | mk w1 b =>
      rw [hf] at hwr
      cases b with
      | true =>
        have ih := ih w1 (hwr.room rfl hw)
        have ht := hwr.ok rfl
        dsimp only at ht
        rw [ht, List.append_assoc, ← pieceBytes_cons] at ih
        exact ih
      | false =>
        refine (w1.drop_prefix.trans (hwr.fails rfl)).trans ⟨pieceBytes ps, ?_⟩
        rw [pieceBytes_cons, List.append_assoc]

theorem bytes_newline : Utf8.bytes ['\n'] = [0x0A] := by decide

theorem lastLine_newline : lastLine [0x0A] = some ([0x0A], []) := by decide

theorem Buffered.writeAll_nil {w : Buffered} (h : w.buf = []) : (w.writeAll []).1.buf = [] := by
  unfold Buffered.writeAll Buffered.writeLarge
  simp only [List.length_nil, h, Nat.sub_zero, gt_iff_lt, Nat.not_lt_zero, if_false, List.append_nil]
  split
  · rfl
  · split
    · split <;> rfl
    · rfl

theorem Buffered.writeAllLines_newline {w : Buffered} (h : (w.writeAllLines [0x0A]).2 = true) :
    (w.writeAllLines [0x0A]).1.buf = [] := by
  unfold Buffered.writeAllLines at h ⊢
  rw [lastLine_newline] at h ⊢
  dsimp only at h ⊢
  split
  · rename_i hb
    rw [if_pos hb] at h
    simp only [List.isEmpty_iff] at hb
    split
    · exact Buffered.writeAll_nil hb
    · exact hb
  · rename_i hb
    rw [if_neg hb] at h
    split
    · rename_i w1 he; rw [he] at h; simp at h
    · rename_i w1 he
      rw [he] at h
      dsimp only at h
      split
      · rename_i w2 hf
        refine Buffered.writeAll_nil ?_
        have := Buffered.flushBuf_buf (w := w1) (by rw [hf])
        rw [hf] at this; exact this
      · rename_i w2 hf; rw [hf] at h; simp at h

theorem Buffered.drop_nil {w : Buffered} (h : w.buf = []) : w.drop.sent.flatten = w.text := by
  unfold Buffered.drop Buffered.flushBuf Buffered.text
  rw [h]
  simp [Device.writeAll]

theorem writeStdout_ok (pieces : List Str) : ∀ w : Buffered, w.buf.length ≤ w.capacity →
    (writeStdout w (pieces ++ [['\n']])).2 = true →
    (writeStdout w (pieces ++ [['\n']])).1.sent.flatten = w.text ++ pieceBytes (pieces ++ [['\n']]) := by
  induction pieces with
  | nil =>
    intro w hw h
    have hwr := w.writeAllLines_wrote [0x0A] hw
    have hb := w.writeAllLines_newline
    simp only [List.nil_append, writeStdout, bytes_newline] at h ⊢
    cases hf : w.writeAllLines [0x0A] with
    | mk w1 b =>
      rw [hf] at hwr hb h
      cases b with
      | true =>
        dsimp only
        rw [Buffered.drop_nil (hb rfl)]
        have := hwr.ok rfl
        dsimp only at this
        rw [this, pieceBytes_cons, bytes_newline, pieceBytes_nil, List.append_nil]
      | false => simp at h
  | cons p ps ih =>
    intro w hw h
    have hwr := w.writeAllLines_wrote (Utf8.bytes p) hw
    rw [List.cons_append] at h ⊢
    unfold writeStdout at h ⊢
    cases hf : w.writeAllLines (Utf8.bytes p) with
    | mk w1 b =>
      rw [hf] at hwr h
      cases b with
      | true =>
        dsimp only at h ⊢
        rw [ih w1 (hwr.room rfl hw) h, pieceBytes_cons]
        have := hwr.ok rfl
        dsimp only at this
        rw [this, List.append_assoc]
      | false => simp at h

/-! ## Without failures -/

theorem writeFile_healthy (pieces : List Str) : ∀ dev : Device, dev.Healthy → (writeFile dev pieces).2 = true := by
  induction pieces with
  | nil => intro dev _; rfl
  | cons p ps ih =>
    intro dev hd
    obtain ⟨dev', h1, h2⟩ := Device.writeAll_healthy hd (Utf8.bytes p)
    unfold writeFile
    rw [h1]
    exact ih dev' h2

theorem Buffered.flushBuf_healthy {w : Buffered} (h : w.dev.Healthy) :
    w.flushBuf.2 = true ∧ w.flushBuf.1.dev.Healthy := by
  obtain ⟨dev', h1, h2⟩ := Device.writeAll_healthy h w.buf
  unfold Buffered.flushBuf
  rw [h1]
  exact ⟨rfl, h2⟩

theorem Buffered.writeLarge_healthy {w : Buffered} (h : w.dev.Healthy) (bs : List UInt8) :
    (w.writeLarge bs).2 = true ∧ (w.writeLarge bs).1.dev.Healthy := by
  unfold Buffered.writeLarge
  split
  · obtain ⟨dev', h1, h2⟩ := Device.writeAll_healthy h bs
    rw [h1]
    exact ⟨rfl, h2⟩
  · exact ⟨rfl, h⟩

theorem Buffered.writeAll_healthy {w : Buffered} (h : w.dev.Healthy) (bs : List UInt8) :
    (w.writeAll bs).2 = true ∧ (w.writeAll bs).1.dev.Healthy := by
  unfold Buffered.writeAll
  split
  · exact ⟨rfl, h⟩
  · split
    · have hf := Buffered.flushBuf_healthy h
      cases hw : w.flushBuf with
      | mk w1 b =>
        rw [hw] at hf
        obtain ⟨h1, h2⟩ := hf
        dsimp only at h1
        subst h1
        exact Buffered.writeLarge_healthy h2 bs
    · exact Buffered.writeLarge_healthy h bs

theorem Buffered.writeAllLines_healthy {w : Buffered} (h : w.dev.Healthy) (bs : List UInt8) :
    (w.writeAllLines bs).2 = true ∧ (w.writeAllLines bs).1.dev.Healthy := by
  unfold Buffered.writeAllLines
  split
  · split
    · have hf := Buffered.flushBuf_healthy h
      cases hw : w.flushBuf with
      | mk w1 b =>
        rw [hw] at hf
        obtain ⟨h1, h2⟩ := hf
        dsimp only at h1
        subst h1
        exact Buffered.writeAll_healthy h2 bs
    · exact Buffered.writeAll_healthy h bs
  · rename_i lines tail _
    split
    · obtain ⟨dev', h1, h2⟩ := Device.writeAll_healthy h lines
      rw [h1]
      exact Buffered.writeAll_healthy (w := { w with dev := dev' }) h2 tail
    · have ha := Buffered.writeAll_healthy h lines
      cases hw : w.writeAll lines with
      | mk w1 b =>
        rw [hw] at ha
        obtain ⟨h1, h2⟩ := ha
        dsimp only at h1
        subst h1
        have hf := Buffered.flushBuf_healthy h2
        cases hw2 : w1.flushBuf with
        | mk w2 b =>
          dsimp only at hf
          rw [hw2] at hf
          obtain ⟨h3, h4⟩ := hf
          dsimp only at h3
          subst h3
          dsimp only
          rw [hw2]
          exact Buffered.writeAll_healthy h4 tail

theorem writeBuffered_healthy (pieces : List Str) : ∀ w : Buffered, w.buf.length ≤ w.capacity → w.dev.Healthy →
    (writeBuffered w pieces).2 = true ∧ (writeBuffered w pieces).1.sent.flatten = w.text ++ pieceBytes pieces := by
  induction pieces with
  | nil =>
    intro w hw hd
    refine ⟨rfl, ?_⟩
    simp only [writeBuffered, pieceBytes_nil, List.append_nil, Buffered.drop]
    have hb := Buffered.flushBuf_buf (Buffered.flushBuf_healthy hd).1
    rw [← w.flushBuf_text]; simp [Buffered.text, hb]
  | cons p ps ih =>
    intro w hw hd
    have hwr := w.writeAll_wrote (Utf8.bytes p) hw
    have hh := Buffered.writeAll_healthy hd (Utf8.bytes p)
    unfold writeBuffered
    cases hf : w.writeAll (Utf8.bytes p) with
    | mk w1 b =>
      rw [hf] at hwr hh
      obtain ⟨h1, h2⟩ := hh
      dsimp only at h1
      subst h1
      have ih := ih w1 (hwr.room rfl hw) h2
      have ht := hwr.ok rfl
      dsimp only at ht
      rw [ht, List.append_assoc, ← pieceBytes_cons] at ih
      exact ih

theorem writeStdout_healthy (pieces : List Str) : ∀ w : Buffered, w.dev.Healthy → (writeStdout w pieces).2 = true := by
  induction pieces with
  | nil => intro w hd; rfl
  | cons p ps ih =>
    intro w hd
    have hh := Buffered.writeAllLines_healthy hd (Utf8.bytes p)
    unfold writeStdout
    cases hf : w.writeAllLines (Utf8.bytes p) with
    | mk w1 b =>
      rw [hf] at hh
      obtain ⟨h1, h2⟩ := hh
      dsimp only at h1
      subst h1
      exact ih w1 h2

/-! ## Output that fits the buffer -/

theorem writeBuffered_small (pieces : List Str) : ∀ w : Buffered,
    w.buf.length + (pieceBytes pieces).length < w.capacity →
    writeBuffered w pieces = ({ w with buf := w.buf ++ pieceBytes pieces }.drop, true) := by
  induction pieces with
  | nil => intro w _; simp [writeBuffered, pieceBytes_nil]
  | cons p ps ih =>
    intro w h
    rw [pieceBytes_cons, List.length_append] at h
    unfold writeBuffered Buffered.writeAll
    rw [if_pos (by omega)]
    dsimp only
    rw [ih _ (by dsimp only; rw [List.length_append]; omega), pieceBytes_cons]
    simp

/-! ## The effects of a run -/

theorem linePieces_flatten (lines : List Str) : ∀ i, (linePieces i lines).flatten = writeLinesFrom i lines := by
  induction lines with
  | nil => intro i; rfl
  | cons l ls ih =>
    intro i
    simp only [linePieces, writeLinesFrom, List.flatten_append, List.flatten_cons, ih]
    split <;> simp

theorem linePieces_last (lines : List Str) : ∀ i, ∃ ps, linePieces i lines = ps ++ [['\n']] := by
  induction lines with
  | nil => intro i; exact ⟨[], rfl⟩
  | cons l ls ih =>
    intro i
    obtain ⟨ps, h⟩ := ih (i + 1)
    exact ⟨(if i > 0 then [['\n']] else []) ++ l :: ps, by simp [linePieces, h]⟩

theorem outputPieces_flatten (data : Str) : (outputPieces data).flatten = writeOutput data := by
  simp [outputPieces, writeOutput]

theorem chunkPieces_flatten (chunks : List Str) : (chunkPieces chunks).flatten = writeChunks chunks := by
  induction chunks with
  | nil => rfl
  | cons c cs ih => simp only [chunkPieces, writeChunks, List.cons_append, List.flatten_cons] at ih ⊢; rw [ih]

section
variable {F : Type} [F64 F] [JsonNum F]

/-- The part of a run between reading and writing. -/
def toolPieces (rd : Str → Option F) (args : Args) (input : Str) : Except Err (Bool × List Str) :=
  match args.detectMode with
  | .encode => encodePieces rd args input
  | .decode => decodePieces F args input

/-- Writing is unbuffered exactly with `--stats` in encode mode. -/
def Args.unbuffered (args : Args) : Bool := args.stats && args.detectMode == .encode

theorem toolPieces_ok (rd : Str → Option F) (args : Args) (input text : Str) (h : runCli rd args input = .ok text) :
    ∃ ps, toolPieces rd args input = .ok (args.unbuffered, ps ++ [['\n']]) ∧ (ps ++ [['\n']]).flatten = text := by
  unfold runCli at h
  unfold toolPieces Args.unbuffered
  cases hm : args.detectMode with
  | encode =>
    rw [hm] at h
    dsimp only at h ⊢
    unfold runEncode at h
    unfold encodePieces
    dsimp only at h ⊢
    cases he : encodeToToonLines rd input
      (some ⟨some args.indent, some args.delimiter, some args.keyFolding, args.flattenDepth⟩) with
    | error e => rw [he] at h; simp at h
    | ok lines =>
      rw [he] at h
      dsimp only at h ⊢
      simp only [Except.ok.injEq] at h
      cases hs : args.stats with
      | true =>
        rw [hs] at h
        exact ⟨[joinWith '\n' lines], rfl, by rw [← h]; simp [writeOutput]⟩
      | false =>
        rw [hs] at h
        obtain ⟨ps, hp⟩ := linePieces_last lines 0
        exact ⟨ps, by simp [hp], by rw [← hp, linePieces_flatten, ← h]; simp⟩
  | decode =>
    rw [hm] at h
    dsimp only at h ⊢
    unfold runDecode at h
    unfold decodePieces
    dsimp only at h ⊢
    cases he : decodeToJsonChunks F input
      (some ⟨some args.indent, some (!args.noStrict), some args.expandPaths⟩) with
    | error e => rw [he] at h; simp at h
    | ok chunks =>
      rw [he] at h
      simp only [Except.ok.injEq] at h
      refine ⟨chunks, ?_, by rw [← h, ← chunkPieces_flatten]; rfl⟩
      have : (args.stats && (Mode.decode == Mode.encode)) = false := by
        rw [show (Mode.decode == Mode.encode) = false from rfl, Bool.and_false]
      rw [this]; rfl

theorem toolPieces_error (rd : Str → Option F) (args : Args) (input : Str) (e : Err) (h : runCli rd args input = .error e) :
    toolPieces rd args input = .error e := by
  unfold runCli at h
  unfold toolPieces
  cases hm : args.detectMode with
  | encode =>
    rw [hm] at h
    dsimp only at h ⊢
    unfold runEncode at h
    unfold encodePieces
    dsimp only at h ⊢
    cases he : encodeToToonLines rd input
      (some ⟨some args.indent, some args.delimiter, some args.keyFolding, args.flattenDepth⟩) with
    | error e' => rw [he] at h; simpa using h
    | ok lines => rw [he] at h; simp at h
  | decode =>
    rw [hm] at h
    dsimp only at h ⊢
    unfold runDecode at h
    unfold decodePieces
    dsimp only at h ⊢
    cases he : decodeToJsonChunks F input
      (some ⟨some args.indent, some (!args.noStrict), some args.expandPaths⟩) with
    | error e' => rw [he] at h; simpa using h
    | ok chunks => rw [he] at h; simp at h

theorem runTool_eq (rd : Str → Option F) (args : Args) (world : World) : runTool rd args world =
    match readInput args world with
    | none => { result := .error .read, ops := [], stdout := [] }
    | some input =>
      match toolPieces rd args input with
      | .error e => { result := .error (.convert e), ops := [], stdout := [] }
      | .ok (plain, pieces) => write args world plain pieces := by
  unfold runTool toolPieces
  rfl

end

/-! ## Reading -/

theorem fromUtf8_iff (bs : List UInt8) (s : Str) : fromUtf8 bs = some s ↔ bs = Utf8.bytes s := by
  unfold fromUtf8
  constructor
  · intro h
    simp only [Option.map_eq_some_iff] at h
    obtain ⟨a, h1, h2⟩ := h
    have hs : bs.toByteArray.utf8Decode?.isSome := by rw [h1]; rfl
    have := ByteArray.utf8Encode_get_utf8Decode? (b := bs.toByteArray) (h := hs)
    simp only [h1, Option.get_some, h2] at this
    have hd := congrArg (fun b : ByteArray => b.data.toList) this
    simp only [List.utf8Encode, List.data_toByteArray] at hd
    exact hd.symm
  · rintro rfl
    have : (Utf8.bytes s).toByteArray = s.utf8Encode := rfl
    rw [this, List.utf8Decode?_utf8Encode]
    rfl

theorem readInput_iff (args : Args) (world : World) (s : Str) :
    readInput args world = some s ↔ inputBytes args world = some (Utf8.bytes s) := by
  unfold readInput inputBytes Args.isStdin
  cases hi : args.input with
  | none => simp [Option.bind_eq_some_iff, fromUtf8_iff]
  | some p =>
    by_cases hp : p = ['-']
    · subst hp
      simp [Option.bind_eq_some_iff, fromUtf8_iff]
    · simp [hp, Option.bind_eq_some_iff, fromUtf8_iff]

/-! ## Files -/

theorem filesAfter_appends (path : Str) (bss : List (List UInt8)) : ∀ (files : Files) (old : List UInt8),
    files path = some old → filesAfter files (bss.map (.append path)) path = some (old ++ bss.flatten) := by
  induction bss with
  | nil => intro files old h; simpa [filesAfter] using h
  | cons b bs ih =>
    intro files old h
    have := ih ((FileOp.append path b).apply files) (old ++ b) (by simp [FileOp.apply, h])
    simp only [filesAfter, List.map_cons, List.foldl_cons] at this ⊢
    rw [this]; simp

theorem filesAfter_other (path q : Str) (hq : q ≠ path) (bss : List (List UInt8)) : ∀ files : Files,
    filesAfter files (bss.map (.append path)) q = files q := by
  induction bss with
  | nil => intro files; rfl
  | cons b bs ih =>
    intro files
    have := ih ((FileOp.append path b).apply files)
    simp only [filesAfter, List.map_cons, List.foldl_cons] at this ⊢
    rw [this]; simp [FileOp.apply, hq]

theorem crash_appends (path : Str) (bss : List (List UInt8)) : ∀ (files after : Files) (old : List UInt8),
    files path = some old → CrashState files (bss.map (.append path)) after →
    (∀ q, q ≠ path → after q = files q) ∧ ∃ bs, after path = some (old ++ bs) ∧ bs <+: bss.flatten := by
  induction bss with
  | nil =>
    intro files after old h hc
    cases hc with
    | stop => exact ⟨fun _ _ => rfl, [], by simpa using h, by simp⟩
  | cons b bs ih =>
    intro files after old h hc
    cases hc with
    | stop => exact ⟨fun _ _ => rfl, [], by simpa using h, List.nil_prefix⟩
    | step _ _ _ _ hc =>
      obtain ⟨h1, x, h2, h3⟩ := ih _ after (old ++ b) (by simp [FileOp.apply, h]) hc
      refine ⟨fun q hq => by rw [h1 q hq]; simp [FileOp.apply, hq], b ++ x, by rw [h2, List.append_assoc], ?_⟩
      simpa using h3
    | torn _ _ k =>
      refine ⟨fun q hq => by simp [FileOp.apply, hq], b.take k, by simp [FileOp.apply, h], ?_⟩
      exact (List.take_prefix k b).trans ⟨bs.flatten, rfl⟩

theorem crash_after (ops : List FileOp) : ∀ files : Files, CrashState files ops (filesAfter files ops) := by
  induction ops with
  | nil => intro files; exact .stop _ _
  | cons op ops ih => intro files; exact .step _ _ _ _ (ih _)

end Toon
