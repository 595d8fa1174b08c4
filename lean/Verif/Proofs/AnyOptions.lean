import Verif.Proofs.DecoderEof
import Verif.Spec.Scan

/-! # `feed` over arbitrary bytes in the place of options -/
namespace Verif.Proofs
open Verif.Model Header Dec OptDec Spec

theorem Q.refl (o : OptDec) (h : Holder) (r : List UInt8) : Q o h r o h r := by
  refine ⟨?_, ⟨Nat.le_refl _, ?_⟩, 0, fun f n => by simp⟩
  · intro d last hs ho hh
    subst ho hh; rfl
  · intro d hs ho hh
    subst ho hh; rfl

theorem hi_nib (w : UInt8) : (w >>> 4).toNat = w.toNat / 16 := by
  simp [Nat.shiftRight_eq_div_pow]

theorem lo_nib (w : UInt8) : (w &&& 0x0F).toNat = w.toNat % 16 := by
  simp [and_15]

theorem ge13_cases {n : UInt8} (h : 13 ≤ n) (h2 : n.toNat < 16) : n = 13 ∨ n = 14 ∨ n = 15 := by
  rw [UInt8.le_iff_toNat_le] at h
  simp only [← UInt8.toNat_inj]; simp at *; omega

theorem getValue_any8 (b e1 : UInt8) : getValue 13 b e1 = UInt16.ofNat (13 + b.toNat) := by
  have := getValue_ext8 e1 (13 + b.toNat) (by omega) (by have := u8_lt b; omega)
  simpa using this

theorem getValue_any16 (b c : UInt8) : getValue 14 b c = UInt16.ofNat (269 + 256 * b.toNat + c.toNat) := by
  have h0 : ¬ ((14 : UInt8) < 13) := by decide
  have h1 : ((14 : UInt8) == 13) = false := by decide
  simp only [getValue, h0, h1, if_false, beq_self_eq_true, if_true, Bool.false_eq_true]
  apply UInt16.toNat_inj.1
  have := ntoh_toNat b c
  unfold ntoh at this
  rw [UInt16.toNat_add, this]
  simp only [UInt16.toNat_ofNat']
  have : (269 : UInt16).toNat = 269 := rfl
  rw [this]; congr 1; omega

theorem getValue_15 (b c : UInt8) : getValue 15 b c = 0 := by
  simp [getValue]

/-- Reading the extended bytes of a delta, whatever they are. -/
theorem any_delta (w b1 b2 b3 : UInt8) (h : Holder) (bs : List UInt8) (hw : (13 : UInt8) ≤ w >>> 4) :
    match readExt (w.toNat / 16) bs with
    | none => ∃ o', o'.st = .optionDelta ∧ OInv o' ∧ Q ⟨.optionDelta, w, b1, b2, b3, 1⟩ h bs o' h [] ∧ o'.b0 = w
    | some (delta, bs1) => ∃ c1 c2 p, Q ⟨.optionDelta, w, b1, b2, b3, 1⟩ h bs
        ⟨.optionDeltaDone, w, c1, c2, b3, p⟩ { h with number := h.number + UInt16.ofNat delta } bs1 := by
  have hn := hi_nib w
  have hlt : w.toNat / 16 < 16 := by have := u8_lt w; omega
  have hge : ¬ (w.toNat / 16 < 13) := by
    rw [UInt8.le_iff_toNat_le] at hw; simp at hw; rw [← hn]; simp; omega
  cases bs with
  | nil =>
    simp only [readExt, hge, if_false]
    exact ⟨⟨.optionDelta, w, b1, b2, b3, 1⟩, rfl, ⟨hw, Or.inl rfl⟩, Q.refl _ _ _, rfl⟩
  | cons b bs =>
    rcases ge13_cases hw (by rw [hn]; omega) with e | e | e
    · have hd : w.toNat / 16 = 13 := by rw [← hn, e]; rfl
      simp only [readExt, hd, Nat.lt_irrefl, if_false, if_true]
      refine ⟨b, b2, 1, ?_⟩
      have hs : OptDec.step ⟨.optionDelta, w, b1, b2, b3, 1⟩ b = .ok (⟨.optionDeltaDone, w, b, b2, b3, 1⟩, true) := by
        simp [OptDec.step, write, processOptionSize, rawDelta, e]
      have := Q.step (h := h) (bs := bs) hs rfl
      simp only [upd, OptDec.delta, rawDelta, e] at this
      rwa [getValue_any8] at this
    · have hd : w.toNat / 16 = 14 := by rw [← hn, e]; rfl
      have hs1 : OptDec.step ⟨.optionDelta, w, b1, b2, b3, 1⟩ b = .ok (⟨.optionDelta, w, b, b2, b3, 2⟩, true) := by
        simp [OptDec.step, write, processOptionSize, rawDelta, e]
      have q1 := Q.step (h := h) (bs := bs) hs1 rfl
      simp only [upd] at q1
      cases bs with
      | nil =>
        simp only [readExt, hd]
        exact ⟨⟨.optionDelta, w, b, b2, b3, 2⟩, rfl, ⟨hw, Or.inr ⟨e, rfl⟩⟩, q1, rfl⟩
      | cons c bs =>
        simp only [readExt, hd]
        refine ⟨b, c, 2, ?_⟩
        have hs2 : OptDec.step ⟨.optionDelta, w, b, b2, b3, 2⟩ c = .ok (⟨.optionDeltaDone, w, b, c, b3, 2⟩, true) := by
          simp [OptDec.step, write, processOptionSize, rawDelta, e]
        have q2 := Q.step (h := h) (bs := bs) hs2 rfl
        simp only [upd, OptDec.delta, rawDelta, e] at q2
        rw [getValue_any16] at q2
        exact q1.trans q2
    · have hd : w.toNat / 16 = 15 := by rw [← hn, e]; rfl
      simp only [readExt, hd]
      refine ⟨b, b2, 1, ?_⟩
      have hs : OptDec.step ⟨.optionDelta, w, b1, b2, b3, 1⟩ b = .ok (⟨.optionDeltaDone, w, b, b2, b3, 1⟩, true) := by
        simp [OptDec.step, write, processOptionSize, rawDelta, e]
      have := Q.step (h := h) (bs := bs) hs rfl
      simp only [upd, OptDec.delta, rawDelta, e] at this
      rw [getValue_15] at this
      simpa using this

/-- Reading the extended bytes of a length, whatever they are. -/
theorem any_len (w b1 b2 b3 : UInt8) (h : Holder) (bs : List UInt8) (hw : (13 : UInt8) ≤ w &&& 0x0F) :
    match readExt (w.toNat % 16) bs with
    | none => ∃ o', o'.st = .optionLength ∧ OInv o' ∧ Q ⟨.optionLength, w, b1, b2, b3, 1⟩ h bs o' h [] ∧ o'.b0 = w
    | some (len, bs1) => ∃ c1 c2 p, Q ⟨.optionLength, w, b1, b2, b3, 1⟩ h bs
        ⟨.optionLengthDone, w, c1, c2, b3, p⟩ { h with length := UInt16.ofNat len } bs1 ∧
        getValue (w &&& 0x0F) c1 c2 = UInt16.ofNat len := by
  have hn := lo_nib w
  have hlt : w.toNat % 16 < 16 := by omega
  have hge : ¬ (w.toNat % 16 < 13) := by
    rw [UInt8.le_iff_toNat_le, hn] at hw; simpa using hw
  cases bs with
  | nil =>
    simp only [readExt, hge, if_false]
    exact ⟨⟨.optionLength, w, b1, b2, b3, 1⟩, rfl, ⟨hw, Or.inl rfl⟩, Q.refl _ _ _, rfl⟩
  | cons b bs =>
    rcases ge13_cases hw (by rw [hn]; omega) with e | e | e
    · have hd : w.toNat % 16 = 13 := by rw [← hn, e]; rfl
      simp only [readExt, hd, Nat.lt_irrefl, if_false, if_true]
      refine ⟨b, b2, 1, ?_, by rw [e, getValue_any8]⟩
      have hs : OptDec.step ⟨.optionLength, w, b1, b2, b3, 1⟩ b = .ok (⟨.optionLengthDone, w, b, b2, b3, 1⟩, true) := by
        simp [OptDec.step, write, processOptionSize, rawLength, e]
      have := Q.step (h := h) (bs := bs) hs rfl
      simp only [upd, OptDec.length, rawLength, e] at this
      rwa [getValue_any8] at this
    · have hd : w.toNat % 16 = 14 := by rw [← hn, e]; rfl
      have hs1 : OptDec.step ⟨.optionLength, w, b1, b2, b3, 1⟩ b = .ok (⟨.optionLength, w, b, b2, b3, 2⟩, true) := by
        simp [OptDec.step, write, processOptionSize, rawLength, e]
      have q1 := Q.step (h := h) (bs := bs) hs1 rfl
      simp only [upd] at q1
      cases bs with
      | nil =>
        simp only [readExt, hd]
        exact ⟨⟨.optionLength, w, b, b2, b3, 2⟩, rfl, ⟨hw, Or.inr ⟨e, rfl⟩⟩, q1, rfl⟩
      | cons c bs =>
        simp only [readExt, hd]
        refine ⟨b, c, 2, ?_, by rw [e, getValue_any16]⟩
        have hs2 : OptDec.step ⟨.optionLength, w, b, b2, b3, 2⟩ c = .ok (⟨.optionLengthDone, w, b, c, b3, 2⟩, true) := by
          simp [OptDec.step, write, processOptionSize, rawLength, e]
        have q2 := Q.step (h := h) (bs := bs) hs2 rfl
        simp only [upd, OptDec.length, rawLength, e] at q2
        rw [getValue_any16] at q2
        exact q1.trans q2
    · have hd : w.toNat % 16 = 15 := by rw [← hn, e]; rfl
      simp only [readExt, hd]
      refine ⟨b, b2, 1, ?_, by rw [e, getValue_15]; rfl⟩
      have hs : OptDec.step ⟨.optionLength, w, b1, b2, b3, 1⟩ b = .ok (⟨.optionLengthDone, w, b, b2, b3, 1⟩, true) := by
        simp [OptDec.step, write, processOptionSize, rawLength, e]
      have := Q.step (h := h) (bs := bs) hs rfl
      simp only [upd, OptDec.length, rawLength, e] at this
      rw [getValue_15] at this
      simpa using this

/-- The event of the current option is still to come. -/
def Ahead : OState → Prop
  | .valueStart | .optionValue | .payload => False
  | _ => True

instance (s : OState) : Decidable (Ahead s) := by unfold Ahead; split <;> infer_instance

/-- The bytes ended inside an option header that begins with `w`; `l` is the length the holder shows, `h` the
holder before. -/
def CutAt (o' : OptDec) (w : UInt8) (h : Holder) (l : UInt16) : Prop :=
  o'.b0 = w ∧
  ((w.toNat % 16 < 13 ∧ l = UInt16.ofNat (w.toNat % 16) ∧ (o'.st = .optionDelta ∨ o'.st = .optionLengthDone)) ∨
   (13 ≤ w.toNat % 16 ∧ l = h.length ∧ (o'.st = .optionDelta ∨ o'.st = .optionDeltaDone ∨ o'.st = .optionLength)))

/-- Reading an option header of arbitrary bytes from a ready state. -/
theorem any_header (o : OptDec) (h : Holder) (w : UInt8) (bs : List UInt8) (hr : Ready o) (hne : w ≠ 0xFF) :
    match readExt (w.toNat / 16) bs with
    | none => ∃ o' l, Ahead o'.st ∧ o'.st ≠ .optionValueDone ∧ OInv o' ∧ Q o h (w :: bs) o' ⟨h.number, l⟩ [] ∧ CutAt o' w h l
    | some (delta, bs1) =>
      match readExt (w.toNat % 16) bs1 with
      | none => ∃ o' l, Ahead o'.st ∧ o'.st ≠ .optionValueDone ∧ OInv o' ∧
          Q o h (w :: bs) o' ⟨h.number + UInt16.ofNat delta, l⟩ [] ∧ CutAt o' w h l
      | some (len, bs2) => ∃ o', Ahead o'.st ∧
          Q o h (w :: bs) o' ⟨h.number + UInt16.ofNat delta, UInt16.ofNat len⟩ bs2 ∧ HEnd o' len := by
  -- first byte
  obtain ⟨b1, b2, b3, q1⟩ : ∃ b1 b2 b3, Q o h (w :: bs) ⟨.firstByteDone, w, b1, b2, b3, 1⟩ h (w :: bs) := by
    obtain ⟨st, b0, b1, b2, b3, pos⟩ := o
    refine ⟨b1, b2, b3, ?_⟩
    have hs1 : OptDec.step ⟨.firstByte, b0, b1, b2, b3, pos⟩ w =
        .ok (⟨.firstByteDone, w, b1, b2, b3, 1⟩, false) := by simp [OptDec.step, hne]
    have q1 := Q.step (h := h) (bs := bs) hs1 rfl
    rcases hr with hs | hs
    · simp only at hs; subst hs; exact q1
    · simp only at hs; subst hs
      have h1 : OptDec.step ⟨.optionValueDone, b0, b1, b2, b3, pos⟩ w = .ok (⟨.firstByte, b0, b1, b2, b3, pos⟩, false) := by
        simp [OptDec.step]
      exact Q.trans (Q.step (h := h) (bs := bs) h1 rfl) q1
  have hn := hi_nib w
  have hl := lo_nib w
  by_cases hd : (13 : UInt8) ≤ w >>> 4
  · have hd' : ¬ (w.toNat / 16 < 13) := by rw [← hn]; rw [UInt8.le_iff_toNat_le] at hd; simpa using hd
    by_cases hln : (13 : UInt8) ≤ w &&& 0x0F
    · -- both extended
      have hge : 13 ≤ w.toNat % 16 := by rw [← hl]; rw [UInt8.le_iff_toNat_le] at hln; simpa using hln
      have hs2 : OptDec.step ⟨.firstByteDone, w, b1, b2, b3, 1⟩ w =
          .ok (⟨.optionDelta, w, b1, b2, b3, 1⟩, true) := by
        simp [OptDec.step, rawDelta, rawLength, hd, hln]
      have q2 : Q _ h (w :: bs) _ h bs := Q.step (h := h) (bs := bs) hs2 rfl
      have q := q1.trans q2
      have qd := any_delta w b1 b2 b3 h bs hd
      cases h1 : readExt (w.toNat / 16) bs with
      | none =>
        rw [h1] at qd
        obtain ⟨o', e1, e2, e3, e4⟩ := qd
        exact ⟨o', h.length, by simp [e1, Ahead], by simp [e1], e2, q.trans e3, e4, Or.inr ⟨hge, rfl, by simp [e1]⟩⟩
      | some p =>
        obtain ⟨delta, bs1⟩ := p
        rw [h1] at qd
        obtain ⟨c1, c2, p, e3⟩ := qd
        simp only
        have q := q.trans e3
        cases hb : bs1 with
        | nil =>
          have : readExt (w.toNat % 16) [] = none := by
            have : ¬ (w.toNat % 16 < 13) := by rw [← hl]; rw [UInt8.le_iff_toNat_le] at hln; simpa using hln
            simp [readExt, this]
          rw [this]
          rw [hb] at q
          exact ⟨_, h.length, by simp [Ahead], by simp, by simp [OInv], q, rfl, Or.inr ⟨hge, rfl, by simp⟩⟩
        | cons x xs =>
          have hs3 : OptDec.step ⟨.optionDeltaDone, w, c1, c2, b3, p⟩ x =
              .ok (⟨.optionLength, w, c1, c2, b3, 1⟩, false) := by
            simp [OptDec.step, rawLength, hln]
          have q3 := Q.step (h := { h with number := h.number + UInt16.ofNat delta }) (bs := xs) hs3 rfl
          simp only [upd] at q3
          rw [hb] at q
          have q := q.trans q3
          have ql := any_len w c1 c2 b3 { h with number := h.number + UInt16.ofNat delta } (x :: xs) hln
          cases h2 : readExt (w.toNat % 16) (x :: xs) with
          | none =>
            rw [h2] at ql
            obtain ⟨o', e1, e2, e3, e4⟩ := ql
            exact ⟨o', h.length, by simp [e1, Ahead], by simp [e1], e2, q.trans e3, e4, Or.inr ⟨hge, rfl, by simp [e1]⟩⟩
          | some p =>
            obtain ⟨len, bs2⟩ := p
            rw [h2] at ql
            obtain ⟨f1, f2, p2, e3, hv⟩ := ql
            refine ⟨_, ?_, q.trans e3, ?_, ?_, by simp, by simp, by simp, ?_⟩
            · simp [Ahead]
            · intro b; simp [OptDec.step, rawLength, hln]
            · simp only [OptDec.length, rawLength]; exact hv
            · simp [OInv, rawLength, hln]
    · -- only the delta extended
      have hl' : w.toNat % 16 < 13 := by
        rw [← hl]; rw [UInt8.le_iff_toNat_le] at hln; simpa using hln
      have hlen : getValue (w &&& 0x0F) b1 b2 = UInt16.ofNat (w.toNat % 16) := getValue_lit _ _ _ _ hl' hl
      have hs2 : OptDec.step ⟨.firstByteDone, w, b1, b2, b3, 1⟩ w =
          .ok (⟨.optionLengthDone, w, b1, b2, b3, 1⟩, true) := by
        simp [OptDec.step, rawDelta, rawLength, hd, hln]
      have q2 := Q.step (h := h) (bs := bs) hs2 rfl
      simp only [upd, OptDec.length, rawLength, hlen] at q2
      have q := q1.trans q2
      simp only [if_true] at q
      cases hb : bs with
      | nil =>
        have : readExt (w.toNat / 16) [] = none := by simp [readExt, hd']
        rw [this]
        rw [hb] at q
        exact ⟨_, UInt16.ofNat (w.toNat % 16), by simp [Ahead], by simp, by simp [OInv, rawDelta, hd], q, rfl,
          Or.inl ⟨hl', rfl, by simp⟩⟩
      | cons x xs =>
        have hs3 : OptDec.step ⟨.optionLengthDone, w, b1, b2, b3, 1⟩ x =
            .ok (⟨.optionDelta, w, b1, b2, b3, 1⟩, false) := by
          simp [OptDec.step, rawLength, hln]
        have q3 := Q.step (h := { h with length := UInt16.ofNat (w.toNat % 16) }) (bs := xs) hs3 rfl
        simp only [upd] at q3
        rw [hb] at q
        have q := q.trans q3
        have qd := any_delta w b1 b2 b3 { h with length := UInt16.ofNat (w.toNat % 16) } (x :: xs) hd
        cases h1 : readExt (w.toNat / 16) (x :: xs) with
        | none =>
          rw [h1] at qd
          obtain ⟨o', e1, e2, e3, e4⟩ := qd
          exact ⟨o', UInt16.ofNat (w.toNat % 16), by simp [e1, Ahead], by simp [e1], e2, q.trans e3, e4,
            Or.inl ⟨hl', rfl, by simp [e1]⟩⟩
        | some p =>
          obtain ⟨delta, bs1⟩ := p
          rw [h1] at qd
          obtain ⟨c1, c2, p, e3⟩ := qd
          have : readExt (w.toNat % 16) bs1 = some (w.toNat % 16, bs1) := by simp [readExt, hl']
          simp only [this]
          refine ⟨_, ?_, q.trans e3, ?_, ?_, by simp, by simp, by simp, by simp [OInv]⟩
          · simp [Ahead]
          · intro b; simp [OptDec.step, rawLength, hln]
          · simp only [OptDec.length, rawLength]; exact getValue_lit _ _ _ _ hl' hl
  · have hd' : w.toNat / 16 < 13 := by
      rw [← hn]; rw [UInt8.le_iff_toNat_le] at hd; simpa using hd
    have hdv : getValue (w >>> 4) b1 b2 = UInt16.ofNat (w.toNat / 16) := getValue_lit _ _ _ _ hd' hn
    have : readExt (w.toNat / 16) bs = some (w.toNat / 16, bs) := by simp [readExt, hd']
    simp only [this]
    by_cases hln : (13 : UInt8) ≤ w &&& 0x0F
    · have hge : 13 ≤ w.toNat % 16 := by rw [← hl]; rw [UInt8.le_iff_toNat_le] at hln; simpa using hln
      have hs2 : OptDec.step ⟨.firstByteDone, w, b1, b2, b3, 1⟩ w =
          .ok (⟨.optionDeltaDone, w, b1, b2, b3, 1⟩, true) := by
        simp [OptDec.step, rawDelta, rawLength, hd, hln]
      have q2 := Q.step (h := h) (bs := bs) hs2 rfl
      simp only [upd, OptDec.delta, rawDelta, hdv] at q2
      have q := q1.trans q2
      simp only [if_true] at q
      cases hb : bs with
      | nil =>
        have : readExt (w.toNat % 16) [] = none := by
          have : ¬ (w.toNat % 16 < 13) := by rw [← hl]; rw [UInt8.le_iff_toNat_le] at hln; simpa using hln
          simp [readExt, this]
        rw [this]
        rw [hb] at q
        exact ⟨_, h.length, by simp [Ahead], by simp, by simp [OInv], q, rfl, Or.inr ⟨hge, rfl, by simp⟩⟩
      | cons x xs =>
        have hs3 : OptDec.step ⟨.optionDeltaDone, w, b1, b2, b3, 1⟩ x =
            .ok (⟨.optionLength, w, b1, b2, b3, 1⟩, false) := by
          simp [OptDec.step, rawLength, hln]
        have q3 := Q.step (h := { h with number := h.number + UInt16.ofNat (w.toNat / 16) }) (bs := xs) hs3 rfl
        simp only [upd] at q3
        rw [hb] at q
        have q := q.trans q3
        have ql := any_len w b1 b2 b3 { h with number := h.number + UInt16.ofNat (w.toNat / 16) } (x :: xs) hln
        cases h2 : readExt (w.toNat % 16) (x :: xs) with
        | none =>
          rw [h2] at ql
          obtain ⟨o', e1, e2, e3, e4⟩ := ql
          exact ⟨o', h.length, by simp [e1, Ahead], by simp [e1], e2, q.trans e3, e4, Or.inr ⟨hge, rfl, by simp [e1]⟩⟩
        | some p =>
          obtain ⟨len, bs2⟩ := p
          rw [h2] at ql
          obtain ⟨f1, f2, p2, e3, hv⟩ := ql
          refine ⟨_, ?_, q.trans e3, ?_, ?_, by simp, by simp, by simp, ?_⟩
          · simp [Ahead]
          · intro b; simp [OptDec.step, rawLength, hln]
          · simp only [OptDec.length, rawLength]; exact hv
          · simp [OInv, rawLength, hln]
    · have hl' : w.toNat % 16 < 13 := by
        rw [← hl]; rw [UInt8.le_iff_toNat_le] at hln; simpa using hln
      have hlen : getValue (w &&& 0x0F) b1 b2 = UInt16.ofNat (w.toNat % 16) := getValue_lit _ _ _ _ hl' hl
      have : readExt (w.toNat % 16) bs = some (w.toNat % 16, bs) := by simp [readExt, hl']
      simp only [this]
      have hs2 : OptDec.step ⟨.firstByteDone, w, b1, b2, b3, 1⟩ w =
          .ok (⟨.optionDeltaAndLengthDone, w, b1, b2, b3, 1⟩, true) := by
        simp [OptDec.step, rawDelta, rawLength, hd, hln]
      have q2 := Q.step (h := h) (bs := bs) hs2 rfl
      simp only [upd, OptDec.delta, OptDec.length, rawDelta, rawLength, hdv, hlen] at q2
      refine ⟨_, ?_, q1.trans q2, ?_, ?_, by simp, by simp, by simp, by simp [OInv]⟩
      · simp [Ahead]
      · intro b; simp [OptDec.step]
      · simp only [OptDec.length, rawLength]; exact hlen

/-- Value bytes of an option that is cut off by the end of the buffer. -/
theorem value_cut (r : List UInt8) (last : Bool) (d : Dec) (hds : d.st = .options) (hs : d.opt.st = .optionValue)
    (hl : r.length < d.opt.valueLength.toNat) :
    ∃ o', o'.st = .optionValue ∧ feed last d r = ([], { d with opt := o' }, []) := by
  induction r generalizing d with
  | nil => exact ⟨d.opt, hs, feed_nil last d⟩
  | cons b bs ih =>
    simp only [List.length_cons] at hl
    have hsub : (d.opt.valueLength - 1).toNat = d.opt.valueLength.toNat - 1 := by
      rw [UInt16.toNat_sub_of_le _ _ (by rw [UInt16.le_iff_toNat_le]; simp; omega)]; rfl
    have hne : (d.opt.valueLength - 1 == 0) = false := by
      rw [beq_eq_false_iff_ne]; intro h
      have := congrArg UInt16.toNat h
      rw [hsub] at this; simp at this; omega
    have he : d.opt.step b = .ok (d.opt.setValueLength (d.opt.valueLength - 1), true) := by
      simp only [OptDec.step, hs, setValueLength_get, hne, Bool.false_eq_true, if_false]
    have hst : (d.opt.setValueLength (d.opt.valueLength - 1)).st = .optionValue := hs
    have hm : micro d b = ({ d with opt := d.opt.setValueLength (d.opt.valueLength - 1) }, true) := by
      simp [micro, hds, pureStep_eq he, upd, hst]
    obtain ⟨o', h1, h2⟩ := ih { d with opt := d.opt.setValueLength (d.opt.valueLength - 1) } hds hst
      (by rw [setValueLength_get, hsub]; omega)
    refine ⟨o', h1, ?_⟩
    rw [feed_cons last d b _ (by simp [Going, hds]) _ _ hm]
    simp only [if_true]
    rw [h2]
    simp [note, notify, hds, hst]

/-- An option whose value is cut off by the end of the buffer. -/
theorem hend_cut (last : Bool) (d : Dec) (r : List UInt8) (len : Nat) (hds : d.st = .options) (hh : HEnd d.opt len)
    (hlen : d.holder.length = UInt16.ofNat len) (hr : r ≠ []) (hlt : r.length < len % 65536) :
    ∃ o', o'.st = .optionValue ∧
      feed last d r = ([.option d.holder.number r false], { d with opt := o' }, []) := by
  obtain ⟨b, bs, hb⟩ := List.exists_cons_of_ne_nil hr
  obtain ⟨h1, h2, -⟩ := hh
  have hm : micro d b = ({ d with opt := { d.opt with st := .valueStart } }, false) := by
    simp [micro, hds, pureStep_eq (h1 b), upd]
  have hvt : (UInt16.ofNat len).toNat = len % 65536 := by simp
  have hlen2 : ({ d.opt with st := .valueStart } : OptDec).length = UInt16.ofNat len := h2
  have hno : note { d with opt := { d.opt with st := .valueStart } } r last =
      [.option d.holder.number r false] := by
    have : UInt16.ofNat len > 0 := by
      rw [gt_iff_lt, UInt16.lt_iff_toNat_lt, hvt]; simp; omega
    have hle : ¬ (len % 65536 ≤ r.length) := by omega
    simp only [note, notify, hds, beq_self_eq_true, if_true, hlen, this]
    simp only [optionValue, hlen2, hvt, Ctx.remainder, List.drop_zero, hle, if_false]
  have hz : (UInt16.ofNat len == 0) = false := by
    rw [beq_eq_false_iff_ne]; intro h
    have := congrArg UInt16.toNat h
    rw [hvt] at this; simp at this; omega
  have hvs : OptDec.step { d.opt with st := .valueStart } b =
      .ok ({ (OptDec.setValueLength { d.opt with st := .valueStart } (UInt16.ofNat len)) with
              st := .optionValue }, false) := by
    simp only [OptDec.step, hlen2, setValueLength_get, hz, Bool.false_eq_true, if_false]
  have hm2 : micro { d with opt := { d.opt with st := .valueStart } } b =
      ({ d with opt := { OptDec.setValueLength { d.opt with st := .valueStart } (UInt16.ofNat len) with st := .optionValue } },
        false) := by
    simp [micro, hds, pureStep_eq hvs, upd]
  obtain ⟨o', g1, g2⟩ := value_cut r last
    { d with opt := { OptDec.setValueLength { d.opt with st := .valueStart } (UInt16.ofNat len) with st := .optionValue } }
    hds rfl (by
      have := setValueLength_get { d.opt with st := .valueStart } (UInt16.ofNat len)
      have h3 : ({ OptDec.setValueLength { d.opt with st := .valueStart } (UInt16.ofNat len) with st := .optionValue } : OptDec).valueLength =
        UInt16.ofNat len := this
      rw [h3, hvt]; exact hlt)
  refine ⟨o', g1, ?_⟩
  rw [hb, feed_cons last d b bs (by simp [Going, hds]) _ _ hm]
  simp only [Bool.false_eq_true, if_false, ← hb, hno]
  rw [hb, feed_cons last _ b bs (by simp [Going, hds]) _ _ hm2]
  simp only [Bool.false_eq_true, if_false, ← hb, g2]
  simp [note, notify, hds]

/-- Option numbers among the events. -/
def nums (evs : List Event) : List UInt16 :=
  evs.filterMap fun e => match e with | .option n _ _ => some n | _ => none

theorem nums_append (a b : List Event) : nums (a ++ b) = nums a ++ nums b := by simp [nums]

/-- One step of the option decoder on a zero byte at the end of input. -/
theorem eof_ahead (o o' : OptDec) (c : Bool) (h : OInv o) (e : o.step 0 = .ok (o', c)) (hp : o.st ≠ .payload) :
    (Ahead o.st → o'.st = .valueStart ∨ (Ahead o'.st ∧ o'.st ≠ .optionValueDone)) ∧
    (¬ Ahead o.st → o'.st = .optionValue ∨ o'.st = .optionValueDone) := by
  unfold OInv at h
  cases hs : o.st <;> simp only [hs] at h <;> simp only [OptDec.step, hs] at e
  case firstByte => simp at e; rw [← e.1]; simp [Ahead]
  case firstByteDone =>
    cases e
    by_cases h1 : o.rawDelta ≥ 13 <;> by_cases h2 : o.rawLength ≥ 13 <;> simp [h1, h2, Ahead]
  case optionDelta =>
    obtain ⟨h1, h2 | ⟨h2, h3⟩⟩ := h
    · simp only [write, h2] at e
      simp only [processOptionSize] at e
      by_cases hd : o.rawDelta = 14
      · simp [hd] at e; rw [← e.1]; simp [Ahead, hs]
      · simp [hd] at e; rw [← e.1]; simp [Ahead]
    · simp only [write, h3] at e
      simp [processOptionSize, h2] at e; rw [← e.1]; simp [Ahead]
  case optionDeltaDone => split at e <;> cases e <;> simp [Ahead]
  case optionLength =>
    obtain ⟨h1, h2 | ⟨h2, h3⟩⟩ := h
    · simp only [write, h2] at e
      simp only [processOptionSize] at e
      by_cases hd : o.rawLength = 14
      · simp [hd] at e; rw [← e.1]; simp [Ahead, hs]
      · simp [hd] at e; rw [← e.1]; simp [Ahead]
    · simp only [write, h3] at e
      simp [processOptionSize, h2] at e; rw [← e.1]; simp [Ahead]
  case optionLengthDone => split at e <;> cases e <;> simp [Ahead]
  case optionDeltaAndLengthDone => cases e; simp [Ahead]
  case valueStart =>
    cases e
    simp only [Ahead, false_imp_iff, not_false_eq_true, true_imp_iff, true_and]
    split <;> simp
  case optionValue =>
    simp only [Ahead, false_imp_iff, not_false_eq_true, true_imp_iff, true_and]
    split at e <;> cases e
    · simp
    · left; simp [setValueLength, hs]
  case optionValueDone => cases e; simp [Ahead]
  case payload => exact absurd hs hp

/-- A decoder in the options state at the end of the last buffer: the option numbers it still reports. -/
theorem finish_nums {d : Dec} (hs : d.st = .options) (hi : OInv d.opt) (hp : d.opt.st ≠ .payload) :
    ∃ k e, (∀ c, AtEof c → Finish k d c e) ∧ nums e = if Ahead d.opt.st then [d.holder.number] else [] := by
  generalize hm : em d.opt = m
  induction m using Nat.strongRecOn generalizing d with
  | ind m ih =>
    obtain ⟨o', cc, e, hi', hp', hcase⟩ := eof_step d.opt hi hp
    obtain ⟨ha1, ha2⟩ := eof_ahead d.opt o' cc hi e hp
    by_cases hov : o'.st = .optionValueDone
    · have h1 : ∀ c, AtEof c → d.stepNotify c = .ok ({ d with opt := o', st := .optionsDone }, c, [.optionsCompleted]) := by
        intro c hc
        simp only [stepNotify, Dec.step, hs, OptDec.process, hc.rem, hc.1, List.length_nil, beq_self_eq_true,
          Bool.and_true, if_true, e, Nat.add_zero]
        simp [notify, hc.2, hov, hc.eta]
      refine ⟨2, [.optionsCompleted, .completed], fun c hc => Finish.cons (h1 c hc) (by simp)
        (finish_optionsDone hc rfl (by simp [hov])), ?_⟩
      have : ¬ Ahead d.opt.st := by
        intro h
        rcases ha1 h with h | h
        · rw [hov] at h; cases h
        · exact h.2 hov
      rw [if_neg this]; rfl
    · have hlt : em o' < m := by
        rcases hcase with h | h
        · exact absurd h hov
        · omega
      obtain ⟨ev, hev, h1⟩ : ∃ ev, nums ev = (if o'.st = .valueStart then [d.holder.number] else []) ∧
          ∀ c, AtEof c → d.stepNotify c = .ok ({ d with opt := o' }, c, ev) := by
        have hst : ∀ c, AtEof c → d.step c = .ok ({ d with opt := o' }, c) := by
          intro c hc
          simp only [Dec.step, hs, OptDec.process, hc.rem, hc.1, List.length_nil, beq_self_eq_true,
            Bool.and_true, if_true, e, Nat.add_zero]
          simp [hc.2, hov, hp', hc.eta]
        by_cases h1 : o'.st = .valueStart
        · by_cases h2 : d.holder.length > 0
          · by_cases h3 : o'.length.toNat ≤ 0
            · refine ⟨[.option d.holder.number [] true], by simp [h1, nums], fun c hc => ?_⟩
              simp only [stepNotify, hst c hc]
              have h3' : o'.length.toNat = 0 := by omega
              simp [notify, hs, h1, h2, optionValue, hc.rem, h3']
            · refine ⟨[.option d.holder.number [] false], by simp [h1, nums], fun c hc => ?_⟩
              simp only [stepNotify, hst c hc]
              have h3' : ¬ o'.length.toNat = 0 := by omega
              simp [notify, hs, h1, h2, optionValue, hc.rem]
              rw [if_neg h3']; simp
          · refine ⟨[.option d.holder.number [] true], by simp [h1, nums], fun c hc => ?_⟩
            simp only [stepNotify, hst c hc]
            simp [notify, hs, h1, h2]
        · refine ⟨[], by simp [h1, nums], fun c hc => ?_⟩
          simp only [stepNotify, hst c hc]
          simp [notify, hs, h1]
      obtain ⟨k, e2, hf, hn⟩ := ih (em o') hlt (d := { d with opt := o' }) hs hi' hp' rfl
      refine ⟨k + 1, ev ++ e2, fun c hc => Finish.cons (h1 c hc) (by simp [hs]) (hf c hc), ?_⟩
      rw [nums_append, hev, hn]
      by_cases ha : Ahead d.opt.st
      · rw [if_pos ha]
        rcases ha1 ha with h | h
        · simp [h, Ahead]
        · have : o'.st ≠ .valueStart := by intro h'; rw [h'] at h; simp [Ahead] at h
          simp [h.1, this]
      · rw [if_neg ha]
        rcases ha2 ha with h | h
        · simp [h, Ahead]
        · exact absurd h hov

/-- What stepping over the rest `r` of a last buffer, and past its end, reports as option numbers. -/
def Reports (d : Dec) (r : List UInt8) (L : List UInt16) : Prop :=
  (chunkEnd true (feed true d r)).2.st ≠ .done ∧
  ∃ k e, (∀ c, AtEof c → Finish k (chunkEnd true (feed true d r)).2 c e) ∧
    nums ((chunkEnd true (feed true d r)).1 ++ e) = L

theorem Reports.pre {d d' : Dec} {r r' : List UInt8} {L : List UInt16} (ev : List Event)
    (h : feed true d r = (ev ++ (feed true d' r').1, (feed true d' r').2)) (hr : Reports d' r' L) :
    Reports d r (nums ev ++ L) := by
  unfold Reports
  rw [h, chunkEnd_pre]
  obtain ⟨h1, k, e, h2, h3⟩ := hr
  refine ⟨h1, k, e, h2, ?_⟩
  rw [List.append_assoc, nums_append, h3]

/-- Past the payload marker. -/
theorem reports_payload (d : Dec) (r : List UInt8) (hs : d.st = .optionsDone) (ho : d.opt.st = .payload) :
    Reports d r [] := by
  unfold Reports
  by_cases hr : r = []
  · subst hr
    rw [feed_nil]
    have hce : chunkEnd true ([], d, []) = ([], d) := by simp [chunkEnd, finEv, fin, hs]
    rw [hce]
    exact ⟨by simp [hs], 3, _, fun c hc => finish_marker hc hs ho, rfl⟩
  · rw [payload_feed true d r hs hr]
    refine ⟨by simp [chunkEnd], 1, [.completed], fun c hc => ?_, ?_⟩
    · simp only [chunkEnd, if_true]; exact finish_payloadDone rfl
    · simp [chunkEnd, nums]

/-- Options made of arbitrary bytes: the numbers reported are the sums of the deltas, modulo 65536. -/
theorem reports_options (r : List UInt8) (S : Nat) (d : Dec) (hds : d.st = .options) (hr : Ready d.opt)
    (hn : d.holder.number = UInt16.ofNat S) (hne : r ≠ [] ∨ d.opt.st = .optionValueDone) :
    Reports d r ((scan S r).map UInt16.ofNat) := by
  generalize hm : r.length = m
  induction m using Nat.strongRecOn generalizing r S d with
  | ind m ih =>
    cases r with
    | nil =>
      have hov : d.opt.st = .optionValueDone := by
        rcases hne with h | h
        · exact absurd rfl h
        · exact h
      have hce : chunkEnd true ([], d, []) = ([.optionsCompleted], { d with st := .optionsDone }) := by
        simp [chunkEnd, finEv, fin, hds, hov]
      unfold Reports
      rw [feed_nil, hce]
      refine ⟨by simp, 1, [.completed], fun c hc => finish_optionsDone hc rfl (by simp [hov]), ?_⟩
      simp [scan, nums]
    | cons w bs =>
      by_cases hw : w = 0xFF
      · subst hw
        have := Reports.pre [.optionsCompleted] (marker_feed true d bs hds hr)
          (reports_payload { d with st := .optionsDone, opt := { d.opt with st := .payload } } bs rfl rfl)
        simpa [scan, nums] using this
      · have hh := any_header d.opt d.holder w bs hr hw
        have cut : ∀ (o' : OptDec) (h' : Holder), Ahead o'.st → o'.st ≠ .optionValueDone → OInv o' →
            Q d.opt d.holder (w :: bs) o' h' [] → Reports d (w :: bs) [h'.number] := by
          intro o' h' a1 a2 a3 q
          unfold Reports
          rw [q.1 d true hds rfl rfl, feed_nil]
          have hce : chunkEnd true ([], ({ d with opt := o', holder := h' } : Dec), []) =
              ([], { d with opt := o', holder := h' }) := by simp [chunkEnd, finEv, fin, hds, a2]
          rw [hce]
          obtain ⟨k, e, hf, hnum⟩ := finish_nums (d := { d with opt := o', holder := h' }) hds a3
            (by intro h; rw [h] at a1; simp [Ahead] at a1)
          refine ⟨by simp [hds], k, e, hf, ?_⟩
          rw [List.nil_append, hnum, if_pos a1]
        cases h1 : readExt (w.toNat / 16) bs with
        | none =>
          rw [h1] at hh
          rw [scan_cut_delta hw h1]
          obtain ⟨o', l, a1, a2, a3, q, -⟩ := hh
          have := cut o' _ a1 a2 a3 q
          simpa [hn] using this
        | some p =>
          obtain ⟨delta, bs1⟩ := p
          simp only [h1] at hh
          cases h2 : readExt (w.toNat % 16) bs1 with
          | none =>
            rw [h2] at hh
            rw [scan_cut_length hw h1 h2]
            obtain ⟨o', l, a1, a2, a3, q, -⟩ := hh
            have := cut o' _ a1 a2 a3 q
            simpa [hn] using this
          | some p =>
            obtain ⟨len, bs2⟩ := p
            simp only [h2] at hh
            rw [scan_option hw h1 h2]
            obtain ⟨o', a1, q, he⟩ := hh
            have hSd : d.holder.number + UInt16.ofNat delta = UInt16.ofNat (S + delta) := by rw [hn]; simp
            by_cases hb2 : bs2 = []
            · subst hb2
              have := cut o' _ a1 he.2.2.1 he.2.2.2.2.2 q
              simpa [scan, hSd] using this
            · by_cases hlt : bs2.length < len % 65536
              · obtain ⟨o2, g1, g2⟩ := hend_cut true
                  { d with opt := o', holder := ⟨d.holder.number + UInt16.ofNat delta, UInt16.ofNat len⟩ } bs2 len hds he rfl hb2 hlt
                have hov : scan (S + delta) (bs2.drop (len % 65536)) = [] := by
                  rw [List.drop_of_length_le (by omega), scan]
                simp only [hov, List.map_cons, List.map_nil]
                unfold Reports
                rw [q.1 d true hds rfl rfl, g2]
                have hce : chunkEnd true ([Event.option (d.holder.number + UInt16.ofNat delta) bs2 false],
                    ({ d with opt := o2, holder := ⟨d.holder.number + UInt16.ofNat delta, UInt16.ofNat len⟩ } : Dec), []) =
                    ([.option (d.holder.number + UInt16.ofNat delta) bs2 false],
                      { d with opt := o2, holder := ⟨d.holder.number + UInt16.ofNat delta, UInt16.ofNat len⟩ }) := by
                  simp [chunkEnd, finEv, fin, hds, g1]
                rw [hce]
                obtain ⟨k, e, hf, hnum⟩ := finish_nums
                  (d := { d with opt := o2, holder := ⟨d.holder.number + UInt16.ofNat delta, UInt16.ofNat len⟩ }) hds
                  (by simp [OInv, g1]) (by simp [g1])
                refine ⟨by simp [hds], k, e, hf, ?_⟩
                rw [nums_append, hnum]
                simp [g1, Ahead, nums, hSd]
              · have hlen : (bs2.take (len % 65536)).length = len % 65536 := by simp; omega
                have he' : HEnd o' (bs2.take (len % 65536)).length := by
                  rw [hlen]
                  obtain ⟨x1, x2, x3⟩ := he
                  exact ⟨x1, by rw [x2]; apply UInt16.toNat_inj.1; simp, x3⟩
                obtain ⟨o2, g1, g2⟩ := hend_phase true
                  { d with opt := o', holder := ⟨d.holder.number + UInt16.ofNat delta, UInt16.ofNat len⟩ }
                  (bs2.take (len % 65536)) (bs2.drop (len % 65536)) hds he' (by rw [hlen]; omega)
                  (by rw [hlen]; apply UInt16.toNat_inj.1; simp) (by simpa using hb2)
                rw [List.take_append_drop] at g2
                have hlt1 := readExt_length h1
                have hlt2 := readExt_length h2
                have hrec := ih (bs2.drop (len % 65536)).length (by simp at hm ⊢; omega) (bs2.drop (len % 65536)) (S + delta)
                  { d with opt := o2, holder := ⟨d.holder.number + UInt16.ofNat delta, UInt16.ofNat len⟩ } hds (Or.inr g1) hSd
                  (Or.inr g1) rfl
                have hfeed := (q.1 d true hds rfl rfl).trans g2
                have := Reports.pre [.option (d.holder.number + UInt16.ofNat delta) (bs2.take (len % 65536)) true] hfeed hrec
                simp only [List.map_cons, ← hSd]
                exact this

end Verif.Proofs
