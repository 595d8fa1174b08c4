import Verif.Proofs.FeedRun
import Verif.Spec.Wire

/-! # `feed` over an encoded option -/
namespace Verif.Proofs
open Verif.Model Header Dec OptDec Spec

/-- Silent progress of the option decoder, both inside `feed` and inside its own loop. -/
def Q (o : OptDec) (h : Holder) (r : List UInt8) (o' : OptDec) (h' : Holder) (r' : List UInt8) : Prop :=
  (∀ (d : Dec) (last : Bool), d.st = .options → d.opt = o → d.holder = h →
    feed last d r = feed last { d with opt := o', holder := h' } r') ∧
  (r'.length ≤ r.length ∧ ∀ d : Dec, d.st = .options → d.opt = o → d.holder = h →
    spots d r = spots { d with opt := o', holder := h' } r') ∧
  ∃ k, ∀ f n, loop (k + f) o h r n = loop f o' h' r' (n + (r.length - r'.length))

theorem Q.trans {o h r o1 h1 r1 o2 h2 r2} (a : Q o h r o1 h1 r1) (b : Q o1 h1 r1 o2 h2 r2) :
    Q o h r o2 h2 r2 := by
  obtain ⟨a1, ⟨a2, as⟩, ka, a3⟩ := a
  obtain ⟨b1, ⟨b2, bs⟩, kb, b3⟩ := b
  refine ⟨?_, ⟨by omega, ?_⟩, ka + kb, ?_⟩
  · intro d last hs ho hh
    rw [a1 d last hs ho hh, b1 { d with opt := o1, holder := h1 } last hs rfl rfl]
  · intro d hs ho hh
    rw [as d hs ho hh, bs { d with opt := o1, holder := h1 } hs rfl rfl]
  · intro f n
    rw [Nat.add_assoc, a3, b3]; congr 1; omega

theorem Q.step {o o' : OptDec} {h : Holder} {b : UInt8} {bs : List UInt8} {c : Bool}
    (e : o.step b = .ok (o', c)) (h1 : paused o'.st = false) :
    Q o h (b :: bs) o' (upd o' h) (if c then bs else b :: bs) := by
  have hp : o'.st ≠ .payload := by intro h; simp [h, paused] at h1
  have hv : o'.st ≠ .valueStart := by intro h; simp [h, paused] at h1
  refine ⟨?_, ⟨by cases c <;> simp, ?_⟩, 1, ?_⟩
  · intro d last hs ho hh
    subst ho hh
    have hp : o'.st ≠ .payload := by intro h; simp [h, paused] at h1
    have hv : o'.st ≠ .valueStart := by intro h; simp [h, paused] at h1
    have hm : micro d b = ({ d with opt := o', holder := upd o' d.holder }, c) := by
      simp [micro, hs, pureStep_eq e, hp]
    rw [feed_cons last d b bs (by simp [Going, hs]) _ _ hm]
    have : note { d with opt := o', holder := upd o' d.holder } (if c then bs else b :: bs) last = [] := by
      simp [note, notify, hs, hv]
    rw [this]; simp
  · intro d hs ho hh
    subst ho hh
    have hm : micro d b = ({ d with opt := o', holder := upd o' d.holder }, c) := by
      simp [micro, hs, pureStep_eq e, hp]
    rw [spots_cons d b bs (by simp [Going, hs]) _ _ hm]
    cases c <;> simp [spotNote, hv]
  · intro f n
    rw [Nat.add_comm, loop_cons f o o' c h b bs n e, h1]
    cases c <;> simp

theorem getValue_lit (n e0 e1 : UInt8) (v : Nat) (h : v < 13) (hn : n.toNat = v) :
    getValue n e0 e1 = UInt16.ofNat v := by
  have : n < 13 := by rw [UInt8.lt_iff_toNat_lt]; simp; omega
  simp only [getValue, this, if_true]
  apply UInt16.toNat_inj.1; simp [hn]; omega

theorem getValue_ext8 (e1 : UInt8) (v : Nat) (h : 13 ≤ v) (h2 : v < 269) :
    getValue 13 (UInt8.ofNat (v - 13)) e1 = UInt16.ofNat v := by
  have h0 : ¬ ((13 : UInt8) < 13) := by decide
  simp only [getValue, h0, if_false, beq_self_eq_true, if_true]
  apply UInt16.toNat_inj.1
  simp only [UInt16.toNat_add, UInt8.toNat_toUInt16, UInt8.toNat_ofNat', UInt16.toNat_ofNat']
  have : (13 : UInt16).toNat = 13 := rfl
  rw [this]; omega

theorem getValue_ext16 (v : Nat) (h : 269 ≤ v) (h2 : v < 65536) :
    getValue 14 (UInt8.ofNat ((v - 269) / 256)) (UInt8.ofNat ((v - 269) % 256)) = UInt16.ofNat v := by
  have h0 : ¬ ((14 : UInt8) < 13) := by decide
  have h1 : ((14 : UInt8) == 13) = false := by decide
  simp only [getValue, h0, h1, if_false, beq_self_eq_true, if_true, Bool.false_eq_true]
  apply UInt16.toNat_inj.1
  have := ntoh_toNat (UInt8.ofNat ((v - 269) / 256)) (UInt8.ofNat ((v - 269) % 256))
  unfold ntoh at this
  rw [UInt16.toNat_add, this]
  simp only [UInt8.toNat_ofNat', UInt16.toNat_ofNat']
  have : (269 : UInt16).toNat = 269 := rfl
  rw [this]; omega

theorem nibble_le (v : Nat) : nibble v ≤ 14 := by unfold nibble; split <;> (try split) <;> omega

/-- First byte of an option header. -/
def fb (delta len : Nat) : UInt8 := UInt8.ofNat (16 * nibble delta + nibble len)

theorem fb_delta (delta len : Nat) : (fb delta len >>> 4).toNat = nibble delta := by
  have h1 := nibble_le delta; have h2 := nibble_le len
  simp [fb, Nat.shiftRight_eq_div_pow]; omega

theorem fb_len (delta len : Nat) : (fb delta len &&& 0x0F).toNat = nibble len := by
  have h1 := nibble_le delta; have h2 := nibble_le len
  simp [fb, and_15]; omega

theorem fb_ne (delta len : Nat) : fb delta len ≠ 0xFF := by
  intro h
  have h1 := nibble_le delta
  have := fb_delta delta len
  rw [h] at this
  have : ((0xFF : UInt8) >>> 4).toNat = 15 := by decide
  omega

theorem optHeader_eq (delta len : Nat) : optHeader delta len = fb delta len :: (extBytes delta ++ extBytes len) := rfl

/-- Reading the extended bytes of a delta. -/
theorem delta_phase (w b1 b2 b3 : UInt8) (h : Holder) (delta : Nat) (bs : List UInt8) (h13 : 13 ≤ delta)
    (hlt : delta < 65536) (hw : (w >>> 4).toNat = nibble delta) :
    ∃ c1 c2 p, Q ⟨.optionDelta, w, b1, b2, b3, 1⟩ h (extBytes delta ++ bs)
      ⟨.optionDeltaDone, w, c1, c2, b3, p⟩ { h with number := h.number + UInt16.ofNat delta } bs := by
  by_cases h8 : delta < 269
  · have hn : nibble delta = 13 := by simp [nibble, h8]; omega
    have hw' : w >>> 4 = 13 := UInt8.toNat_inj.1 (hw.trans hn)
    have hx : extBytes delta = [UInt8.ofNat (delta - 13)] := by simp [extBytes, h8]; omega
    rw [hx]
    refine ⟨UInt8.ofNat (delta - 13), b2, 1, ?_⟩
    have hs : OptDec.step ⟨.optionDelta, w, b1, b2, b3, 1⟩ (UInt8.ofNat (delta - 13)) =
        .ok (⟨.optionDeltaDone, w, UInt8.ofNat (delta - 13), b2, b3, 1⟩, true) := by
      simp [OptDec.step, write, processOptionSize, rawDelta, hw']
    have := Q.step (h := h) (bs := bs) hs rfl
    simp only [upd, OptDec.delta, rawDelta, hw'] at this
    rw [getValue_ext8 _ _ h13 h8] at this
    exact this
  · have hn : nibble delta = 14 := by simp [nibble, h8]; omega
    have hw' : w >>> 4 = 14 := UInt8.toNat_inj.1 (hw.trans hn)
    have hx : extBytes delta = [UInt8.ofNat ((delta - 269) / 256), UInt8.ofNat ((delta - 269) % 256)] := by
      simp [extBytes, h8]; omega
    rw [hx]
    refine ⟨UInt8.ofNat ((delta - 269) / 256), UInt8.ofNat ((delta - 269) % 256), 2, ?_⟩
    have hs1 : OptDec.step ⟨.optionDelta, w, b1, b2, b3, 1⟩ (UInt8.ofNat ((delta - 269) / 256)) =
        .ok (⟨.optionDelta, w, UInt8.ofNat ((delta - 269) / 256), b2, b3, 2⟩, true) := by
      simp [OptDec.step, write, processOptionSize, rawDelta, hw']
    have hs2 : OptDec.step ⟨.optionDelta, w, UInt8.ofNat ((delta - 269) / 256), b2, b3, 2⟩
          (UInt8.ofNat ((delta - 269) % 256)) =
        .ok (⟨.optionDeltaDone, w, UInt8.ofNat ((delta - 269) / 256), UInt8.ofNat ((delta - 269) % 256), b3, 2⟩,
          true) := by
      simp [OptDec.step, write, processOptionSize, rawDelta, hw']
    have q1 := Q.step (h := h) (bs := UInt8.ofNat ((delta - 269) % 256) :: bs) hs1 rfl
    have q2 := Q.step (h := h) (bs := bs) hs2 rfl
    simp only [upd, OptDec.delta, rawDelta, hw'] at q1 q2
    rw [getValue_ext16 _ (by omega) hlt] at q2
    exact q1.trans q2

/-- Reading the extended bytes of a length. -/
theorem len_phase (w b1 b2 b3 : UInt8) (h : Holder) (len : Nat) (bs : List UInt8) (h13 : 13 ≤ len)
    (hlt : len < 65536) (hw : (w &&& 0x0F).toNat = nibble len) :
    ∃ c1 c2 p, Q ⟨.optionLength, w, b1, b2, b3, 1⟩ h (extBytes len ++ bs)
      ⟨.optionLengthDone, w, c1, c2, b3, p⟩ { h with length := UInt16.ofNat len } bs ∧
      getValue (w &&& 0x0F) c1 c2 = UInt16.ofNat len := by
  by_cases h8 : len < 269
  · have hn : nibble len = 13 := by simp [nibble, h8]; omega
    have hw' : w &&& 0x0F = 13 := UInt8.toNat_inj.1 (hw.trans hn)
    have hx : extBytes len = [UInt8.ofNat (len - 13)] := by simp [extBytes, h8]; omega
    rw [hx]
    refine ⟨UInt8.ofNat (len - 13), b2, 1, ?_, ?_⟩
    · have hs : OptDec.step ⟨.optionLength, w, b1, b2, b3, 1⟩ (UInt8.ofNat (len - 13)) =
          .ok (⟨.optionLengthDone, w, UInt8.ofNat (len - 13), b2, b3, 1⟩, true) := by
        simp [OptDec.step, write, processOptionSize, rawLength, hw']
      have := Q.step (h := h) (bs := bs) hs rfl
      simp only [upd, OptDec.length, rawLength, hw'] at this
      rw [getValue_ext8 _ _ h13 h8] at this
      exact this
    · rw [hw', getValue_ext8 _ _ h13 h8]
  · have hn : nibble len = 14 := by simp [nibble, h8]; omega
    have hw' : w &&& 0x0F = 14 := UInt8.toNat_inj.1 (hw.trans hn)
    have hx : extBytes len = [UInt8.ofNat ((len - 269) / 256), UInt8.ofNat ((len - 269) % 256)] := by
      simp [extBytes, h8]; omega
    rw [hx]
    refine ⟨UInt8.ofNat ((len - 269) / 256), UInt8.ofNat ((len - 269) % 256), 2, ?_, ?_⟩
    · have hs1 : OptDec.step ⟨.optionLength, w, b1, b2, b3, 1⟩ (UInt8.ofNat ((len - 269) / 256)) =
          .ok (⟨.optionLength, w, UInt8.ofNat ((len - 269) / 256), b2, b3, 2⟩, true) := by
        simp [OptDec.step, write, processOptionSize, rawLength, hw']
      have hs2 : OptDec.step ⟨.optionLength, w, UInt8.ofNat ((len - 269) / 256), b2, b3, 2⟩
            (UInt8.ofNat ((len - 269) % 256)) =
          .ok (⟨.optionLengthDone, w, UInt8.ofNat ((len - 269) / 256), UInt8.ofNat ((len - 269) % 256), b3, 2⟩,
            true) := by
        simp [OptDec.step, write, processOptionSize, rawLength, hw']
      have q1 := Q.step (h := h) (bs := UInt8.ofNat ((len - 269) % 256) :: bs) hs1 rfl
      have q2 := Q.step (h := h) (bs := bs) hs2 rfl
      simp only [upd, OptDec.length, rawLength, hw'] at q1 q2
      rw [getValue_ext16 _ (by omega) hlt] at q2
      exact q1.trans q2
    · rw [hw', getValue_ext16 _ (by omega) hlt]

/-- The header of an option has been read completely: the next step starts the value. -/
def HEnd (o : OptDec) (len : Nat) : Prop :=
  (∀ b, o.step b = .ok ({ o with st := .valueStart }, false)) ∧ o.length = UInt16.ofNat len ∧
  o.st ≠ .optionValueDone ∧ o.st ≠ .payload ∧ o.st ≠ .valueStart ∧ OInv o

theorem ge13 {x : UInt8} {v : Nat} (h : x.toNat = nibble v) (hv : 13 ≤ v) : 13 ≤ x := by
  rw [UInt8.le_iff_toNat_le, h]; simp [nibble]; split <;> (try split) <;> omega

theorem not_ge13 {x : UInt8} {v : Nat} (h : x.toNat = nibble v) (hv : v < 13) : ¬ (13 ≤ x) := by
  rw [UInt8.le_iff_toNat_le, h]; simp [nibble, hv]

theorem extBytes_ne {v : Nat} (h : 13 ≤ v) : ∃ e es, extBytes v = e :: es := by
  unfold extBytes; rw [if_neg (by omega)]; split <;> simp

/-- Reading a complete option header, from the state before its first byte. -/
theorem header_phase (o : OptDec) (h : Holder) (delta len : Nat) (bs : List UInt8) (hs : o.st = .firstByte)
    (hd : delta < 65536) (hl : len < 65536) :
    ∃ o', Q o h (optHeader delta len ++ bs) o' ⟨h.number + UInt16.ofNat delta, UInt16.ofNat len⟩ bs ∧
      HEnd o' len := by
  obtain ⟨st, b0, b1, b2, b3, pos⟩ := o
  simp only at hs; subst hs
  rw [optHeader_eq]
  have hne := fb_ne delta len
  have hfd := fb_delta delta len
  have hfl := fb_len delta len
  generalize hw : fb delta len = w at hne hfd hfl
  -- first byte
  have hs1 : OptDec.step ⟨.firstByte, b0, b1, b2, b3, pos⟩ w =
      .ok (⟨.firstByteDone, w, b1, b2, b3, 1⟩, false) := by simp [OptDec.step, hne]
  have q1 : Q ⟨.firstByte, b0, b1, b2, b3, pos⟩ h (w :: (extBytes delta ++ extBytes len) ++ bs)
      ⟨.firstByteDone, w, b1, b2, b3, 1⟩ h (w :: (extBytes delta ++ extBytes len) ++ bs) :=
    Q.step (h := h) (bs := (extBytes delta ++ extBytes len) ++ bs) hs1 rfl
  by_cases hdl : delta < 13
  · have hx : extBytes delta = [] := by simp [extBytes, hdl]
    have hng := not_ge13 hfd hdl
    have hnd : nibble delta = delta := by simp [nibble, hdl]
    by_cases hll : len < 13
    · have hxl : extBytes len = [] := by simp [extBytes, hll]
      have hngl := not_ge13 hfl hll
      have hnl : nibble len = len := by simp [nibble, hll]
      have hs2 : OptDec.step ⟨.firstByteDone, w, b1, b2, b3, 1⟩ w =
          .ok (⟨.optionDeltaAndLengthDone, w, b1, b2, b3, 1⟩, true) := by
        simp [OptDec.step, rawDelta, rawLength, hng, hngl]
      have q2 := Q.step (h := h) (bs := (extBytes delta ++ extBytes len) ++ bs) hs2 rfl
      simp only [upd, OptDec.delta, OptDec.length, rawDelta, rawLength] at q2
      rw [getValue_lit _ _ _ delta hdl (hfd.trans hnd), getValue_lit _ _ _ len hll (hfl.trans hnl)] at q2
      refine ⟨_, q1.trans (by simpa [hx, hxl] using q2), ?_, ?_, by simp, by simp, by simp, by simp [OInv]⟩
      · intro b; simp [OptDec.step]
      · simp only [OptDec.length, rawLength]; exact getValue_lit _ _ _ len hll (hfl.trans hnl)
    · have hll : 13 ≤ len := by omega
      have hgl := ge13 hfl hll
      obtain ⟨e, es, hxl⟩ := extBytes_ne hll
      have hs2 : OptDec.step ⟨.firstByteDone, w, b1, b2, b3, 1⟩ w =
          .ok (⟨.optionDeltaDone, w, b1, b2, b3, 1⟩, true) := by
        simp [OptDec.step, rawDelta, rawLength, hng, hgl]
      have q2 := Q.step (h := h) (bs := (extBytes delta ++ extBytes len) ++ bs) hs2 rfl
      simp only [upd, OptDec.delta, rawDelta] at q2
      rw [getValue_lit _ _ _ delta hdl (hfd.trans hnd)] at q2
      have hs3 : OptDec.step ⟨.optionDeltaDone, w, b1, b2, b3, 1⟩ e =
          .ok (⟨.optionLength, w, b1, b2, b3, 1⟩, false) := by
        simp [OptDec.step, rawLength, hgl]
      have q3 := Q.step (h := { h with number := h.number + UInt16.ofNat delta }) (bs := es ++ bs) hs3 rfl
      obtain ⟨c1, c2, p, q4, hv⟩ := len_phase w b1 b2 b3 { h with number := h.number + UInt16.ofNat delta } len bs
        hll hl hfl
      refine ⟨_, q1.trans (Q.trans (by simpa [hx] using q2) (Q.trans (by simpa [hxl, upd] using q3)
        (by simpa [hxl] using q4))), ?_, ?_, by simp, by simp, by simp, ?_⟩
      · intro b; simp [OptDec.step, rawLength, hgl]
      · simp only [OptDec.length, rawLength]; exact hv
      · simp [OInv, rawLength, hgl]
  · have hdl : 13 ≤ delta := by omega
    have hgd := ge13 hfd hdl
    obtain ⟨e, es, hxd⟩ := extBytes_ne hdl
    by_cases hll : len < 13
    · have hxl : extBytes len = [] := by simp [extBytes, hll]
      have hngl := not_ge13 hfl hll
      have hnl : nibble len = len := by simp [nibble, hll]
      have hs2 : OptDec.step ⟨.firstByteDone, w, b1, b2, b3, 1⟩ w =
          .ok (⟨.optionLengthDone, w, b1, b2, b3, 1⟩, true) := by
        simp [OptDec.step, rawDelta, rawLength, hgd, hngl]
      have q2 := Q.step (h := h) (bs := (extBytes delta ++ extBytes len) ++ bs) hs2 rfl
      simp only [upd, OptDec.length, rawLength] at q2
      rw [getValue_lit _ _ _ len hll (hfl.trans hnl)] at q2
      have hs3 : OptDec.step ⟨.optionLengthDone, w, b1, b2, b3, 1⟩ e =
          .ok (⟨.optionDelta, w, b1, b2, b3, 1⟩, false) := by
        simp [OptDec.step, rawLength, hngl]
      have q3 := Q.step (h := { h with length := UInt16.ofNat len }) (bs := es ++ bs) hs3 rfl
      obtain ⟨c1, c2, p, q4⟩ := delta_phase w b1 b2 b3 { h with length := UInt16.ofNat len } delta bs hdl hd hfd
      refine ⟨_, q1.trans (Q.trans (by simpa [hxl] using q2) (Q.trans (by simpa [hxd, upd] using q3)
        (by simpa [hxd] using q4))), ?_, ?_, by simp, by simp, by simp, by simp [OInv]⟩
      · intro b; simp [OptDec.step, rawLength, hngl]
      · simp only [OptDec.length, rawLength]; exact getValue_lit _ _ _ len hll (hfl.trans hnl)
    · have hll : 13 ≤ len := by omega
      have hgl := ge13 hfl hll
      obtain ⟨e', es', hxl⟩ := extBytes_ne hll
      have hs2 : OptDec.step ⟨.firstByteDone, w, b1, b2, b3, 1⟩ w =
          .ok (⟨.optionDelta, w, b1, b2, b3, 1⟩, true) := by
        simp [OptDec.step, rawDelta, rawLength, hgd, hgl]
      have q2 := Q.step (h := h) (bs := (extBytes delta ++ extBytes len) ++ bs) hs2 rfl
      obtain ⟨c1, c2, p, q3⟩ := delta_phase w b1 b2 b3 h delta (extBytes len ++ bs) hdl hd hfd
      have hs3 : OptDec.step ⟨.optionDeltaDone, w, c1, c2, b3, p⟩ e' =
          .ok (⟨.optionLength, w, c1, c2, b3, 1⟩, false) := by
        simp [OptDec.step, rawLength, hgl]
      have q4 := Q.step (h := { h with number := h.number + UInt16.ofNat delta }) (bs := es' ++ bs) hs3 rfl
      obtain ⟨f1, f2, p2, q5, hv⟩ := len_phase w c1 c2 b3 { h with number := h.number + UInt16.ofNat delta } len bs
        hll hl hfl
      refine ⟨_, q1.trans (Q.trans (by simpa [upd] using q2) (q3.trans (Q.trans (by simpa [hxl, upd] using q4)
        (by simpa [hxl] using q5)))), ?_, ?_, by simp, by simp, by simp, ?_⟩
      · intro b; simp [OptDec.step, rawLength, hgl]
      · simp only [OptDec.length, rawLength]; exact hv
      · simp [OInv, rawLength, hgl]

theorem loop_mono {f o h r n x} (e : loop f o h r n = .ok x) (g : Nat) : loop (f + g) o h r n = .ok x := by
  induction f generalizing o h r n with
  | zero => simp [loop] at e
  | succ f ih =>
    rw [show f + 1 + g = (f + g) + 1 by omega]
    cases r with
    | nil => simpa [loop] using e
    | cons b bs =>
      cases hs : o.step b with
      | error y => simp [loop, hs] at e
      | ok p =>
        obtain ⟨o', c⟩ := p
        rw [loop_cons _ _ _ _ _ _ _ _ hs] at e ⊢
        split at e
        · rename_i hp; rw [if_pos hp]; exact e
        · rename_i hp; rw [if_neg hp]; exact ih e

theorem setValueLength_get (o : OptDec) (v : UInt16) : (o.setValueLength v).valueLength = v := by
  simp only [setValueLength, valueLength]; exact ntoh_hton v

/-- Consuming the value bytes of an option. -/
theorem value_phase (v : List UInt8) (o : OptDec) (last : Bool) (d : Dec) (r : List UInt8)
    (hds : d.st = .options) (hdo : d.opt = o) (hs : o.st = .optionValue) (hv : v ≠ [])
    (hl : v.length < 65536) (hvl : o.valueLength = UInt16.ofNat v.length) :
    ∃ o', o'.st = .optionValueDone ∧ feed last d (v ++ r) = feed last { d with opt := o' } r := by
  induction v generalizing o d with
  | nil => exact absurd rfl hv
  | cons b bs ih =>
    subst hdo
    have hsub : d.opt.valueLength - 1 = UInt16.ofNat bs.length := by
      rw [hvl]; apply UInt16.toNat_inj.1
      simp only [List.length_cons] at hl ⊢
      rw [UInt16.toNat_sub]; simp; omega
    by_cases hbs : bs = []
    · subst hbs
      have he : d.opt.step b = .ok ({ d.opt.setValueLength (d.opt.valueLength - 1) with st := .optionValueDone }, true) := by
        simp only [OptDec.step, hs, setValueLength_get, hsub]; simp
      refine ⟨{ d.opt.setValueLength (d.opt.valueLength - 1) with st := .optionValueDone }, rfl, ?_⟩
      have hm : micro d b = ({ d with opt := { d.opt.setValueLength (d.opt.valueLength - 1) with st := .optionValueDone } }, true) := by
        simp [micro, hds, pureStep_eq he, upd]
      rw [List.cons_append, feed_cons last d b _ (by simp [Going, hds]) _ _ hm]
      simp [note, notify, hds]
    · have hne : UInt16.ofNat bs.length ≠ 0 := by
        intro h
        have := congrArg UInt16.toNat h
        simp only [List.length_cons] at hl
        simp [Nat.mod_eq_of_lt (show bs.length < 65536 by omega)] at this
        exact hbs this
      have he : d.opt.step b = .ok (d.opt.setValueLength (d.opt.valueLength - 1), true) := by
        simp only [OptDec.step, hs, setValueLength_get, hsub]; simp [hne]
      have hst : (d.opt.setValueLength (d.opt.valueLength - 1)).st = .optionValue := hs
      have hm : micro d b = ({ d with opt := d.opt.setValueLength (d.opt.valueLength - 1) }, true) := by
        simp [micro, hds, pureStep_eq he, upd, hst]
      obtain ⟨o', h1, h2⟩ := ih _ { d with opt := d.opt.setValueLength (d.opt.valueLength - 1) } hds rfl hst hbs
        (by simp only [List.length_cons] at hl; omega) (by rw [setValueLength_get, hsub])
      refine ⟨o', h1, ?_⟩
      rw [List.cons_append, feed_cons last d b _ (by simp [Going, hds]) _ _ hm]
      simp only [if_true]
      rw [h2]
      simp [note, notify, hds, hst]

/-- Value of an option whose header has been read, when something follows. -/
theorem hend_phase (last : Bool) (d : Dec) (v t : List UInt8) (hds : d.st = .options) (hh : HEnd d.opt v.length)
    (hl : v.length < 65536) (hlen : d.holder.length = UInt16.ofNat v.length) (hne : v ++ t ≠ []) :
    ∃ o', o'.st = .optionValueDone ∧
      feed last d (v ++ t) =
        (.option d.holder.number v true :: (feed last { d with opt := o' } t).1,
          (feed last { d with opt := o' } t).2) := by
  obtain ⟨b, bs, hb⟩ := List.exists_cons_of_ne_nil hne
  obtain ⟨h1, h2, -⟩ := hh
  -- into `valueStart`: the event
  have hm : micro d b = ({ d with opt := { d.opt with st := .valueStart } }, false) := by
    simp [micro, hds, pureStep_eq (h1 b), upd]
  have hno : note { d with opt := { d.opt with st := .valueStart } } (v ++ t) last =
      [.option d.holder.number v true] := by
    have hlen2 : ({ d.opt with st := .valueStart } : OptDec).length = UInt16.ofNat v.length := h2
    have hvt : (UInt16.ofNat v.length).toNat = v.length := by simp; omega
    simp only [note, notify, hds, beq_self_eq_true, if_true, hlen]
    by_cases hv : v = []
    · subst hv; simp
    · have : UInt16.ofNat v.length > 0 := by
        rw [gt_iff_lt, UInt16.lt_iff_toNat_lt, hvt]
        exact List.length_pos_iff.mpr hv
      rw [if_pos this]
      simp [optionValue, hlen2, hvt, Ctx.remainder]
  -- out of `valueStart`
  have hvs : OptDec.step { d.opt with st := .valueStart } b =
      .ok ({ (OptDec.setValueLength { d.opt with st := .valueStart } (UInt16.ofNat v.length)) with
              st := if UInt16.ofNat v.length == 0 then .optionValueDone else .optionValue }, false) := by
    have hlen2 : ({ d.opt with st := .valueStart } : OptDec).length = UInt16.ofNat v.length := h2
    simp only [OptDec.step, hlen2, setValueLength_get]
  rw [hb, feed_cons last d b bs (by simp [Going, hds]) _ _ hm]
  simp only [Bool.false_eq_true, if_false, ← hb, hno]
  by_cases hv : v = []
  · subst hv
    simp only [List.nil_append] at hb
    have hm2 : micro { d with opt := { d.opt with st := .valueStart } } b =
        ({ d with opt := { OptDec.setValueLength { d.opt with st := .valueStart } 0 with st := .optionValueDone } },
          false) := by
      simp at hvs
      simp [micro, hds, pureStep_eq hvs, upd]
    refine ⟨{ OptDec.setValueLength { d.opt with st := .valueStart } 0 with st := .optionValueDone }, rfl, ?_⟩
    simp only [List.nil_append]
    rw [hb, feed_cons last _ b bs (by simp [Going, hds]) _ _ hm2]
    simp [note, notify, hds]
  · have hz : (UInt16.ofNat v.length == 0) = false := by
      rw [beq_eq_false_iff_ne]; intro h
      have := congrArg UInt16.toNat h
      simp [Nat.mod_eq_of_lt hl] at this; exact hv this
    rw [hz] at hvs
    simp only [Bool.false_eq_true, if_false] at hvs
    have hm2 : micro { d with opt := { d.opt with st := .valueStart } } b =
        ({ d with opt := { OptDec.setValueLength { d.opt with st := .valueStart } (UInt16.ofNat v.length) with st := .optionValue } },
          false) := by
      simp [micro, hds, pureStep_eq hvs, upd]
    obtain ⟨o', g1, g2⟩ := value_phase v _ last
      { d with opt := { OptDec.setValueLength { d.opt with st := .valueStart } (UInt16.ofNat v.length) with st := .optionValue } }
      t hds rfl rfl hv hl (by
        have := setValueLength_get { d.opt with st := .valueStart } (UInt16.ofNat v.length)
        exact this)
    refine ⟨o', g1, ?_⟩
    rw [hb, feed_cons last _ b bs (by simp [Going, hds]) _ _ hm2]
    simp only [Bool.false_eq_true, if_false, ← hb, g2]
    simp [note, notify, hds]

/-- Ready for the first byte of an option. -/
def Ready (o : OptDec) : Prop := o.st = .firstByte ∨ o.st = .optionValueDone

/-- Reading a complete option header from a ready state. -/
theorem header_phase' (o : OptDec) (h : Holder) (delta len : Nat) (bs : List UInt8) (hs : Ready o)
    (hd : delta < 65536) (hl : len < 65536) :
    ∃ o', Q o h (optHeader delta len ++ bs) o' ⟨h.number + UInt16.ofNat delta, UInt16.ofNat len⟩ bs ∧
      HEnd o' len := by
  rcases hs with hs | hs
  · exact header_phase o h delta len bs hs hd hl
  · obtain ⟨o', q, he⟩ := header_phase { o with st := .firstByte } h delta len bs rfl hd hl
    have h1 : o.step (fb delta len) = .ok ({ o with st := .firstByte }, false) := by simp [OptDec.step, hs]
    have q1 := Q.step (h := h) (bs := extBytes delta ++ extBytes len ++ bs) h1 rfl
    exact ⟨o', Q.trans q1 q, he⟩

/-- A complete option followed by `t`. -/
theorem option_feed (last : Bool) (d : Dec) (delta : Nat) (v t : List UInt8) (hds : d.st = .options)
    (hr : Ready d.opt) (hd : delta < 65536) (hl : v.length < 65536) (hne : v ++ t ≠ []) :
    ∃ o', o'.st = .optionValueDone ∧
      feed last d (optHeader delta v.length ++ v ++ t) =
        (.option (d.holder.number + UInt16.ofNat delta) v true ::
          (feed last { d with opt := o', holder := ⟨d.holder.number + UInt16.ofNat delta, UInt16.ofNat v.length⟩ } t).1,
         (feed last { d with opt := o', holder := ⟨d.holder.number + UInt16.ofNat delta, UInt16.ofNat v.length⟩ } t).2) := by
  obtain ⟨o1, q, he⟩ := header_phase' d.opt d.holder delta v.length (v ++ t) hr hd hl
  obtain ⟨o', h1, h2⟩ := hend_phase last
    { d with opt := o1, holder := ⟨d.holder.number + UInt16.ofNat delta, UInt16.ofNat v.length⟩ } v t hds he hl rfl hne
  refine ⟨o', h1, ?_⟩
  rw [List.append_assoc, q.1 d last hds rfl rfl, h2]

/-- A final option with an empty value: only its header has been read. -/
theorem option_feed_empty (last : Bool) (d : Dec) (delta : Nat) (hds : d.st = .options) (hr : Ready d.opt)
    (hd : delta < 65536) :
    ∃ o', HEnd o' 0 ∧
      feed last d (optHeader delta 0) =
        ([], { d with opt := o', holder := ⟨d.holder.number + UInt16.ofNat delta, 0⟩ }, []) := by
  obtain ⟨o1, q, he⟩ := header_phase' d.opt d.holder delta 0 [] hr hd (by omega)
  refine ⟨o1, he, ?_⟩
  have := q.1 d last hds rfl rfl
  rw [List.append_nil] at this
  rw [this, feed_nil]; rfl

/-- Events of a list of options. -/
def optEvents (os : List Opt) : List Event := os.map fun o => .option (UInt16.ofNat o.number) o.value true

/-- All options, followed by something. -/
theorem options_feed (last : Bool) (os : List Opt) (prev : Nat) (d : Dec) (t : List UInt8)
    (hds : d.st = .options) (hr : Ready d.opt) (hn : d.holder.number = UInt16.ofNat prev)
    (hok : OptsOk prev os) (ht : t ≠ []) :
    ∃ o' h', Ready o' ∧
      feed last d (encOpts prev os ++ t) =
        (optEvents os ++ (feed last { d with opt := o', holder := h' } t).1,
          (feed last { d with opt := o', holder := h' } t).2) := by
  induction os generalizing prev d with
  | nil => exact ⟨d.opt, d.holder, hr, by simp [encOpts, optEvents]⟩
  | cons o os ih =>
    obtain ⟨h1, h2, h3, h4⟩ := hok
    obtain ⟨o1, g1, g2⟩ := option_feed last d (o.number - prev) o.value (encOpts o.number os ++ t) hds hr
      (by omega) h3 (by simp [ht])
    have hnum : d.holder.number + UInt16.ofNat (o.number - prev) = UInt16.ofNat o.number := by
      rw [hn]; apply UInt16.toNat_inj.1; simp [UInt16.toNat_add]; omega
    obtain ⟨o2, hh, g3, g4⟩ := ih o.number
      { d with opt := o1, holder := ⟨d.holder.number + UInt16.ofNat (o.number - prev), UInt16.ofNat o.value.length⟩ }
      hds (Or.inr g1) hnum h4
    refine ⟨o2, hh, g3, ?_⟩
    simp only [encOpts]
    rw [List.append_assoc (_ ++ _), g2, g4, hnum]
    simp [optEvents]

/-- All options, at the very end of the input. -/
theorem options_feed_end (last : Bool) (os : List Opt) (prev : Nat) (d : Dec)
    (hds : d.st = .options) (hr : Ready d.opt) (hn : d.holder.number = UInt16.ofNat prev)
    (hok : OptsOk prev os) (hos : os ≠ []) :
    ∃ o' h' es, feed last d (encOpts prev os) = (es, { d with opt := o', holder := h' }, []) ∧
      ((es = optEvents os ∧ o'.st = .optionValueDone) ∨
       (∃ n, es ++ [.option n [] true] = optEvents os ∧ HEnd o' 0 ∧ h' = ⟨n, 0⟩)) := by
  induction os generalizing prev d with
  | nil => exact absurd rfl hos
  | cons o os ih =>
    obtain ⟨h1, h2, h3, h4⟩ := hok
    have hnum : d.holder.number + UInt16.ofNat (o.number - prev) = UInt16.ofNat o.number := by
      rw [hn]; apply UInt16.toNat_inj.1; simp [UInt16.toNat_add]; omega
    by_cases hne : o.value ++ encOpts o.number os = []
    · simp only [List.append_eq_nil_iff] at hne
      have hos' : os = [] := by
        cases os with
        | nil => rfl
        | cons _ _ => simp [encOpts, optHeader] at hne
      subst hos'
      obtain ⟨o1, g1, g2⟩ := option_feed_empty last d (o.number - prev) hds hr (by omega)
      refine ⟨o1, _, [], ?_, Or.inr ⟨UInt16.ofNat o.number, ?_, g1, rfl⟩⟩
      · simp only [encOpts, hne.1, List.length_nil, List.append_nil]
        rw [g2, hnum]
      · simp [optEvents, hne.1]
    · obtain ⟨o1, g1, g2⟩ := option_feed last d (o.number - prev) o.value (encOpts o.number os) hds hr
        (by omega) h3 hne
      simp only [encOpts]
      rw [g2, hnum]
      by_cases hos' : os = []
      · subst hos'
        simp only [encOpts, feed_nil]
        exact ⟨o1, _, _, rfl, Or.inl ⟨by simp [optEvents], g1⟩⟩
      · obtain ⟨o2, hh, es, g3, g4⟩ := ih o.number
          { d with opt := o1, holder := ⟨UInt16.ofNat o.number, UInt16.ofNat o.value.length⟩ }
          hds (Or.inr g1) rfl h4 hos'
        rw [g3]
        refine ⟨o2, hh, _, rfl, ?_⟩
        rcases g4 with ⟨ge, gs⟩ | ⟨n, ge, gs, gh⟩
        · left; exact ⟨by simp [optEvents, ge], gs⟩
        · right; exact ⟨n, by simp only [List.cons_append, ge]; simp [optEvents], gs, gh⟩

end Verif.Proofs
