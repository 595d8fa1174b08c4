import Verif.Proofs.MessageFeed

/-! # Stepping past the end of the last buffer -/
namespace Verif.Proofs
open Verif.Model Header Dec OptDec

/-- Bound on the steps the option decoder still makes when fed with zero bytes at the end of input. -/
def em (o : OptDec) : Nat :=
  match o.st with
  | .optionValue => if o.valueLength.toNat = 0 then 65536 else o.valueLength.toNat
  | .valueStart => 65537
  | .optionDeltaAndLengthDone => 65538
  | .optionLengthDone => if 13 ≤ o.rawLength then 65538 else 65544
  | .optionLength => if o.pos = 1 then 65540 else 65539
  | .optionDeltaDone => 65541
  | .optionDelta => if o.pos = 1 then 65543 else 65542
  | .firstByteDone => 65545
  | .firstByte => 65546
  | .optionValueDone => 65547
  | _ => 0

theorem em_le (o : OptDec) : em o ≤ 65547 := by
  unfold em
  have := u16_lt o.valueLength
  split <;> (try split) <;> omega

theorem eof_step (o : OptDec) (h : OInv o) (hp : o.st ≠ .payload) :
    ∃ o' c, o.step 0 = .ok (o', c) ∧ OInv o' ∧ o'.st ≠ .payload ∧
      (o'.st = .optionValueDone ∨ em o' < em o) := by
  obtain ⟨o', c, e, hi, -⟩ := step_ok o 0 h
  refine ⟨o', c, e, hi, ?_⟩
  unfold OInv at h
  cases hs : o.st <;> simp only [hs] at h <;> simp only [OptDec.step, hs] at e
  case firstByte => simp at e; rw [← e.1]; simp [em, hs]
  case firstByteDone =>
    cases e
    by_cases h1 : o.rawDelta ≥ 13 <;> by_cases h2 : o.rawLength ≥ 13 <;>
      simp only [h1, h2, if_true, if_false] <;> simp [em, hs] <;> (try split) <;> omega
  case optionDelta =>
    obtain ⟨h1, h2 | ⟨h2, h3⟩⟩ := h
    · simp only [write, h2] at e
      simp only [processOptionSize] at e
      by_cases hd : o.rawDelta = 14
      · simp [hd] at e; rw [← e.1]; simp [em, hs, h2]
      · simp [hd] at e; rw [← e.1]; simp [em, hs, h2]
    · simp only [write, h3] at e
      simp [processOptionSize, h2] at e; rw [← e.1]; simp [em, hs, h3]
  case optionDeltaDone =>
    split at e <;> cases e <;> simp [em, hs]
  case optionLength =>
    obtain ⟨h1, h2 | ⟨h2, h3⟩⟩ := h
    · simp only [write, h2] at e
      simp only [processOptionSize] at e
      by_cases hd : o.rawLength = 14
      · simp [hd] at e; rw [← e.1]; simp [em, hs, h2]
      · simp [hd] at e; rw [← e.1]
        have h1' : 13 ≤ o.b0 &&& 15 := h1
        simp [em, hs, h2, rawLength, h1']
    · simp only [write, h3] at e
      have h1' : 13 ≤ o.b0 &&& 15 := h1
      simp [processOptionSize, h2] at e; rw [← e.1]; simp [em, hs, h3, rawLength, h1']
  case optionLengthDone =>
    split at e
    · rename_i hr
      cases e
      simp [em, hs, hr]
    · rename_i hr
      cases e
      have hr' : ¬ (13 ≤ o.rawLength) := hr
      simp [em, hs, hr']
      split <;> omega
  case optionDeltaAndLengthDone => cases e; simp [em, hs]
  case valueStart =>
    cases e
    have := u16_lt o.length
    refine ⟨by dsimp only; split <;> simp, ?_⟩
    rw [setValueLength_get]
    by_cases hz : o.length == 0
    · left; simp [hz]
    · right
      simp only [hz, Bool.false_eq_true, if_false, em, hs]
      have : ({ o.setValueLength o.length with st := .optionValue } : OptDec).valueLength = o.length :=
        setValueLength_get o o.length
      rw [this]; split <;> omega
  case optionValue =>
    rw [setValueLength_get] at e
    by_cases hz : o.valueLength - 1 == 0
    · rw [if_pos hz] at e; cases e; simp
    · rw [if_neg hz] at e; cases e
      refine ⟨by simp [setValueLength, hs], Or.inr ?_⟩
      have hst : (o.setValueLength (o.valueLength - 1)).st = .optionValue := hs
      have hne : (o.valueLength - 1).toNat ≠ 0 := by
        intro h; apply hz; rw [beq_iff_eq]; exact UInt16.toNat_inj.1 h
      have hsub : (o.valueLength - 1).toNat = if o.valueLength.toNat = 0 then 65535 else o.valueLength.toNat - 1 := by
        have := u16_lt o.valueLength
        rw [UInt16.toNat_sub]; simp
        split <;> omega
      simp only [em, hst, hs, setValueLength_get]
      rw [if_neg hne, hsub]
      split <;> omega
  case optionValueDone => cases e; simp [em, hs]
  case payload => exact absurd hs hp

/-- A decoder in the options state at the end of the last buffer completes. -/
theorem finish_options {d : Dec} {c : Ctx} (hc : AtEof c) (hs : d.st = .options) (hi : OInv d.opt)
    (hp : d.opt.st ≠ .payload) : ∃ k e, k ≤ em d.opt + 2 ∧ Finish k d c e := by
  generalize hm : em d.opt = m
  induction m using Nat.strongRecOn generalizing d with
  | ind m ih =>
    obtain ⟨o', cc, e, hi', hp', hcase⟩ := eof_step d.opt hi hp
    by_cases hov : o'.st = .optionValueDone
    · have h1 : d.stepNotify c = .ok ({ d with opt := o', st := .optionsDone }, c, [.optionsCompleted]) := by
        simp only [stepNotify, Dec.step, hs, OptDec.process, hc.rem, hc.1, List.length_nil, beq_self_eq_true,
          Bool.and_true, if_true, e, Nat.add_zero]
        simp [notify, hc.2, hov, hc.eta]
      exact ⟨2, _, by omega, Finish.cons h1 (by simp) (finish_optionsDone hc rfl (by simp [hov]))⟩
    · have hlt : em o' < m := by
        rcases hcase with h | h
        · exact absurd h hov
        · omega
      have h1 : ∃ ev, d.stepNotify c = .ok ({ d with opt := o' }, c, ev) := by
        have hst : d.step c = .ok ({ d with opt := o' }, c) := by
          simp only [Dec.step, hs, OptDec.process, hc.rem, hc.1, List.length_nil, beq_self_eq_true,
            Bool.and_true, if_true, e, Nat.add_zero]
          simp [hc.2, hov, hp', hc.eta]
        simp only [stepNotify, hst]
        by_cases h1 : o'.st = .valueStart <;> by_cases h2 : d.holder.length > 0 <;> simp [notify, hs, h1, h2]
      obtain ⟨ev, h1⟩ := h1
      obtain ⟨k, e2, hk, hf⟩ := ih (em o') hlt (d := { d with opt := o' }) hs hi' hp' rfl
      exact ⟨k + 1, _, by omega, Finish.cons h1 (by simp [hs]) hf⟩

/-- Header and token are complete. -/
def PastTok (d : Dec) : Prop :=
  d.st = .tokenDone ∨ d.st = .optionsStart ∨ d.st = .options ∨ d.st = .optionsDone ∨ d.st = .payload ∨
  d.st = .payloadDone ∨ (d.st = .headerDone ∧ d.hdr.tokenLength.toNat = 0)

theorem PastTok.not_done {d : Dec} (h : PastTok d) : d.st ≠ .done := by
  intro hd; simp [PastTok, hd] at h

theorem finish_any {d : Dec} {c : Ctx} (hi : DInv d c) (hc : AtEof c) (hp : PastTok d)
    (hpay : d.st = .options → d.opt.st ≠ .payload) :
    ∃ k e, k ≤ 65550 ∧ Finish k d c e := by
  have od : ∀ d : Dec, d.st = .optionsDone → ∃ k e, k ≤ 3 ∧ Finish k d c e := by
    intro d hs
    by_cases ho : d.opt.st = .payload
    · exact ⟨3, _, by omega, finish_marker hc hs ho⟩
    · exact ⟨1, _, by omega, finish_optionsDone hc hs ho⟩
  have os : ∀ d : Dec, d.st = .optionsStart → ∃ k e, k ≤ 4 ∧ Finish k d c e := by
    intro d hs
    obtain ⟨k, e, hk, hf⟩ := od { d with st := .optionsDone } rfl
    refine ⟨k + 1, _, by omega, Finish.cons (d1 := { d with st := .optionsDone }) (e1 := [.optionsCompleted]) ?_ (by simp) hf⟩
    simp [stepNotify, Dec.step, hs, notify, hc.rem, hc.1]
  have td : ∀ d : Dec, d.st = .tokenDone → ∃ k e, k ≤ 5 ∧ Finish k d c e := by
    intro d hs
    obtain ⟨k, e, hk, hf⟩ := os { d with st := .optionsStart } rfl
    refine ⟨k + 1, _, by omega, Finish.cons (d1 := { d with st := .optionsStart }) (e1 := [.optionStart]) ?_ (by simp) hf⟩
    simp [stepNotify, Dec.step, hs, notify]
  rcases hp with h | h | h | h | h | h | ⟨h, ht⟩
  · obtain ⟨k, e, hk, hf⟩ := td d h; exact ⟨k, e, by omega, hf⟩
  · obtain ⟨k, e, hk, hf⟩ := os d h; exact ⟨k, e, by omega, hf⟩
  · obtain ⟨k, e, hk, hf⟩ := finish_options hc h (hi.options h) (hpay h)
    have := em_le d.opt
    exact ⟨k, e, by omega, hf⟩
  · obtain ⟨k, e, hk, hf⟩ := od d h; exact ⟨k, e, by omega, hf⟩
  · refine ⟨2, _, by omega, Finish.cons (d1 := { d with st := .payloadDone }) (e1 := []) ?_ (by simp)
      (finish_payloadDone rfl)⟩
    have := hc.eta
    simp [stepNotify, Dec.step, h, notify, hc.1, this]
  · exact ⟨1, _, by omega, finish_payloadDone h⟩
  · obtain ⟨k, e, hk, hf⟩ := td { d with st := .tokenDone } rfl
    refine ⟨k + 1, _, by omega, Finish.cons (d1 := { d with st := .tokenDone }) (e1 := [.token []]) ?_ (by simp) hf⟩
    have hgt : ¬ (d.hdr.tokenLength > 0) := by
      rw [gt_iff_lt, UInt8.lt_iff_toNat_lt, ht]; simp
    simp [stepNotify, Dec.step, h, notify, hgt, ht]

/-- The option state never rests at `payload` while the decoder is in the options state. -/
def OptLive (d : Dec) : Prop := d.st = .options → d.opt.st ≠ .payload

theorem micro_past (d : Dec) (b : UInt8) (h : PastTok d) : PastTok (micro d b).1 := by
  rcases h with h | h | h | h | h | h | ⟨h, ht⟩
  all_goals simp only [micro, h]
  · simp [PastTok]
  · simp [PastTok]
  · split <;> simp [PastTok]
  · simp [PastTok]
  · simp [PastTok, h]
  · simp [PastTok, h]
  · have hgt : ¬ (d.hdr.tokenLength > 0) := by
      rw [gt_iff_lt, UInt8.lt_iff_toNat_lt, ht]; simp
    simp [PastTok, hgt]

theorem micro_live (d : Dec) (b : UInt8) (_h : OptLive d) : OptLive (micro d b).1 := by
  unfold OptLive at *
  cases hs : d.st <;> simp only [micro, hs]
  case header => simp only [putHeader]; split <;> simp [hs]
  case token => simp only [putToken]; split <;> simp [hs]
  case headerDone => split <;> simp
  case options => split <;> simp_all
  all_goals simp

theorem feed_inv {P : Dec → Prop} (hm : ∀ d b, P d → P (micro d b).1) (last : Bool) (d : Dec) (r : List UInt8)
    (h : P d) : P (feed last d r).2.1 := by
  fun_induction feed last d r with
  | case1 d => exact h
  | case2 d b bs hst => exact h
  | case3 d b bs hst m hc f ih => exact ih (hm d b h)
  | case4 d b bs hst m hc f ih => exact ih (hm d b h)

theorem chunkEnd_past {last : Bool} {f : List Event × Dec × List UInt8} (h : PastTok f.2.1) :
    PastTok (chunkEnd last f).2 := by
  unfold chunkEnd
  split
  · cases last <;> simp [PastTok]
  · simp only [fin]
    split
    · simp [PastTok]
    · exact h

theorem chunkEnd_live {last : Bool} {f : List Event × Dec × List UInt8} (h : OptLive f.2.1) :
    OptLive (chunkEnd last f).2 := by
  unfold chunkEnd OptLive at *
  split
  · cases last <;> simp
  · simp only [fin]
    split
    · simp
    · exact h

end Verif.Proofs
