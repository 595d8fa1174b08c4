import Verif.Proofs.DecoderSafety

/-!
# A byte-wise machine for the decoder

`micro` performs the smallest possible transition of the decoder given only the next byte; `feed`
iterates it over the rest of a buffer.  Later lemmas show that the decoder of the model does exactly
what `feed` does.
-/
namespace Verif.Proofs
open Verif.Model Header Dec

/-- A pure version of `OptDec.step`; faults (excluded by `OInv`) are treated as consuming. -/
def pureStep (o : OptDec) (b : UInt8) : OptDec × Bool :=
  match o.step b with
  | .ok r => r
  | .error _ => (o, true)

theorem pureStep_eq {o o' : OptDec} {b : UInt8} {c : Bool} (h : o.step b = .ok (o', c)) :
    pureStep o b = (o', c) := by simp [pureStep, h]

theorem step_eq_pure {o : OptDec} (b : UInt8) (h : OInv o) : o.step b = .ok (pureStep o b) := by
  obtain ⟨o', c, e, _⟩ := step_ok o b h
  rw [e, pureStep_eq e]

theorem pureStep_rank (o : OptDec) (b : UInt8) (h : (pureStep o b).2 = false) :
    rank (pureStep o b).1.st < rank o.st := by
  by_cases h2 : OInv o
  · obtain ⟨o', c, e, _, hr⟩ := step_ok o b h2
    rw [pureStep_eq e] at h ⊢
    exact hr h
  · cases hs : o.st
    case optionDelta =>
      exfalso
      simp only [pureStep, OptDec.step, hs] at h
      cases hw : o.write b with
      | error e => simp [hw] at h
      | ok o2 => cases hp : o2.processOptionSize o.rawDelta <;> simp [hw, hp] at h
    case optionLength =>
      exfalso
      simp only [pureStep, OptDec.step, hs] at h
      cases hw : o.write b with
      | error e => simp [hw] at h
      | ok o2 => cases hp : o2.processOptionSize o.rawLength <;> simp [hw, hp] at h
    case optionLengthDone =>
      by_cases hl : 13 ≤ o.rawLength <;> simp [pureStep, OptDec.step, hs, hl, rank]
    all_goals simp [OInv, hs] at h2
    all_goals simp [pureStep, OptDec.step, hs] at h

/-- Rank of a decoder: transitions it can still make without consuming a byte. -/
def drank (d : Dec) : Nat :=
  match d.st with
  | .uninitialized => 1
  | .header => 0
  | .headerDone => 10
  | .tokenStart => 1
  | .token => 0
  | .tokenDone => 9
  | .optionsStart => 8
  | .options => 2 + rank d.opt.st
  | .optionsDone => 1
  | _ => 0

theorem drank_le (d : Dec) : drank d ≤ 10 := by
  unfold drank
  have := rank_le d.opt.st
  cases d.st <;> simp <;> omega

/-- One byte into the header. -/
def putHeader (d : Dec) (b : UInt8) : Dec :=
  let d := { d with
    hdr := match writeHeader d.hdr d.hpos b with | .ok h => h | .error _ => d.hdr,
    hpos := d.hpos + 1 }
  if d.hpos ≥ 4 then { d with st := .headerDone } else d

/-- One byte into the token. -/
def putToken (d : Dec) (b : UInt8) : Dec :=
  let d := { d with
    tbuf := d.tbuf.set d.tpos.toNat b, tpos := d.tpos + 1, opt := { d.opt with st := .garbage } }
  if d.tpos ≥ d.hdr.tokenLength then { d with st := .tokenDone } else d

/-- Smallest transition of the decoder, given the next byte; the flag says whether it is consumed. -/
def micro (d : Dec) (b : UInt8) : Dec × Bool :=
  match d.st with
  | .uninitialized => ({ d with st := .header, hpos := 0 }, false)
  | .header => (putHeader d b, true)
  | .headerDone =>
    ({ d with st := if d.hdr.tokenLength > 0 then .tokenStart else .tokenDone }, false)
  | .tokenStart => ({ d with st := .token, tpos := 0, opt := { d.opt with st := .garbage } }, false)
  | .token => (putToken d b, true)
  | .tokenDone => ({ d with st := .optionsStart }, false)
  | .optionsStart =>
    ({ d with st := .options, opt := { d.opt with st := .firstByte }, holder := ⟨0, 0⟩ }, false)
  | .options =>
    let o := (pureStep d.opt b).1
    ({ d with opt := o, holder := upd o d.holder,
              st := if o.st = .payload then .optionsDone else .options }, (pureStep d.opt b).2)
  | .optionsDone => ({ d with st := .payload }, false)
  | _ => (d, true)

theorem micro_rank (d : Dec) (b : UInt8) (h : (micro d b).2 = false) :
    drank (micro d b).1 < drank d := by
  cases hs : d.st <;> simp only [micro, hs] at h ⊢
  case uninitialized => simp [drank, hs]
  case header => simp at h
  case headerDone => split <;> simp [drank, hs]
  case tokenStart => simp [drank, hs]
  case token => simp at h
  case tokenDone => simp [drank, hs]
  case optionsStart => simp [drank, hs, rank]
  case options =>
    have := pureStep_rank d.opt b h
    split
    · simp [drank, hs]; omega
    · simpa [drank, hs] using this
  case optionsDone => simp [drank, hs]
  all_goals simp at h

/-- Event fired on entering a state, with `r` the unread bytes of the buffer. -/
def note (d : Dec) (r : List UInt8) (last : Bool) : List Event :=
  match d.notify ⟨r, 0, last⟩ with
  | .ok e => e
  | .error _ => []

/-- Iterate `micro` over the unread bytes `r` of a buffer; stops at the end of the buffer or on
entering the payload state.  Result: events, decoder, unread bytes. -/
def feed (last : Bool) (d : Dec) (r : List UInt8) : List Event × Dec × List UInt8 :=
  match r with
  | [] => ([], d, [])
  | b :: bs =>
    if d.st = .payload ∨ d.st = .payloadDone ∨ d.st = .done then ([], d, b :: bs)
    else
      let m := micro d b
      if m.2 then
        let f := feed last m.1 bs
        (note m.1 bs last ++ f.1, f.2)
      else
        let f := feed last m.1 (b :: bs)
        (note m.1 (b :: bs) last ++ f.1, f.2)
termination_by 11 * r.length + drank d
decreasing_by
  · have := drank_le (micro d b).1
    simp only [List.length_cons]; omega
  · rename_i h
    have := micro_rank d b (by simpa using h)
    simp only [List.length_cons]; omega

/-- States in which `feed` goes on. -/
def Going (d : Dec) : Prop := ¬ (d.st = .payload ∨ d.st = .payloadDone ∨ d.st = .done)

theorem feed_nil (last : Bool) (d : Dec) : feed last d [] = ([], d, []) := by rw [feed]

theorem feed_stop (last : Bool) (d : Dec) (r : List UInt8) (h : ¬ Going d) : feed last d r = ([], d, r) := by
  cases r with
  | nil => exact feed_nil last d
  | cons b bs => rw [feed, if_pos (Classical.not_not.mp h)]

/-- One micro-step of `feed`. -/
theorem feed_cons (last : Bool) (d : Dec) (b : UInt8) (bs : List UInt8) (h : Going d) (d1 : Dec) (c : Bool)
    (hm : micro d b = (d1, c)) :
    feed last d (b :: bs) =
      (note d1 (if c then bs else b :: bs) last ++ (feed last d1 (if c then bs else b :: bs)).1,
        (feed last d1 (if c then bs else b :: bs)).2) := by
  rw [feed, if_neg h]
  simp only [hm]
  cases c <;> simp

theorem notify_congr (d : Dec) (c : Ctx) : d.notify c = d.notify ⟨c.remainder, 0, c.last⟩ := by
  cases hs : d.st <;> simp [notify, hs, optionValue, Ctx.remainder]

/-- Lexicographic measure of `feed`. -/
def meas (d : Dec) (r : List UInt8) : Nat := 11 * r.length + drank d

/-- The options among the events. -/
def optsOf (evs : List Event) : List (UInt16 × List UInt8 × Bool) :=
  evs.filterMap fun e => match e with | .option n v l => some (n, v, l) | _ => none

theorem optsOf_append (a b : List Event) : optsOf (a ++ b) = optsOf a ++ optsOf b := by simp [optsOf]

/-- An option about to be reported: its number, the length of its value, and the unread bytes of the buffer. -/
structure Spot where
  number : UInt16
  len : Nat
  rest : List UInt8
deriving DecidableEq

/-- What is reported of it. -/
def Spot.shown (s : Spot) : UInt16 × List UInt8 × Bool := (s.number, s.rest.take s.len, decide (s.len ≤ s.rest.length))

def spotNote (d : Dec) (r : List UInt8) : List Spot :=
  if d.st = .options ∧ d.opt.st = .valueStart then [⟨d.holder.number, if d.holder.length > 0 then d.opt.length.toNat else 0, r⟩] else []

theorem optsOf_note (d : Dec) (r : List UInt8) (l : Bool) : optsOf (note d r l) = (spotNote d r).map Spot.shown := by
  unfold spotNote note notify
  cases hs : d.st <;> simp only [hs]
  case options =>
    by_cases hv : d.opt.st = .valueStart
    · by_cases hl : d.holder.length > 0
      · simp only [hv, beq_self_eq_true, if_true, hl, true_and, List.map_cons, List.map_nil, Spot.shown, optsOf, List.filterMap_cons,
          List.filterMap_nil, optionValue, Ctx.remainder, List.drop_zero]
        by_cases h : d.opt.length.toNat ≤ r.length
        · simp [h]
        · have h' : r.length ≤ d.opt.length.toNat := by omega
          simp [h, List.take_of_length_le h']
      · simp [hv, hl, Spot.shown, optsOf]
    · simp [hv, optsOf]
  case tokenDone => by_cases h : d.hdr.tokenLength.toNat ≤ d.tbuf.length <;> simp [h, optsOf]
  all_goals simp [optsOf]

/-- `feed`, recording only the options. -/
def spots (d : Dec) (r : List UInt8) : List Spot :=
  match r with
  | [] => []
  | b :: bs =>
    if d.st = .payload ∨ d.st = .payloadDone ∨ d.st = .done then []
    else
      let m := micro d b
      if m.2 then spotNote m.1 bs ++ spots m.1 bs
      else spotNote m.1 (b :: bs) ++ spots m.1 (b :: bs)
termination_by 11 * r.length + drank d
decreasing_by
  · have := drank_le (micro d b).1
    simp only [List.length_cons]; omega
  · rename_i h
    have := micro_rank d b (by simpa using h)
    simp only [List.length_cons]; omega

theorem spots_nil (d : Dec) : spots d [] = [] := by rw [spots]

theorem spots_stop (d : Dec) (r : List UInt8) (h : ¬ Going d) : spots d r = [] := by
  cases r with
  | nil => exact spots_nil d
  | cons b bs => rw [spots, if_pos (Classical.not_not.mp h)]

theorem spots_cons (d : Dec) (b : UInt8) (bs : List UInt8) (h : Going d) (d1 : Dec) (c : Bool) (hm : micro d b = (d1, c)) :
    spots d (b :: bs) = spotNote d1 (if c then bs else b :: bs) ++ spots d1 (if c then bs else b :: bs) := by
  rw [spots, if_neg h]
  simp only [hm]
  cases c <;> rfl

/-- `feed` factors through `(d1, r1)`, firing the events of entering `d1`. -/
def Factors (last : Bool) (d : Dec) (r : List UInt8) (d1 : Dec) (r1 : List UInt8) : Prop :=
  feed last d r = (note d1 r1 last ++ (feed last d1 r1).1, (feed last d1 r1).2) ∧
    spots d r = spotNote d1 r1 ++ spots d1 r1

theorem factors_micro (last : Bool) (d : Dec) (b : UInt8) (bs : List UInt8) (h : Going d) (d1 : Dec) (c : Bool)
    (hm : micro d b = (d1, c)) : Factors last d (b :: bs) d1 (if c then bs else b :: bs) :=
  ⟨feed_cons last d b bs h d1 c hm, spots_cons d b bs h d1 c hm⟩

/-- A silent micro-step followed by a factorisation. -/
theorem factors_trans (last : Bool) (d : Dec) (b : UInt8) (bs : List UInt8) (h : Going d) (d1 : Dec) (c : Bool)
    (hm : micro d b = (d1, c)) (hn : note d1 (if c then bs else b :: bs) last = []) (d2 : Dec)
    (r2 : List UInt8) (h2 : Factors last d1 (if c then bs else b :: bs) d2 r2) :
    Factors last d (b :: bs) d2 r2 := by
  have hs : spotNote d1 (if c then bs else b :: bs) = [] := by
    have := optsOf_note d1 (if c then bs else b :: bs) last
    rw [hn] at this
    exact List.map_eq_nil_iff.1 this.symm
  refine ⟨?_, ?_⟩
  · rw [feed_cons last d b bs h d1 c hm, hn, h2.1]; simp
  · rw [spots_cons d b bs h d1 c hm, hs, h2.2]; simp

theorem going_of_eq {d : Dec} {s : DState} (h : d.st = s) (h1 : s ≠ .payload) (h2 : s ≠ .payloadDone)
    (h3 : s ≠ .done) : Going d := by
  unfold Going; rw [h]; simp [h1, h2, h3]

/-- The header loop of the model is a run of `feed`. -/
theorem headerLoop_feed (last : Bool) (d : Dec) (r : List UInt8) (n : Nat) (hs : d.st = .header)
    (hp : d.hpos.toNat < 4) (hr : r ≠ []) :
    ∃ d0 k dn, headerLoop d r n = .ok (d0, n + k, dn) ∧ 0 < k ∧ k ≤ r.length ∧
      Factors last d r { d0 with st := if dn then .headerDone else .header } (r.drop k) ∧
      (dn = false → k = r.length) := by
  induction r generalizing d n with
  | nil => exact absurd rfl hr
  | cons b bs ih =>
    obtain ⟨hdr, hw⟩ : ∃ hdr, writeHeader d.hdr d.hpos b = .ok hdr := by
      unfold writeHeader
      have : d.hpos = 0 ∨ d.hpos = 1 ∨ d.hpos = 2 ∨ d.hpos = 3 := by
        simp only [← UInt8.toNat_inj]; simp; omega
      rcases this with h | h | h | h <;> simp [h]
    have hg : Going d := going_of_eq hs (by simp) (by simp) (by simp)
    simp only [headerLoop, hw]
    by_cases h4 : d.hpos + 1 ≥ 4
    · rw [if_pos h4]
      refine ⟨_, 1, true, rfl, by simp, by simp, ?_, by simp⟩
      have hm : micro d b = ({ d with hdr := hdr, hpos := d.hpos + 1, st := .headerDone }, true) := by
        simp [micro, hs, putHeader, hw, h4]
      exact factors_micro last d b bs hg _ _ hm
    · rw [if_neg h4]
      have hm : micro d b = ({ d with hdr := hdr, hpos := d.hpos + 1 }, true) := by
        simp [micro, hs, putHeader, hw, h4]
      have hn : note { d with hdr := hdr, hpos := d.hpos + 1 } bs last = [] := by
        simp [note, notify, hs]
      by_cases hbs : bs = []
      · subst hbs
        refine ⟨_, 1, false, rfl, by simp, by simp, ?_, by simp⟩
        have := factors_micro last d b [] hg _ _ hm
        simpa [hs] using this
      · obtain ⟨d0, k, dn, e, hk0, hk, hf, hdn⟩ := ih { d with hdr := hdr, hpos := d.hpos + 1 } (n + 1) hs
          (by simp only [ge_iff_le, UInt8.le_iff_toNat_le] at h4; simpa using h4) hbs
        refine ⟨d0, k + 1, dn, ?_, by omega, by simp; omega, ?_, fun h => by simp [hdn h]⟩
        · rw [e]; congr 3; omega
        · exact factors_trans last d b bs hg _ _ hm hn _ _ hf

/-- The token loop of the model is a run of `feed`, for legal token lengths. -/
theorem tokenLoop_feed (last : Bool) (d : Dec) (r : List UInt8) (n : Nat) (hs : d.st = .token)
    (hb : d.tbuf.length = 8) (hp : d.tpos.toNat < d.hdr.tokenLength.toNat)
    (h8 : d.hdr.tokenLength.toNat ≤ 8) (hr : r ≠ []) :
    ∃ d0 k dn, tokenLoop d r n = .ok (d0, n + k, dn) ∧ 0 < k ∧ k ≤ r.length ∧
      Factors last d r { d0 with st := if dn then .tokenDone else .token } (r.drop k) ∧
      (dn = false → k = r.length) := by
  induction r generalizing d n with
  | nil => exact absurd rfl hr
  | cons b bs ih =>
    have hw : writeAt d.tbuf d.tpos.toNat b = some (d.tbuf.set d.tpos.toNat b) := by
      simp [writeAt, hb]; omega
    have hadd : (d.tpos + 1).toNat = d.tpos.toNat + 1 := by
      rw [UInt8.toNat_add]; simp; omega
    have hg : Going d := going_of_eq hs (by simp) (by simp) (by simp)
    simp only [tokenLoop, hw]
    by_cases h4 : d.tpos + 1 ≥ d.hdr.tokenLength
    · rw [if_pos h4]
      refine ⟨_, 1, true, rfl, by simp, by simp, ?_, by simp⟩
      have hm : micro d b = ({ d with tbuf := d.tbuf.set d.tpos.toNat b, tpos := d.tpos + 1, opt := { d.opt with st := .garbage }, st := .tokenDone }, true) := by
        simp [micro, hs, putToken, h4]
      exact factors_micro last d b bs hg _ _ hm
    · rw [if_neg h4]
      have hm : micro d b = ({ d with tbuf := d.tbuf.set d.tpos.toNat b, tpos := d.tpos + 1, opt := { d.opt with st := .garbage } }, true) := by
        simp [micro, hs, putToken, h4]
      have hn : note { d with tbuf := d.tbuf.set d.tpos.toNat b, tpos := d.tpos + 1, opt := { d.opt with st := .garbage } } bs last = [] := by
        simp [note, notify, hs]
      by_cases hbs : bs = []
      · subst hbs
        refine ⟨_, 1, false, rfl, by simp, by simp, ?_, by simp⟩
        have := factors_micro last d b [] hg _ _ hm
        simpa [hs] using this
      · rw [ge_iff_le, UInt8.le_iff_toNat_le, hadd] at h4
        obtain ⟨d0, k, dn, e, hk0, hk, hf, hdn⟩ := ih { d with tbuf := d.tbuf.set d.tpos.toNat b, tpos := d.tpos + 1, opt := { d.opt with st := .garbage } } (n + 1) hs
          (by simp [hb]) (by simp only [hadd]; omega) h8 hbs
        refine ⟨d0, k + 1, dn, ?_, by omega, by simp; omega, ?_, fun h => by simp [hdn h]⟩
        · rw [e]; congr 3; omega
        · exact factors_trans last d b bs hg _ _ hm hn _ _ hf

/-- Option states inside an option header. -/
def inHeader : OState → Bool
  | .firstByte | .firstByteDone | .optionDelta | .optionDeltaDone | .optionLength | .optionLengthDone
  | .optionDeltaAndLengthDone => true
  | _ => false

theorem step_inHeader {o o' : OptDec} {b : UInt8} {c : Bool} (h : inHeader o.st = true)
    (e : o.step b = .ok (o', c)) : inHeader o'.st = true ∨ o'.st = .valueStart ∨ o'.st = .payload := by
  cases hs : o.st <;> simp only [hs, inHeader] at h <;> simp only [OptDec.step, hs] at e
  case firstByte => split at e <;> cases e <;> simp [inHeader]
  case firstByteDone => cases e; left; dsimp only; (repeat' split) <;> rfl
  case optionDelta =>
    cases hw : o.write b with
    | error x => simp [hw] at e
    | ok o2 =>
      have h2 : o2.st = .optionDelta := by
        unfold OptDec.write at hw; repeat' split at hw
        all_goals cases hw; try exact hs
      simp only [hw] at e
      split at e <;> cases e <;> simp [inHeader, h2]
  case optionDeltaDone => split at e <;> cases e <;> simp [inHeader]
  case optionLength =>
    cases hw : o.write b with
    | error x => simp [hw] at e
    | ok o2 =>
      have h2 : o2.st = .optionLength := by
        unfold OptDec.write at hw; repeat' split at hw
        all_goals cases hw; try exact hs
      simp only [hw] at e
      split at e <;> cases e <;> simp [inHeader, h2]
  case optionLengthDone => split at e <;> cases e <;> simp [inHeader]
  case optionDeltaAndLengthDone => cases e; simp
  all_goals cases h

theorem write_st {o o' : OptDec} {b : UInt8} (h : o.write b = .ok o') : o'.st = o.st := by
  unfold OptDec.write at h; repeat' split at h
  all_goals cases h
  all_goals rfl

/-- A consumed byte never leads to the start of a value. -/
theorem step_consumed {o o' : OptDec} {b : UInt8} (e : o.step b = .ok (o', true))
    (hv : o'.st = .valueStart) : False := by
  cases hs : o.st <;> simp only [OptDec.step, hs] at e
  case firstByte => split at e <;> cases e; cases hv
  case firstByteDone =>
    cases e; revert hv; dsimp only; repeat' split
    all_goals simp
  case optionDelta =>
    cases hw : o.write b with
    | error x => simp [hw] at e
    | ok o2 =>
      have h2 := write_st hw
      simp only [hw] at e
      split at e <;> cases e
      · cases hv
      · simp [h2, hs] at hv
  case optionLength =>
    cases hw : o.write b with
    | error x => simp [hw] at e
    | ok o2 =>
      have h2 := write_st hw
      simp only [hw] at e
      split at e <;> cases e
      · cases hv
      · simp [h2, hs] at hv
  case optionValue =>
    split at e <;> cases e
    · cases hv
    · simp [OptDec.setValueLength, hs] at hv
  case optionDeltaDone => split at e <;> cases e
  case optionLengthDone => split at e <;> cases e
  case payload => cases e; simp [hs] at hv
  case optionDone => cases e; simp [hs] at hv
  case garbage => cases e; simp [hs] at hv
  all_goals cases e

/-- The option loop of the model is a run of `feed`, also when more bytes `t` follow that the loop does not see. -/
theorem loop_feed_app (last : Bool) (t : List UInt8) (f : Nat) (d : Dec) (r : List UInt8) (n : Nat) (hs : d.st = .options)
    (hi : OInv d.opt) (hr : r ≠ []) (hf : 6 * r.length + rank d.opt.st < f) :
    ∃ o1 h1 k, OptDec.loop f d.opt d.holder r n = .ok (o1, h1, n + k) ∧ k ≤ r.length ∧ OInv o1 ∧
      Factors last d (r ++ t)
        { d with opt := o1, holder := h1, st := if o1.st = .payload then .optionsDone else .options }
        (r.drop k ++ t) ∧
      meas { d with opt := o1, holder := h1, st := if o1.st = .payload then .optionsDone else .options }
        (r.drop k) < meas d r ∧
      (inHeader d.opt.st = true → o1.st ≠ .optionValueDone) ∧
      (k < r.length → paused o1.st = true) ∧ (k = r.length → o1.st ≠ .valueStart) := by
  induction f generalizing d r n with
  | zero => omega
  | succ f ih =>
    cases r with
    | nil => exact absurd rfl hr
    | cons b bs =>
      obtain ⟨o', c, he, hi', hrk⟩ := step_ok d.opt b hi
      have hg : Going d := going_of_eq hs (by simp) (by simp) (by simp)
      have hps := pureStep_eq he
      have hm : micro d b = ({ d with opt := o', holder := upd o' d.holder, st := if o'.st = .payload then .optionsDone else .options }, c) := by
        simp [micro, hs, hps]
      have hih : inHeader d.opt.st = true → o'.st ≠ .optionValueDone := by
        intro h hc
        rcases step_inHeader h he with h1 | h1 | h1 <;> simp [hc, inHeader] at h1
      rw [loop_cons f d.opt o' c d.holder b bs n he]
      have hme : c = false → meas { d with opt := o', holder := upd o' d.holder, st := if o'.st = .payload then .optionsDone else .options }
          (b :: bs) < meas d (b :: bs) := by
        intro hc
        have := micro_rank d b (by rw [hm]; exact hc)
        rw [hm] at this
        unfold meas; simp only [] at this; omega
      have hmt : meas { d with opt := o', holder := upd o' d.holder, st := if o'.st = .payload then .optionsDone else .options }
          bs < meas d (b :: bs) := by
        have := drank_le { d with opt := o', holder := upd o' d.holder, st := if o'.st = .payload then .optionsDone else .options }
        unfold meas; simp only [List.length_cons]; omega
      by_cases hp : paused o'.st = true
      · rw [if_pos hp]
        cases c
        · refine ⟨o', upd o' d.holder, 0, rfl, by simp, hi', ?_, hme rfl, hih, fun _ => hp, by simp⟩
          exact factors_micro last d b (bs ++ t) hg _ _ hm
        · refine ⟨o', upd o' d.holder, 1, rfl, by simp, hi', ?_, hmt, hih, fun _ => hp, ?_⟩
          · exact factors_micro last d b (bs ++ t) hg _ _ hm
          · -- a consumed byte never leads to `valueStart`
            intro _ hv
            exact step_consumed he hv
      · rw [if_neg hp]
        have hnp : o'.st ≠ .payload := by intro h; simp [h, paused] at hp
        have hnv : o'.st ≠ .valueStart := by intro h; simp [h, paused] at hp
        have hnd : o'.st ≠ .optionValueDone := by intro h; simp [h, paused] at hp
        have hm' : micro d b = ({ d with opt := o', holder := upd o' d.holder, st := .options }, c) := by
          rw [hm]; simp [hnp]
        have hn : ∀ r, note { d with opt := o', holder := upd o' d.holder, st := .options } r last = [] := by
          intro r; simp [note, notify, hnv]
        have hinh : inHeader d.opt.st = true → inHeader o'.st = true := by
          intro h
          rcases step_inHeader h he with h1 | h1 | h1
          · exact h1
          · exact absurd h1 hnv
          · exact absurd h1 hnp
        simp only [hnp, if_false] at hme hmt
        cases c
        · simp only [Bool.false_eq_true, if_false]
          obtain ⟨o1, h1, k, e, hk, ho, hfac, hmm, hd, hpp, hvv⟩ := ih
            { d with opt := o', holder := upd o' d.holder, st := .options } (b :: bs) n rfl hi' (by simp)
            (by have := hrk rfl; simp only []; omega)
          refine ⟨o1, h1, k, e, hk, ho, ?_, ?_, fun h => hd (hinh h), hpp, hvv⟩
          · exact factors_trans last d b (bs ++ t) hg _ _ hm' (hn _) _ _ hfac
          · have := hme rfl; simp only [] at hmm ⊢; omega
        · simp only [if_true]
          by_cases hbs : bs = []
          · subst hbs
            have hl : OptDec.loop f o' (upd o' d.holder) [] (n + 1) = .ok (o', upd o' d.holder, n + 1) := by
              cases f with
              | zero => simp at hf
              | succ f => rfl
            refine ⟨o', upd o' d.holder, 1, hl, by simp, hi', ?_, ?_, hih, by simp, fun _ => hnv⟩
            · have := factors_micro last d b t hg _ _ hm'
              simpa [hnp] using this
            · simpa [hnp] using hmt
          · obtain ⟨o1, h1, k, e, hk, ho, hfac, hmm, hd, hpp, hvv⟩ := ih
              { d with opt := o', holder := upd o' d.holder, st := .options } bs (n + 1) rfl hi' hbs
              (by have := rank_le o'.st; simp only [List.length_cons] at hf ⊢; omega)
            refine ⟨o1, h1, k + 1, ?_, by simp; omega, ho, ?_, ?_, fun h => hd (hinh h), ?_, ?_⟩
            · rw [e]; congr 3; omega
            · exact factors_trans last d b (bs ++ t) hg _ _ hm' (hn _) _ _ hfac
            · simp only [List.drop_succ_cons] at hmm ⊢; omega
            · intro h; exact hpp (by simp only [List.length_cons] at h; omega)
            · intro h; exact hvv (by simp only [List.length_cons] at h; omega)

/-- The option loop of the model is a run of `feed`. -/
theorem loop_feed (last : Bool) (f : Nat) (d : Dec) (r : List UInt8) (n : Nat) (hs : d.st = .options)
    (hi : OInv d.opt) (hr : r ≠ []) (hf : 6 * r.length + rank d.opt.st < f) :
    ∃ o1 h1 k, OptDec.loop f d.opt d.holder r n = .ok (o1, h1, n + k) ∧ k ≤ r.length ∧ OInv o1 ∧
      Factors last d r
        { d with opt := o1, holder := h1, st := if o1.st = .payload then .optionsDone else .options }
        (r.drop k) ∧
      meas { d with opt := o1, holder := h1, st := if o1.st = .payload then .optionsDone else .options }
        (r.drop k) < meas d r ∧
      (inHeader d.opt.st = true → o1.st ≠ .optionValueDone) ∧
      (k < r.length → paused o1.st = true) ∧ (k = r.length → o1.st ≠ .valueStart) := by
  have := loop_feed_app last [] f d r n hs hi hr hf
  simpa only [List.append_nil] using this

end Verif.Proofs
