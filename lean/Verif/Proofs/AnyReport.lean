import Verif.Proofs.AnyOptions
import Verif.Spec.Read

/-! # Everything that is reported for arbitrary bytes in the place of options -/
namespace Verif.Proofs
open Verif.Model Header Dec OptDec Spec

/-- Inside an option header. -/
def CutHdr (s : OState) : Prop :=
  s = .optionDelta ∨ s = .optionDeltaDone ∨ s = .optionLength ∨ s = .optionLengthDone ∨ s = .optionDeltaAndLengthDone

/-- The length will be zero when the rest of the header reads as zero bytes. -/
def EofZero (o : OptDec) : Prop :=
  match o.st with
  | .optionDelta | .optionDeltaDone | .optionLength => o.rawLength = 15 ∨ o.rawLength = 0
  | _ => o.length = 0

instance (o : OptDec) : Decidable (EofZero o) := by unfold EofZero; split <;> infer_instance

theorem getValue_small {n : UInt8} (a b : UInt8) (h : ¬ 13 ≤ n) : getValue n a b = 0 ↔ n = 0 := by
  have h' : n < 13 := by rw [UInt8.lt_iff_toNat_lt]; rw [UInt8.le_iff_toNat_le] at h; omega
  simp only [getValue, h', if_true]
  rw [← UInt16.toNat_inj, ← UInt8.toNat_inj]; simp

theorem not_15 {n : UInt8} (h : ¬ 13 ≤ n) : ¬ n = 15 := by
  rintro rfl; exact h (by decide)

theorem ge13_ne0 {n : UInt8} (h : 13 ≤ n) : ¬ n = 0 := by
  rintro rfl; exact absurd h (by decide)

theorem eof_hdr (o o' : OptDec) (c : Bool) (h : OInv o) (e : o.step 0 = .ok (o', c)) (hi : CutHdr o.st) :
    (o'.st = .valueStart ∨ CutHdr o'.st) ∧ (EofZero o' ↔ EofZero o) := by
  obtain ⟨st, b0, b1, b2, b3, pos⟩ := o
  have hlo : (b0 &&& 0x0F).toNat < 16 := by rw [lo_nib]; omega
  unfold OInv at h
  rcases hi with hs | hs | hs | hs | hs <;> simp only at hs <;> subst hs <;> simp only at h <;>
    simp only [OptDec.step] at e
  · -- optionDelta
    obtain ⟨h1, h2 | ⟨h2, h3⟩⟩ := h
    · subst h2
      simp only [write, processOptionSize] at e
      by_cases hd : rawDelta ⟨.optionDelta, b0, b1, b2, b3, 1⟩ = 14
      · simp [hd] at e; rw [← e.1]; simp [CutHdr, EofZero, rawLength]
      · simp [hd] at e; rw [← e.1]; simp [CutHdr, EofZero, rawLength]
    · subst h3
      simp only [write, processOptionSize, h2] at e
      simp at e; rw [← e.1]; simp [CutHdr, EofZero, rawLength]
  · -- optionDeltaDone
    by_cases hl : 13 ≤ b0 &&& 0x0F
    · simp [rawLength, hl] at e; rw [← e.1]; simp [CutHdr, EofZero, rawLength]
    · simp [rawLength, hl] at e; rw [← e.1]
      refine ⟨Or.inl rfl, ?_⟩
      simp only [EofZero, OptDec.length, rawLength]
      rw [getValue_small _ _ hl, or_iff_right (not_15 hl)]
  · -- optionLength
    obtain ⟨h1, h2 | ⟨h2, h3⟩⟩ := h
    · subst h2
      have h1' : 13 ≤ b0 &&& 0x0F := h1
      rcases ge13_cases h1' hlo with hv | hv | hv
      · simp [write, processOptionSize, rawLength, hv] at e; rw [← e.1]
        refine ⟨Or.inr (by simp [CutHdr]), ?_⟩
        simp only [EofZero, OptDec.length, rawLength, hv, getValue_any8]
        decide
      · simp [write, processOptionSize, rawLength, hv] at e; rw [← e.1]
        exact ⟨Or.inr (by simp [CutHdr]), by simp [EofZero, rawLength]⟩
      · simp [write, processOptionSize, rawLength, hv] at e; rw [← e.1]
        refine ⟨Or.inr (by simp [CutHdr]), ?_⟩
        simp only [EofZero, OptDec.length, rawLength, hv, getValue_15]
        decide
    · subst h3
      have hv : b0 &&& 0x0F = 14 := h2
      simp [write, processOptionSize, rawLength, hv] at e; rw [← e.1]
      refine ⟨Or.inr (by simp [CutHdr]), ?_⟩
      simp only [EofZero, OptDec.length, rawLength, hv, getValue_any16]
      have : ¬ (UInt16.ofNat (269 + 256 * b1.toNat + (0 : UInt8).toNat) = 0) := by
        intro h
        have h := congrArg UInt16.toNat h
        have := u8_lt b1
        simp at h
        omega
      exact ⟨fun h => absurd h this, fun h => absurd h (by decide)⟩
  · -- optionLengthDone
    by_cases hl : 13 ≤ b0 &&& 0x0F
    · simp [rawLength, hl] at e; rw [← e.1]; simp [EofZero, OptDec.length, rawLength]
    · simp [rawLength, hl] at e; rw [← e.1]
      refine ⟨Or.inr (by simp [CutHdr]), ?_⟩
      simp only [EofZero, OptDec.length, rawLength]
      rw [getValue_small _ _ hl, or_iff_right (not_15 hl)]
  · simp at e; rw [← e.1]; simp [EofZero, OptDec.length, rawLength]

theorem hend_hdr {o : OptDec} {len : Nat} (h : HEnd o len) : CutHdr o.st ∧ (EofZero o ↔ len % 65536 = 0) := by
  obtain ⟨h1, h2, h3, h4, h5, h6⟩ := h
  have e := h1 0
  have hi : CutHdr o.st := by
    unfold OInv at h6
    cases hs : o.st <;> simp only [hs] at h6 <;> simp only [OptDec.step, hs] at e
    case firstByte => simp at e
    case firstByteDone => simp at e
    case optionDelta => simp [CutHdr]
    case optionDeltaDone => simp [CutHdr]
    case optionLength => simp [CutHdr]
    case optionLengthDone => simp [CutHdr]
    case optionDeltaAndLengthDone => simp [CutHdr]
    case valueStart => exact absurd hs h5
    case optionValue => split at e <;> simp at e
    case optionValueDone => exact absurd hs h3
    case payload => exact absurd hs h4
  refine ⟨hi, ?_⟩
  rw [← (eof_hdr o _ _ h6 (h1 0) hi).2]
  have : ({ o with st := .valueStart } : OptDec).length = UInt16.ofNat len := h2
  simp only [EofZero, this]
  rw [← UInt16.toNat_inj]; simp

/-- At the end of the last buffer, the current option having been reported. -/
theorem finish_val {d : Dec} (hs : d.st = .options) (hi : OInv d.opt)
    (hp : d.opt.st = .valueStart ∨ d.opt.st = .optionValue) :
    ∃ k, ∀ c, AtEof c → Finish k d c [.optionsCompleted, .completed] := by
  generalize hm : em d.opt = m
  induction m using Nat.strongRecOn generalizing d with
  | ind m ih =>
    have hp' : d.opt.st ≠ .payload := by rcases hp with h | h <;> simp [h]
    have hna : ¬ Ahead d.opt.st := by rcases hp with h | h <;> simp [h, Ahead]
    obtain ⟨o', cc, e, hi', hp2, hcase⟩ := eof_step d.opt hi hp'
    have ha := (eof_ahead d.opt o' cc hi e hp').2 hna
    by_cases hov : o'.st = .optionValueDone
    · have h1 : ∀ c, AtEof c → d.stepNotify c = .ok ({ d with opt := o', st := .optionsDone }, c, [.optionsCompleted]) := by
        intro c hc
        simp only [stepNotify, Dec.step, hs, OptDec.process, hc.rem, hc.1, List.length_nil, beq_self_eq_true,
          Bool.and_true, if_true, e, Nat.add_zero]
        simp [notify, hc.2, hov, hc.eta]
      exact ⟨2, fun c hc => Finish.cons (h1 c hc) (by simp) (finish_optionsDone hc rfl (by simp [hov]))⟩
    · have hlt : em o' < m := by
        rcases hcase with h | h
        · exact absurd h hov
        · omega
      have hv : o'.st = .optionValue := by
        rcases ha with h | h
        · exact h
        · exact absurd h hov
      obtain ⟨k, hf⟩ := ih (em o') hlt (d := { d with opt := o' }) hs hi' (Or.inr hv) rfl
      refine ⟨k + 1, fun c hc => ?_⟩
      have h1 : d.stepNotify c = .ok ({ d with opt := o' }, c, []) := by
        simp only [stepNotify, Dec.step, hs, OptDec.process, hc.rem, hc.1, List.length_nil, beq_self_eq_true,
            Bool.and_true, if_true, e, Nat.add_zero]
        simp [notify, hc.2, hv, hc.eta]
      exact Finish.cons h1 (by simp [hs]) (hf c hc)

/-- At the end of the last buffer, inside an option header: the option is reported with an empty value. -/
theorem finish_hdr {d : Dec} (hs : d.st = .options) (hi : OInv d.opt) (hp : CutHdr d.opt.st) :
    ∃ k, ∀ c, AtEof c → Finish k d c
      [.option d.holder.number [] (decide (d.holder.length = 0 ∨ EofZero d.opt)), .optionsCompleted, .completed] := by
  generalize hm : em d.opt = m
  induction m using Nat.strongRecOn generalizing d with
  | ind m ih =>
    have hp' : d.opt.st ≠ .payload := by rcases hp with h | h | h | h | h <;> simp [h]
    obtain ⟨o', cc, e, hi', hp2, hcase⟩ := eof_step d.opt hi hp'
    obtain ⟨hst, hz⟩ := eof_hdr d.opt o' cc hi e hp
    have hov : o'.st ≠ .optionValueDone := by
      rcases hst with h | h | h | h | h | h <;> simp [h]
    have hlt : em o' < m := by
      rcases hcase with h | h
      · exact absurd h hov
      · omega
    have hstep : ∀ c, AtEof c → d.step c = .ok ({ d with opt := o' }, c) := by
      intro c hc
      simp only [Dec.step, hs, OptDec.process, hc.rem, hc.1, List.length_nil, beq_self_eq_true,
        Bool.and_true, if_true, e, Nat.add_zero]
      simp [hc.2, hov, hp2, hc.eta]
    rcases hst with h1 | h1
    · obtain ⟨k, hf⟩ := finish_val (d := { d with opt := o' }) hs hi' (Or.inl h1)
      refine ⟨k + 1, fun c hc => ?_⟩
      have hz' : EofZero d.opt ↔ o'.length = 0 := by rw [← hz]; simp [EofZero, h1]
      have h2 : d.stepNotify c = .ok ({ d with opt := o' }, c,
          [.option d.holder.number [] (decide (d.holder.length = 0 ∨ EofZero d.opt))]) := by
        simp only [stepNotify, hstep c hc]
        by_cases h0 : d.holder.length = 0
        · simp [notify, hs, h1, h0]
        · have hg : d.holder.length > 0 := by
            rw [gt_iff_lt, UInt16.lt_iff_toNat_lt]
            have : d.holder.length.toNat ≠ 0 := fun h => h0 (UInt16.toNat_inj.1 h)
            simp; omega
          by_cases h3 : o'.length = 0
          · simp [notify, hs, h1, hg, optionValue, hc.rem, h3, hz']
          · have h3' : ¬ o'.length.toNat = 0 := fun h => h3 (UInt16.toNat_inj.1 h)
            have hez : ¬ EofZero d.opt := fun h => h3 (hz'.1 h)
            simp only [notify, hs, h1, hg, optionValue, hc.rem, h0, hez]
            simp [h3']
      exact Finish.cons h2 (by simp [hs]) (hf c hc)
    · obtain ⟨k, hf⟩ := ih (em o') hlt (d := { d with opt := o' }) hs hi' h1 rfl
      refine ⟨k + 1, fun c hc => ?_⟩
      have hnv : o'.st ≠ .valueStart := by rcases h1 with h | h | h | h | h <;> simp [h]
      have h2 : d.stepNotify c = .ok ({ d with opt := o' }, c, []) := by
        simp only [stepNotify, hstep c hc]
        simp [notify, hs, hnv]
      have := Finish.cons h2 (by simp [hs]) (hf c hc)
      simpa only [List.nil_append, hz] using this

/-- What stepping over the rest `r` of a last buffer, and past its end, reports. -/
def Says (d : Dec) (r : List UInt8) (E : List Event) : Prop :=
  (chunkEnd true (feed true d r)).2.st ≠ .done ∧
  ∃ k e, (∀ c, AtEof c → Finish k (chunkEnd true (feed true d r)).2 c e) ∧ (chunkEnd true (feed true d r)).1 ++ e = E

theorem Says.pre {d d' : Dec} {r r' : List UInt8} {E : List Event} (ev : List Event)
    (h : feed true d r = (ev ++ (feed true d' r').1, (feed true d' r').2)) (hr : Says d' r' E) :
    Says d r (ev ++ E) := by
  unfold Says
  rw [h, chunkEnd_pre]
  obtain ⟨h1, k, e, h2, h3⟩ := hr
  exact ⟨h1, k, e, h2, by rw [List.append_assoc, h3]⟩

/-- The event of an option that was read. -/
def Item.event (i : Item) : Event := .option (UInt16.ofNat i.number) i.value i.complete

/-- Events of options and payload up to completion. -/
def restEvents (r : List Item × Option (List UInt8)) : List Event :=
  r.1.map Item.event ++ [.optionsCompleted] ++ (match r.2 with | none => [] | some p => [.payload p true]) ++ [.completed]

theorem says_payload (d : Dec) (r : List UInt8) (hs : d.st = .optionsDone) (ho : d.opt.st = .payload) :
    Says d r [.payload r true, .completed] := by
  unfold Says
  by_cases hr : r = []
  · subst hr
    rw [feed_nil]
    have hce : chunkEnd true ([], d, []) = ([], d) := by simp [chunkEnd, finEv, fin, hs]
    rw [hce]
    exact ⟨by simp [hs], 3, _, fun c hc => finish_marker hc hs ho, rfl⟩
  · rw [payload_feed true d r hs hr]
    refine ⟨by simp [chunkEnd], 1, [.completed], fun c hc => ?_, ?_⟩
    · simp only [chunkEnd, if_true]; exact finish_payloadDone rfl
    · simp [chunkEnd]

theorem Nat.beq_eq_decide' (a b : Nat) : (a == b) = decide (a = b) := rfl

theorem cutMark_eq {o' : OptDec} {w : UInt8} {h : Holder} {l : UInt16} (hc : CutAt o' w h l) :
    decide (l = 0 ∨ EofZero o') = cutMark h.length.toNat (w.toNat % 16) := by
  obtain ⟨hb, hcase⟩ := hc
  have hraw : o'.rawLength.toNat = w.toNat % 16 := by rw [rawLength, hb, lo_nib]
  rcases hcase with ⟨h1, h2, h3⟩ | ⟨h1, h2, h3⟩
  · have hn : ¬ 13 ≤ o'.rawLength := by rw [UInt8.le_iff_toNat_le, hraw]; simpa using h1
    have hr0 : o'.rawLength = 0 ↔ w.toNat % 16 = 0 := by rw [← UInt8.toNat_inj, hraw]; rfl
    have hl0 : l = 0 ↔ w.toNat % 16 = 0 := by rw [h2, ← UInt16.toNat_inj]; simp; omega
    have hz : EofZero o' ↔ w.toNat % 16 = 0 := by
      rcases h3 with h3 | h3
      · simp only [EofZero, h3]; rw [or_iff_right (not_15 hn), hr0]
      · simp only [EofZero, h3, OptDec.length]; rw [getValue_small _ _ hn, hr0]
    rw [cutMark, if_pos h1, Nat.beq_eq_decide', decide_eq_decide, hz, hl0, or_self]
  · have hn : 13 ≤ o'.rawLength := by rw [UInt8.le_iff_toNat_le, hraw]; simpa using h1
    have hr0 : o'.rawLength = 15 ↔ w.toNat % 16 = 15 := by rw [← UInt8.toNat_inj, hraw]; rfl
    have hz : EofZero o' ↔ w.toNat % 16 = 15 := by
      rcases h3 with h3 | h3 | h3 <;> · simp only [EofZero, h3]; rw [or_iff_left (ge13_ne0 hn), hr0]
    have hl0 : l = 0 ↔ h.length.toNat = 0 := by rw [h2, ← UInt16.toNat_inj]; rfl
    rw [cutMark, if_neg (by omega), Nat.beq_eq_decide', Nat.beq_eq_decide', ← Bool.decide_or, decide_eq_decide, hz, hl0]

/-- Options made of arbitrary bytes: everything that is reported. -/
theorem says_options (r : List UInt8) (S pl : Nat) (d : Dec) (hds : d.st = .options) (hr : Ready d.opt)
    (hn : d.holder.number = UInt16.ofNat S) (hpl : d.holder.length.toNat = pl) (hne : r ≠ [] ∨ d.opt.st = .optionValueDone) :
    Says d r (restEvents (readRest S pl r)) := by
  generalize hm : r.length = m
  induction m using Nat.strongRecOn generalizing r S pl d with
  | ind m ih =>
    cases r with
    | nil =>
      have hov : d.opt.st = .optionValueDone := by
        rcases hne with h | h
        · exact absurd rfl h
        · exact h
      have hce : chunkEnd true ([], d, []) = ([.optionsCompleted], { d with st := .optionsDone }) := by
        simp [chunkEnd, finEv, fin, hds, hov]
      unfold Says
      rw [feed_nil, hce]
      refine ⟨by simp, 1, [.completed], fun c hc => finish_optionsDone hc rfl (by simp [hov]), ?_⟩
      simp [readRest_nil, restEvents]
    | cons w bs =>
      by_cases hw : w = 0xFF
      · subst hw
        have := Says.pre [.optionsCompleted] (marker_feed true d bs hds hr)
          (says_payload { d with st := .optionsDone, opt := { d.opt with st := .payload } } bs rfl rfl)
        simpa [readRest_marker, restEvents] using this
      · have hh := any_header d.opt d.holder w bs hr hw
        have cut : ∀ (o' : OptDec) (h' : Holder), CutHdr o'.st → OInv o' →
            Q d.opt d.holder (w :: bs) o' h' [] →
            Says d (w :: bs) [.option h'.number [] (decide (h'.length = 0 ∨ EofZero o')), .optionsCompleted, .completed] := by
          intro o' h' a1 a3 q
          have a2 : o'.st ≠ .optionValueDone := by rcases a1 with h | h | h | h | h <;> simp [h]
          unfold Says
          rw [q.1 d true hds rfl rfl, feed_nil]
          have hce : chunkEnd true ([], ({ d with opt := o', holder := h' } : Dec), []) =
              ([], { d with opt := o', holder := h' }) := by simp [chunkEnd, finEv, fin, hds, a2]
          rw [hce]
          obtain ⟨k, hf⟩ := finish_hdr (d := { d with opt := o', holder := h' }) hds a3 a1
          exact ⟨by simp [hds], k, _, hf, rfl⟩
        cases h1 : readExt (w.toNat / 16) bs with
        | none =>
          rw [h1] at hh
          rw [readRest_cut_delta hw h1]
          obtain ⟨o', l, a1, a2, a3, q, hc⟩ := hh
          have hi : CutHdr o'.st := by
            rcases hc.2 with ⟨-, -, h | h⟩ | ⟨-, -, h | h | h⟩ <;> simp [CutHdr, h]
          have := cut o' _ hi a3 q
          rw [cutMark_eq hc, hpl, hn] at this
          simpa [restEvents, Item.event] using this
        | some p =>
          obtain ⟨delta, bs1⟩ := p
          simp only [h1] at hh
          have hSd : d.holder.number + UInt16.ofNat delta = UInt16.ofNat (S + delta) := by rw [hn]; simp
          cases h2 : readExt (w.toNat % 16) bs1 with
          | none =>
            rw [h2] at hh
            rw [readRest_cut_length hw h1 h2]
            obtain ⟨o', l, a1, a2, a3, q, hc⟩ := hh
            have hi : CutHdr o'.st := by
              rcases hc.2 with ⟨-, -, h | h⟩ | ⟨-, -, h | h | h⟩ <;> simp [CutHdr, h]
            have := cut o' _ hi a3 q
            rw [cutMark_eq hc, hpl, hSd] at this
            simpa [restEvents, Item.event] using this
          | some p =>
            obtain ⟨len, bs2⟩ := p
            simp only [h2] at hh
            rw [readRest_option hw h1 h2]
            obtain ⟨o', a1, q, he⟩ := hh
            have hvt : (UInt16.ofNat len).toNat = len % 65536 := by simp
            by_cases hb2 : bs2 = []
            · subst hb2
              obtain ⟨i1, i2⟩ := hend_hdr he
              have := cut o' _ i1 he.2.2.2.2.2 q
              have hd : decide (UInt16.ofNat len = 0 ∨ EofZero o') = decide (len % 65536 ≤ ([] : List UInt8).length) := by
                rw [decide_eq_decide, i2, ← UInt16.toNat_inj]; simp
              simp only [hd, hSd] at this
              simpa [readRest_nil, restEvents, Item.event] using this
            · by_cases hlt : bs2.length < len % 65536
              · obtain ⟨o2, g1, g2⟩ := hend_cut true
                  { d with opt := o', holder := ⟨d.holder.number + UInt16.ofNat delta, UInt16.ofNat len⟩ } bs2 len hds he rfl hb2 hlt
                rw [List.drop_of_length_le (by omega), List.take_of_length_le (by omega), readRest_nil,
                  decide_eq_false (by omega)]
                unfold Says
                rw [q.1 d true hds rfl rfl, g2]
                have hce : chunkEnd true ([Event.option (d.holder.number + UInt16.ofNat delta) bs2 false],
                    ({ d with opt := o2, holder := ⟨d.holder.number + UInt16.ofNat delta, UInt16.ofNat len⟩ } : Dec), []) =
                    ([.option (d.holder.number + UInt16.ofNat delta) bs2 false],
                      { d with opt := o2, holder := ⟨d.holder.number + UInt16.ofNat delta, UInt16.ofNat len⟩ }) := by
                  simp [chunkEnd, finEv, fin, hds, g1]
                rw [hce]
                obtain ⟨k, hf⟩ := finish_val
                  (d := { d with opt := o2, holder := ⟨d.holder.number + UInt16.ofNat delta, UInt16.ofNat len⟩ }) hds
                  (by simp [OInv, g1]) (Or.inr g1)
                refine ⟨by simp [hds], k, _, hf, ?_⟩
                simp [restEvents, Item.event, hSd]
              · have hlen : (bs2.take (len % 65536)).length = len % 65536 := by simp; omega
                have he' : HEnd o' (bs2.take (len % 65536)).length := by
                  rw [hlen]
                  obtain ⟨x1, x2, x3⟩ := he
                  exact ⟨x1, by rw [x2]; apply UInt16.toNat_inj.1; simp, x3⟩
                obtain ⟨o2, g1, g2⟩ := hend_phase true
                  { d with opt := o', holder := ⟨d.holder.number + UInt16.ofNat delta, UInt16.ofNat len⟩ }
                  (bs2.take (len % 65536)) (bs2.drop (len % 65536)) hds he' (by rw [hlen]; omega)
                  (by rw [hlen]; apply UInt16.toNat_inj.1; simp) (by simpa using hb2)
                rw [List.take_append_drop] at g2
                have hlt1 := readExt_length h1
                have hlt2 := readExt_length h2
                have hrec := ih (bs2.drop (len % 65536)).length (by simp at hm ⊢; omega) (bs2.drop (len % 65536)) (S + delta)
                  (len % 65536)
                  { d with opt := o2, holder := ⟨d.holder.number + UInt16.ofNat delta, UInt16.ofNat len⟩ } hds (Or.inr g1) hSd
                  hvt (Or.inr g1) rfl
                have hfeed := (q.1 d true hds rfl rfl).trans g2
                have := Says.pre [.option (d.holder.number + UInt16.ofNat delta) (bs2.take (len % 65536)) true] hfeed hrec
                rw [decide_eq_true (by omega)]
                simpa [restEvents, Item.event, hSd] using this

end Verif.Proofs
