import Verif.Props.StreamExtent
import Verif.Props.NetBufEncoder

/-! # Exactly which messages survive the buffer encoder and the decoder (C22, C25) -/
namespace Verif.Props
open Verif.Model OptEnc NEnc Spec Proofs

/-- A call that reports success has emitted a complete header. -/
theorem emits_of_nrun {base : OptBase} {o : OptEnc} {n : Nat} {bs : List UInt8} {p : OptEnc} (h : NRun base o n bs p)
    (hp : p.st = doneState base.length) (ho : OnWay o.st) : ∃ q, Emits base o bs q ∧ q.current = p.current := by
  induction h with
  | stop _ => exact absurd hp ho.ne_done
  | @quiet o o' n bs p hs hg h2 ih =>
    by_cases hd : o.st = .optionLengthDone
    · obtain ⟨st, c, k⟩ := o
      simp only at hd; subst hd
      have hst : o'.st = doneState base.length ∧ o'.current = c := by
        simp only [generate] at hg
        by_cases hl : base.length = 0
        · simp [hl] at hg; subst hg; simp [doneState, hl]
        · have hpos : base.length > 0 := by
            rw [gt_iff_lt, UInt16.lt_iff_toNat_lt]
            have : base.length.toNat ≠ 0 := fun h => hl (UInt16.toNat_inj.1 h)
            simp; omega
          simp [hl] at hg; subst hg; simp [doneState, hpos]
      cases h2 with
      | stop _ => exact ⟨_, .done rfl, hst.2.symm⟩
      | quiet hn _ _ => exact absurd hst.1 hn
      | byte hn _ _ => exact absurd hst.1 hn
    · obtain ⟨o1, r, e, h3, -⟩ := gen_step o base (ho.resolve_right hd)
      rw [hg] at e; cases e
      obtain ⟨q, q1, q2⟩ := ih hp h3.symm
      exact ⟨q, .quiet hd hg q1, q2⟩
  | @byte o o' n b bs p hs hg h2 ih =>
    have hd : o.st ≠ .optionLengthDone := by
      intro hd
      obtain ⟨st, c, k⟩ := o
      simp only at hd; subst hd
      simp only [generate] at hg
      split at hg <;> simp at hg
    obtain ⟨o1, r, e, h3, -⟩ := gen_step o base (ho.resolve_right hd)
    rw [hg] at e; cases e
    obtain ⟨q, q1, q2⟩ := ih hp h3.symm
    exact ⟨q, .byte hd hg q1, q2⟩

/-- A delta of 65266 or more is never finished. -/
theorem delta_unfinished {base : OptBase} {cur : UInt16} {pos : UInt8} {bs : List UInt8} {q : OptEnc}
    (he : Emits base ⟨.firstByte, cur, pos⟩ bs q) : (base.number - cur).toNat < 65266 := by
  apply Decidable.byContradiction
  intro hc
  have h : 65266 ≤ (base.number - cur).toNat := by omega
  have stay : ∀ o : OptEnc, o.st = .optionDelta → o.current = cur → ∀ bs q, ¬ Emits base o bs q := by
    intro o hs hc bs q he
    induction he with
    | done hd => rw [hs] at hd; cases hd
    | @quiet o o' bs o'' hn hg _ ih => obtain ⟨st, c, p⟩ := o; subst hs; simp [generate] at hg
    | @byte o o' b bs o'' hn hg _ ih =>
      obtain ⟨st, c, p⟩ := o
      simp only at hs hc; subst hs hc
      simp [generate, helper_big h] at hg
      exact ih (by rw [← hg.1]) (by rw [← hg.1])
  obtain ⟨t, -, h2⟩ := he.inv_byte (by simp) (o' := ⟨.firstByteDone, cur, 0⟩) (by simp [generate]; rfl)
  have h3 := h2.inv_quiet (by simp) (o' := ⟨.optionDelta, cur, 0⟩) (by simp [generate, helper_big h])
  exact stay _ rfl rfl _ _ h3

theorem optionValue_true {s s' : NEnc} {v : List UInt8} (h : s.optionValue v = (s', true)) :
    v.length ≤ s.room ∧ s' = ⟨s.oe.fastForward, s.out ++ v, s.room - v.length, s.marker⟩ := by
  by_cases hle : v.length ≤ s.room
  · rw [NEnc.optionValue, write_fits _ _ hle] at h
    simp at h
    exact ⟨hle, h.symm⟩
  · exfalso
    have hb : ((s.write v).2 == v.length) = false := by
      have : (s.write v).2 ≠ v.length := by simp only [NEnc.write]; omega
      simpa using this
    simp [NEnc.optionValue, hb] at h

/-- What a successful `option(number, value)` leaves. -/
theorem netbuf_option_done (prev n : Nat) (value : List UInt8) (hn : prev ≤ n) (hn2 : n < 65536) (hl : value.length < 65536)
    (s s' : NEnc) (fuel : Nat) (hs : Between s) (hcur : s.oe.current = UInt16.ofNat prev) (hf : s.room + 6 ≤ fuel)
    (h : s.option fuel (UInt16.ofNat n) value = .ok (s', true)) :
    ∃ hdr, s'.out = s.out ++ (hdr ++ value) ∧ s'.room ≤ s.room ∧ Between s' ∧ s'.marker = s.marker ∧ s'.oe.current = UInt16.ofNat n ∧
      n - prev < 65266 ∧
      (∃ q pos, Emits ⟨UInt16.ofNat n, UInt16.ofNat value.length, []⟩ ⟨.firstByte, UInt16.ofNat prev, pos⟩ hdr q) ∧
      (Encodable (n - prev) value.length → HdrOf hdr (n - prev) value.length) := by
  have ho := between_next hs
  rw [hcur] at ho
  obtain ⟨bs, p, h1, h2, h3, h4⟩ := NRun.total ⟨UInt16.ofNat n, UInt16.ofNat value.length, []⟩ _ ⟨.firstByte, UInt16.ofNat prev, s.oe.pos⟩
    s.room (Nat.le_refl _) (Or.inl (Or.inl trivial))
  have e1 := optionHeader_run ho (Or.inl (Or.inl trivial)) h1 fuel hf
  rw [NEnc.option, e1] at h
  by_cases hp : p.st = doneState (UInt16.ofNat value.length)
  · rw [hp, beq_self_eq_true] at h
    simp only [Except.ok.injEq] at h
    obtain ⟨q, q1, q2⟩ := emits_of_nrun h1 hp (Or.inl trivial)
    have hd := delta_unfinished q1
    simp only [sub_ofNat hn hn2] at hd
    have hqc := (emits_current q1 (Or.inl trivial) (by simp)).2
    obtain ⟨hle, rfl⟩ := optionValue_true h
    simp only at hle
    refine ⟨bs, by simp, by simp only; omega, Or.inr rfl, rfl, ?_, hd, ⟨q, _, q1⟩, fun henc => ?_⟩
    · simp only [fastForward]; rw [← q2]; exact hqc
    · obtain ⟨hdr, g1, g2, g3⟩ := encodable_emits prev n value.length hn hn2 hl henc
      obtain ⟨q', -, g4⟩ := g3 s.oe.pos
      rw [(q1.det g4).1]; exact g1
  · have hp' : (p.st == doneState (UInt16.ofNat value.length)) = false := by simpa using hp
    rw [hp'] at h
    simp at h

theorem netbuf_extent (os : List Opt) : ∀ (prev : Nat) (s s' : NEnc) (fuel : Nat), OptsOk prev os →
    Between s → s.oe.current = UInt16.ofNat prev → s.room + 6 ≤ fuel →
    writeOptsN fuel s os = .ok (s', true) → ∃ ob, s'.out = s.out ++ ob ∧ s'.marker = s.marker ∧ Extent prev os ob := by
  induction os with
  | nil =>
    intro prev s s' fuel _ _ _ _ h
    simp only [writeOptsN, Except.ok.injEq, Prod.mk.injEq, and_true] at h; subst h
    exact ⟨[], by simp, rfl, .nil prev⟩
  | cons o os ih =>
    intro prev s s' fuel hok hs hcur hf h
    obtain ⟨h1, h2, h3, h4⟩ := hok
    rw [writeOptsN] at h
    cases ho : s.option fuel (UInt16.ofNat o.number) o.value with
    | error e => rw [ho] at h; cases h
    | ok r =>
      obtain ⟨s1, ok⟩ := r
      rw [ho] at h
      cases ok with
      | false => simp at h
      | true =>
        simp only at h
        obtain ⟨hdr, b1, br, bb, bm, b2, b3, ⟨q, pos, b4⟩, b5⟩ := netbuf_option_done prev o.number o.value h1 h2 h3 s s1 fuel hs hcur hf ho
        obtain ⟨ob, c1, cm, c2⟩ := ih o.number s1 s' fuel h4 bb b2 (by omega) h
        exact ⟨hdr ++ o.value ++ ob, by rw [c1, b1]; simp, cm.trans bm, .cons h1 h2 h3 b3 b4 b5 c2⟩

/-- C25 with its exact extent: when the buffer encoder reports success for a sequence of options, what it wrote
is an encoding of these options if they are encodable, and is never read as these options if they are not. -/
theorem options_encoded_iff_partial (os : List Opt) (hok : OptsOk 0 os)
    (room fuel : Nat) (hf : room + 6 ≤ fuel) (s' : NEnc) (h : writeOptsN fuel (NEnc.init room) os = .ok (s', true)) :
    (OptsEncodable 0 os → IsOpts 0 os s'.out) ∧
    (¬ OptsEncodable 0 os → ∀ p, heard (readRest 0 0 (s'.out ++ encPayload p)) ≠ optsMeant os p) := by
  obtain ⟨ob, c1, -, c2⟩ := netbuf_extent os 0 (NEnc.init room) s' fuel hok (Or.inl rfl) rfl hf h
  have : s'.out = ob := by rw [c1]; simp [NEnc.init]
  rw [this]
  exact ⟨c2.2.2.1, fun hne p => c2.2.2.2.1 hne 0 0 p rfl⟩

/-- C22 for the buffer encoder with its exact extent, as `stream_round_trip_iff_partial`. -/
theorem netbuf_round_trip_iff_partial (m : Msg) (hm : m.Ok)
    (h : Header) (hh : fields h.b0 h.b1 h.b2 h.b3 = ⟨m.version, m.type, m.token.length, m.code, m.mid⟩)
    (room fuel : Nat) (hf : room + 6 ≤ fuel) (s' : NEnc)
    (hw : writeMsgN fuel (NEnc.init room) h m.token m.opts m.payload = .ok (s', true)) (junk : Dec) (hj : junk.tbuf.length = 8)
    (hst : junk.opt.st ≠ .payload ∨ m.token ≠ [] ∨ m.opts ≠ [] ∨ m.payload ≠ none) :
    (∃ N d' c', ∀ fuel, N ≤ fuel → Dec.processToDone fuel (Dec.fresh junk) ⟨s'.out, 0, true⟩ = .ok (d', c', delivery m)) ↔
      OptsEncodable 0 m.opts := by
  have hhb := header_bytes m hm h hh
  rw [writeMsgN] at hw
  simp only [NEnc.header] at hw
  by_cases h4 : 4 ≤ (NEnc.init room).room
  · rw [if_pos h4] at hw
    simp only at hw
    rw [write_fits _ _ (by simpa using h4), hhb] at hw
    have hl4 : (encHeader m).length = 4 := rfl
    simp only [NEnc.init, List.nil_append, hl4] at hw h4
    simp only [NEnc.token] at hw
    by_cases ht : m.token.length ≤ room - 4
    · rw [write_fits _ _ (by simpa using ht)] at hw
      simp only [beq_self_eq_true] at hw
      cases ho : writeOptsN fuel ⟨OptEnc.init, encHeader m ++ m.token, room - 4 - m.token.length, false⟩ m.opts with
      | error e => rw [ho] at hw; cases hw
      | ok r =>
        obtain ⟨s1, ok⟩ := r
        rw [ho] at hw
        cases ok with
        | false => simp at hw
        | true =>
          obtain ⟨ob, c1, cm, c2⟩ := netbuf_extent m.opts 0 _ s1 fuel hm.2.2.2.2.2.1 (Or.inl rfl) rfl (by simp only; omega) ho
          have hout : s'.out = wire m ob := by
            cases hp : m.payload with
            | none =>
              rw [hp] at hw
              simp only [Except.ok.injEq, Prod.mk.injEq, and_true] at hw
              rw [← hw, c1]; simp [wire, hp, encPayload]
            | some p =>
              rw [hp] at hw
              simp only [Except.ok.injEq, NEnc.payload, NEnc.payloadHeader, cm] at hw
              by_cases hr : s1.room = 0
              · simp [hr] at hw
              · have hr' : (s1.room == 0) = false := by simpa using hr
                simp only [hr', Bool.not_false, if_true, Bool.false_eq_true, if_false, NEnc.write, Prod.mk.injEq, beq_iff_eq] at hw
                obtain ⟨hw1, hw2⟩ := hw
                rw [← hw1]
                simp only
                rw [List.take_of_length_le (by omega), c1]
                simp [wire, hp, encPayload]
          rw [hout]
          exact extent_decoded m hm ob c2 junk hj hst
    · exfalso
      have : ((⟨OptEnc.init, encHeader m, room - 4, false⟩ : NEnc).write m.token).2 ≠ m.token.length := by
        simp only [NEnc.write]; omega
      have hb : (((⟨OptEnc.init, encHeader m, room - 4, false⟩ : NEnc).write m.token).2 == m.token.length) = false := by
        simpa using this
      rw [hb] at hw
      simp at hw
  · rw [if_neg h4] at hw
    simp at hw

example : ∃ s', writeMsgN 200 (NEnc.init 100) ⟨0x42, 1, 0x12, 0x34⟩ streamSample.token streamSample.opts streamSample.payload =
    .ok (s', true) := ⟨_, by rfl⟩
-- the everyday request with a path of 13 characters
example : ¬ OptsEncodable 0 longPathMsg.opts ∧
    ((writeMsgN 1100 (NEnc.init 1000) ⟨0x40, 1, 0, 1⟩ longPathMsg.token longPathMsg.opts longPathMsg.payload).toOption.map (·.2)) =
      some true := by
  refine ⟨by decide, by decide +kernel⟩

end Verif.Props
