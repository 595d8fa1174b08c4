import Verif.Proofs.NetBufEncoder
import Verif.Props.StreamRoundTrip

/-! # The buffer encoder (C24, C25, C26) -/
namespace Verif.Props
open Verif.Model OptEnc NEnc Spec Proofs

/-- The encoder is between two options: nothing written yet, or the last option is complete with its value. -/
def Between (s : NEnc) : Prop := s.oe.st = .firstByte ∨ s.oe.st = .optionDone

theorem between_next {s : NEnc} (h : Between s) :
    (if s.oe.st == .firstByte || s.oe.st == .optionDone then s.oe.next else s.oe) = ⟨.firstByte, s.oe.current, s.oe.pos⟩ := by
  rcases h with h | h <;> simp [h, next]

/-- Writing an option header into a succession of buffers of the given sizes: the same call is repeated in
the next buffer until it reports success. -/
def resumeAll (fuel : Nat) : NEnc → List Nat → UInt16 → UInt16 → Except Fault (NEnc × Bool)
  | s, [], _, _ => .ok (s, false)
  | s, r :: rs, number, length =>
    match (s.refill r).optionHeader fuel number length with
    | .error e => .error e
    | .ok (s, true) => .ok (s, true)
    | .ok (s, false) => resumeAll fuel s rs number length

theorem resume_aux (fuel : Nat) (number length : UInt16) (rooms : List Nat) (s : NEnc) (o : OptEnc)
    (ho : (if s.oe.st == .firstByte || s.oe.st == .optionDone then s.oe.next else s.oe) = o) (hw : OnWay o.st)
    (hne : rooms ≠ []) (hf : rooms.sum + 6 ≤ fuel) :
    ∃ s' ok s'', resumeAll fuel s rooms number length = .ok (s', ok) ∧
      (s.refill rooms.sum).optionHeader fuel number length = .ok (s'', ok) ∧ s'.out = s''.out ∧ s'.oe = s''.oe := by
  induction rooms generalizing s o with
  | nil => exact absurd rfl hne
  | cons r rs ih =>
    simp only [List.sum_cons] at hf ⊢
    obtain ⟨bs, p, h1, h2, h3, h4⟩ := NRun.total ⟨number, length, []⟩ _ o r (Nat.le_refl _) (Or.inl hw)
    simp only at h2 h4
    have e1 := optionHeader_run (s := s.refill r) ho (Or.inl hw) h1 fuel (by simp only [refill]; omega)
    by_cases hp : p.st = doneState length
    · rw [resumeAll, e1]
      simp only [hp, beq_self_eq_true]
      have h5 := h1.finished hp rs.sum
      have e2 := optionHeader_run (s := s.refill (r + rs.sum)) ho (Or.inl hw) h5 fuel (by simp only [refill]; omega)
      rw [hp, beq_self_eq_true] at e2
      exact ⟨_, _, _, rfl, e2, rfl, rfl⟩
    · have hp' : (p.st == doneState length) = false := by simpa using hp
      have hpw := h2.resolve_right hp
      rw [resumeAll, e1, hp']
      simp only
      by_cases hrs : rs = []
      · subst hrs
        rw [resumeAll]
        refine ⟨_, _, _, rfl, (by simpa using e1.trans (by rw [hp'])), rfl, rfl⟩
      · obtain ⟨s', ok, s'', g1, g2, g3, g4⟩ := ih ⟨p, s.out ++ bs, r - bs.length, s.marker⟩ p hpw.fresh_eq hpw hrs (by omega)
        obtain ⟨bs2, q, k1, k2, k3, k4⟩ := NRun.total ⟨number, length, []⟩ _ p rs.sum (Nat.le_refl _) (Or.inl hpw)
        have e3 := optionHeader_run (s := (⟨p, s.out ++ bs, r - bs.length, s.marker⟩ : NEnc).refill rs.sum)
          hpw.fresh_eq (Or.inl hpw) k1 fuel (by simp only [refill]; omega)
        rw [e3] at g2
        have h5 := h1.append hp k1
        have e2 := optionHeader_run (s := s.refill (r + rs.sum)) ho (Or.inl hw) h5 fuel (by simp only [refill]; omega)
        simp only [Except.ok.injEq, Prod.mk.injEq] at g2
        refine ⟨s', ok, _, g1, e2.trans (by rw [← g2.2]), ?_, ?_⟩
        · rw [g3, ← g2.1]; simp [refill]
        · rw [g4, ← g2.1]

/-- C24: writing an option header in any number of buffers of any sizes writes the same bytes, reports the
same result and leaves the encoder in the same state as one buffer of the total size. -/
theorem interrupted_header_resumes (fuel : Nat) (number length : UInt16) (rooms : List Nat) (s : NEnc)
    (hs : Between s) (hne : rooms ≠ []) (hf : rooms.sum + 6 ≤ fuel) :
    ∃ s' ok s'', resumeAll fuel s rooms number length = .ok (s', ok) ∧
      (s.refill rooms.sum).optionHeader fuel number length = .ok (s'', ok) ∧ s'.out = s''.out ∧ s'.oe = s''.oe :=
  resume_aux fuel number length rooms s _ (between_next hs) (Or.inl trivial) hne hf

-- a three-byte header through buffers of 1, 0, 1 and 2 bytes
example : resumeAll 20 (NEnc.init 0) [1, 0, 1, 2] 300 1 = .ok (⟨⟨.optionValue, 300, 0⟩, [0xE1, 0, 31], 1, false⟩, true) := by
  decide +kernel

/-- An encodable option header as a complete run of the option encoder. -/
theorem encodable_emits (prev n len : Nat) (hn : prev ≤ n) (hn2 : n < 65536) (hl : len < 65536)
    (hok : Encodable (n - prev) len) :
    ∃ hdr, HdrOf hdr (n - prev) len ∧ hdr.length ≤ 5 ∧ ∀ pos, ∃ q, q.current = UInt16.ofNat n ∧
      Emits ⟨UInt16.ofNat n, UInt16.ofNat len, []⟩ ⟨.firstByte, UInt16.ofNat prev, pos⟩ hdr q := by
  obtain ⟨hdr, h1, h2, h3⟩ := encodable_header prev n len hn hn2 hl hok
  refine ⟨hdr, h1, h2, fun pos => ?_⟩
  obtain ⟨oe, e1, e2⟩ := h3 ⟨⟨.firstByte, UInt16.ofNat prev, pos⟩, [], hdr.length⟩ rfl (by simp)
  obtain ⟨bs, g1, g2⟩ := emits_of_loop _ _ _ _ _ (by exact trivial) _ e2
  simp only [List.nil_append] at g2
  subst g2
  exact ⟨oe, e1, g1⟩

/-- Writing options one after the other through `option(number, value)`. -/
def writeOptsN (fuel : Nat) : NEnc → List Opt → Except Fault (NEnc × Bool)
  | s, [] => .ok (s, true)
  | s, o :: os =>
    match s.option fuel (UInt16.ofNat o.number) o.value with
    | .error e => .error e
    | .ok (s, false) => .ok (s, false)
    | .ok (s, true) => writeOptsN fuel s os

theorem netbuf_option (prev n : Nat) (value : List UInt8) (hn : prev ≤ n) (hn2 : n < 65536) (hl : value.length < 65536)
    (hok : Encodable (n - prev) value.length) :
    ∃ hdr, HdrOf hdr (n - prev) value.length ∧ hdr.length ≤ 5 ∧
      ∀ (s : NEnc) (fuel : Nat), Between s → s.oe.current = UInt16.ofNat prev → hdr.length + value.length < s.room →
        s.room + 6 ≤ fuel →
        ∃ oe, oe.st = .optionDone ∧ oe.current = UInt16.ofNat n ∧ s.option fuel (UInt16.ofNat n) value =
          .ok (⟨oe, s.out ++ (hdr ++ value), s.room - (hdr ++ value).length, s.marker⟩, true) := by
  obtain ⟨hdr, h1, h2, h3⟩ := encodable_emits prev n value.length hn hn2 hl hok
  refine ⟨hdr, h1, h2, fun s fuel hs hcur hroom hf => ?_⟩
  obtain ⟨q, q1, q2⟩ := h3 s.oe.pos
  obtain ⟨p, p1, p2, p3⟩ := nrun_of_emits q2 s.room (by omega) (Or.inl trivial)
  have ho := between_next hs
  rw [hcur] at ho
  have e1 := optionHeader_run ho (Or.inl (Or.inl trivial)) p3 fuel hf
  simp only at p1
  rw [p1, beq_self_eq_true] at e1
  refine ⟨p.fastForward, rfl, by simp only [fastForward]; rw [p2, q1], ?_⟩
  rw [NEnc.option, e1]
  have hr : value.length ≤ s.room - hdr.length := by omega
  simp only [NEnc.optionValue, NEnc.write, Nat.min_eq_right hr, beq_self_eq_true, if_true, List.take_of_length_le hr]
  simp only [List.append_assoc, List.length_append, Nat.sub_sub]

theorem netbuf_opts (prev : Nat) (os : List Opt) (hok : OptsOk prev os) (he : OptsEncodable prev os) :
    ∃ ob, IsOpts prev os ob ∧ ob.length ≤ optsRoom os ∧
      ∀ (s : NEnc) (fuel : Nat), Between s → s.oe.current = UInt16.ofNat prev → ob.length < s.room → s.room + 6 ≤ fuel →
        ∃ oe, Between ⟨oe, [], 0, false⟩ ∧
          writeOptsN fuel s os = .ok (⟨oe, s.out ++ ob, s.room - ob.length, s.marker⟩, true) := by
  induction os generalizing prev with
  | nil => exact ⟨[], .nil, by simp [optsRoom], fun s fuel hs _ _ _ => ⟨s.oe, hs, by simp [writeOptsN]⟩⟩
  | cons o os ih =>
    obtain ⟨h1, h2, h3, h4⟩ := hok
    obtain ⟨e1, e2⟩ := he
    obtain ⟨hdr, g1, g2, g3⟩ := netbuf_option prev o.number o.value h1 h2 h3 e1
    obtain ⟨ob, k1, k2, k3⟩ := ih o.number h4 e2
    refine ⟨hdr ++ o.value ++ ob, .cons h1 h2 h3 g1 k1, ?_, fun s fuel hs hcur hroom hf => ?_⟩
    · simp only [optsRoom, List.map_cons, List.sum_cons, List.length_append] at k2 ⊢; omega
    · simp only [List.length_append] at hroom
      obtain ⟨oe, f0, f1, f2⟩ := g3 s fuel hs hcur (by omega) hf
      obtain ⟨oe', f3, f4⟩ := k3 ⟨oe, s.out ++ (hdr ++ o.value), s.room - (hdr ++ o.value).length, s.marker⟩ fuel
        (Or.inr f0) f1 (by simp only [List.length_append]; omega) (by simp only; omega)
      refine ⟨oe', f3, ?_⟩
      rw [writeOptsN, f2]; simp only; rw [f4]
      simp only [List.append_assoc, List.length_append, Nat.sub_sub, Nat.add_assoc]

/-- C25 (partial: options are written through `option(number, value)`, whose value may be empty, and are
encodable in the sense of C20): every sequence of options with non-decreasing numbers comes out as an
encoding of exactly these options, in order. -/
theorem options_encoded_partial (os : List Opt) (hok : OptsOk 0 os) (he : OptsEncodable 0 os) :
    ∃ ob, IsOpts 0 os ob ∧ ob.length ≤ optsRoom os ∧ ∀ room fuel, ob.length < room → room + 6 ≤ fuel →
      ∃ s', writeOptsN fuel (NEnc.init room) os = .ok (s', true) ∧ s'.out = ob := by
  obtain ⟨ob, h1, h2, h3⟩ := netbuf_opts 0 os hok he
  refine ⟨ob, h1, h2, fun room fuel hr hf => ?_⟩
  obtain ⟨oe, -, e⟩ := h3 (NEnc.init room) fuel (Or.inl rfl) rfl hr hf
  exact ⟨_, e, by simp [NEnc.init]⟩

example : OptsOk 0 streamSample.opts ∧ OptsEncodable 0 streamSample.opts := by decide
example : ((writeOptsN 100 (NEnc.init 50) [⟨11, [0x61]⟩, ⟨11, []⟩, ⟨60, [7]⟩]).toOption.map (·.1.out)) =
    some [0xB1, 0x61, 0x00, 0xD1, 36, 7] := by decide +kernel

/-- Writing a whole message through the buffer encoder. -/
def writeMsgN (fuel : Nat) (s : NEnc) (h : Header) (token : List UInt8) (opts : List Opt) (payload : Option (List UInt8)) :
    Except Fault (NEnc × Bool) :=
  match s.header h with
  | (s, false) => .ok (s, false)
  | (s, true) =>
    match s.token token with
    | (s, false) => .ok (s, false)
    | (s, true) =>
      match writeOptsN fuel s opts with
      | .error e => .error e
      | .ok (s, false) => .ok (s, false)
      | .ok (s, true) => match payload with | none => .ok (s, true) | some p => .ok (s.payload p)

theorem write_fits (s : NEnc) (bs : List UInt8) (h : bs.length ≤ s.room) :
    s.write bs = ({ s with out := s.out ++ bs, room := s.room - bs.length }, bs.length) := by
  simp only [NEnc.write, List.take_of_length_le h, Nat.min_eq_right h]

/-- C22 and C25 for the buffer encoder (partial as `stream_round_trip_partial`): a message written into a
buffer with at least one byte to spare decodes to the same header, token, options and payload. -/
theorem netbuf_round_trip_partial (m : Msg) (hm : m.Ok) (he : OptsEncodable 0 m.opts) (h : Header)
    (hh : fields h.b0 h.b1 h.b2 h.b3 = ⟨m.version, m.type, m.token.length, m.code, m.mid⟩) :
    ∃ w, w.length ≤ 5 + m.token.length + optsRoom m.opts + (m.payload.getD []).length ∧
      (∀ room fuel, w.length < room → room + 6 ≤ fuel →
        ∃ s', writeMsgN fuel (NEnc.init room) h m.token m.opts m.payload = .ok (s', true) ∧ s'.out = w) ∧
      ∀ junk : Dec, junk.tbuf.length = 8 →
        (junk.opt.st ≠ .payload ∨ m.token ≠ [] ∨ m.opts ≠ [] ∨ m.payload ≠ none) →
        ∃ N d', d'.st = .done ∧ ∀ fuel, N ≤ fuel →
          Dec.processToDone fuel (Dec.fresh junk) ⟨w, 0, true⟩ = .ok (d', ⟨w, w.length, true⟩, delivery m) := by
  obtain ⟨ob, k1, k2, k3⟩ := netbuf_opts 0 m.opts hm.2.2.2.2.2.1 he
  have hhb := header_bytes m hm h hh
  refine ⟨wire m ob, ?_, fun room fuel hroom hf => ?_, fun junk hj hst => ?_⟩
  · simp only [wire, encHeader, List.length_append, List.length_cons, List.length_nil]
    cases m.payload <;> simp [encPayload] <;> omega
  · simp only [wire, List.length_append] at hroom
    have hl4 : (encHeader m).length = 4 := rfl
    have hh1 : (NEnc.init room).header h = (⟨OptEnc.init, encHeader m, room - 4, false⟩, true) := by
      rw [NEnc.header, hhb, if_pos (by simp [NEnc.init]; omega), write_fits _ _ (by simp [NEnc.init]; omega)]; simp [NEnc.init, hl4]
    have hh2 : NEnc.token ⟨OptEnc.init, encHeader m, room - 4, false⟩ m.token =
        (⟨OptEnc.init, encHeader m ++ m.token, room - 4 - m.token.length, false⟩, true) := by
      rw [NEnc.token, write_fits _ _ (by simp only; omega)]; simp
    obtain ⟨oe, -, hw⟩ := k3 ⟨OptEnc.init, encHeader m ++ m.token, room - 4 - m.token.length, false⟩ fuel
      (Or.inl rfl) rfl (by simp only; omega) (by simp only; omega)
    rw [writeMsgN, hh1]; simp only; rw [hh2]; simp only; rw [hw]
    simp only
    cases hp : m.payload with
    | none => exact ⟨_, rfl, by simp [wire, encPayload, hp]⟩
    | some p =>
      simp only [hp, encPayload, List.length_cons] at hroom
      simp only [NEnc.payload, payloadHeader, Bool.not_false, if_true]
      rw [if_neg (by simp; omega)]
      simp only
      rw [write_fits _ _ (by simp only; omega)]
      rw [beq_self_eq_true]
      exact ⟨_, rfl, by simp [wire, encPayload, hp]⟩
  · obtain ⟨N, d', -, h1, h2⟩ := wire_delivered_partial m hm ob k1 junk hj hst
    exact ⟨N, d', h1, h2⟩

/-- After an option without value (`option(number)`), the option encoder is left in the state
`OptionValueDone`. -/
theorem after_empty_option (prev n : Nat) (hn : prev ≤ n) (hn2 : n < 65536) (hd : n - prev < 65266) (s : NEnc)
    (hs : Between s) (hcur : s.oe.current = UInt16.ofNat prev) (hroom : 5 < s.room) (fuel : Nat) (hf : s.room + 6 ≤ fuel) :
    ∃ s', s.optionEmpty fuel (UInt16.ofNat n) = .ok (s', true) ∧ s'.oe.st = .optionValueDone ∧ 0 < s'.room := by
  obtain ⟨hdr, h1, h2, h3⟩ := encodable_emits prev n 0 hn hn2 (by omega) ⟨hd, Or.inl (by omega)⟩
  obtain ⟨q, q1, q2⟩ := h3 s.oe.pos
  obtain ⟨p, p1, p2, p3⟩ := nrun_of_emits q2 s.room (by omega) (Or.inl trivial)
  have ho := between_next hs
  rw [hcur] at ho
  have e1 := optionHeader_run ho (Or.inl (Or.inl trivial)) p3 fuel hf
  simp only at p1
  rw [p1, beq_self_eq_true] at e1
  exact ⟨_, e1, p1, by simp only; omega⟩

/-- C25 fails: the option written after an option without value is lost if it has no value either; success
is reported. -/
theorem empty_option_lost (s : NEnc) (h : s.oe.st = .optionValueDone) (number : UInt16) (fuel : Nat) (hf : 0 < fuel) :
    s.optionEmpty fuel number = .ok (s, true) := by
  obtain ⟨f, rfl⟩ : ∃ g, fuel = g + 1 := ⟨fuel - 1, by omega⟩
  simp [optionEmpty, optionHeader, h, doneState, headerLoop]

/-- C25 fails: if the option written after an option without value has a value, the call never returns. -/
theorem option_after_empty_hangs (s : NEnc) (h : s.oe.st = .optionValueDone) (hroom : 0 < s.room) (number : UInt16)
    (value : List UInt8) (hv : value ≠ []) (hl : value.length < 65536) (fuel : Nat) :
    s.option fuel number value = .error .outOfFuel := by
  have hp : 0 < value.length := List.length_pos_iff.mpr hv
  have hd : doneState (UInt16.ofNat value.length) = .optionValue := by
    unfold doneState; rw [if_pos]
    rw [gt_iff_lt, UInt16.lt_iff_toNat_lt]; simp; omega
  have stuck : ∀ base f (o : OptEnc) acc, o.st = .optionDone → headerLoop base .optionValue f o s.room acc = .error .outOfFuel := by
    intro base f
    induction f with
    | zero => intros; rfl
    | succ f ih => intro o acc ho; simp [headerLoop, ho, hroom, generate, ih]
  have : headerLoop ⟨number, UInt16.ofNat value.length, []⟩ .optionValue fuel s.oe s.room [] = .error .outOfFuel := by
    cases fuel with
    | zero => rfl
    | succ f => simp [headerLoop, h, hroom, generate, stuck]
  simp [NEnc.option, optionHeader, h, hd, this]

-- the state does occur: `If-None-Match` (5, no value) on a fresh encoder
example : ∃ s', (NEnc.init 20).optionEmpty 50 5 = .ok (s', true) ∧ s'.oe.st = .optionValueDone ∧ 0 < s'.room :=
  after_empty_option 0 5 (by omega) (by omega) (by omega) (NEnc.init 20) (Or.inl rfl) rfl (by decide) 50 (by decide)

/-- With exactly the room for its header, an option is written completely and yet reported as not finished. -/
theorem exact_room_reported_unfinished : ∃ s', (NEnc.init 1).optionEmpty 50 5 = .ok (s', false) ∧
    s'.out = optHeader 5 0 := by
  exact ⟨⟨⟨.firstByteDone, 0, 0⟩, [0x50], 0, false⟩, by decide +kernel, by decide⟩

/-- Continue in the current buffer (`none`) or in a new one of the given size. -/
def inBuffer (s : NEnc) : Option Nat → NEnc
  | none => s
  | some n => s.refill n

/-- A sequence of payload writes, each in its own buffer or continuing in the current one (`none`). -/
def writePayloads : NEnc → List (Option Nat × List UInt8) → NEnc
  | s, [] => s
  | s, (r, bs) :: ps => writePayloads ((inBuffer s r).payload bs).1 ps

/-- The pieces `ps` are prefixes of the data given. -/
inductive Pieces : List (List UInt8) → List (List UInt8) → Prop
  | nil : Pieces [] []
  | cons {p d ps ds} : p <+: d → Pieces ps ds → Pieces (p :: ps) (d :: ds)

theorem payload_once (s : NEnc) (bs : List UInt8) :
    ∃ p, p <+: bs ∧ (s.payload bs).1.out = s.out ++ (if s.marker || s.room == 0 then [] else [0xFF]) ++ p ∧
      (s.payload bs).1.marker = (s.marker || s.room != 0) ∧
      ((s.payload bs).1.marker = false → p = []) ∧
      ((s.payload bs).2 = true → p = bs) := by
  unfold NEnc.payload payloadHeader
  cases hm : s.marker with
  | true =>
    refine ⟨bs.take s.room, List.take_prefix _ _, by simp [NEnc.write], by simp [NEnc.write, hm], by simp [NEnc.write, hm], ?_⟩
    intro h; simp [NEnc.write] at h; exact List.take_of_length_le (by omega)
  | false =>
    by_cases hr : s.room = 0
    · exact ⟨[], List.nil_prefix, by simp [hr], by simp [hr, hm], by simp, by simp [hr]⟩
    · refine ⟨bs.take (s.room - 1), List.take_prefix _ _, by simp [hr, NEnc.write], by simp [hr, NEnc.write],
        by simp [hr, NEnc.write], ?_⟩
      intro h; simp [NEnc.write, hr] at h; exact List.take_of_length_le (by omega)

/-- C26: over any sequence of payload writes and buffer sizes, the bytes added are one marker followed by
pieces of the data in order — or nothing at all if no byte of room was ever available — and no marker once
one has been written. -/
theorem payload_marker_once (ws : List (Option Nat × List UInt8)) (s : NEnc) :
    ∃ ps, Pieces ps (ws.map (·.2)) ∧
      (writePayloads s ws).out = s.out ++
        (if s.marker || !(writePayloads s ws).marker then [] else [0xFF]) ++ ps.flatten ∧
      ((writePayloads s ws).marker = false → ps.flatten = []) ∧
      (s.marker = true → (writePayloads s ws).marker = true) := by
  induction ws generalizing s with
  | nil => exact ⟨[], .nil, by cases h : s.marker <;> simp [writePayloads, h], by simp, id⟩
  | cons w ws ih =>
    obtain ⟨r, bs⟩ := w
    obtain ⟨s0, hs⟩ : ∃ s0, inBuffer s r = s0 := ⟨_, rfl⟩
    simp only [writePayloads, hs]
    have h0 : s0.out = s.out ∧ s0.marker = s.marker := by rw [← hs]; cases r <;> simp [inBuffer, refill]
    obtain ⟨p, p1, p2, p3, p4, -⟩ := payload_once s0 bs
    obtain ⟨ps, g1, g2, g3, g4⟩ := ih (s0.payload bs).1
    refine ⟨p :: ps, .cons p1 g1, ?_, ?_, ?_⟩
    · rw [g2, p2, h0.1, ← h0.2]
      rw [p3] at p4 g4 ⊢
      cases hm : s0.marker with
      | true => simp [hm] at g4 ⊢
      | false =>
        by_cases hr : s0.room = 0
        · have : p = [] := p4 (by simp [hm, hr])
          simp [hr, this]
        · simp [hr, hm] at g4 ⊢; simp [g4]
    · intro h
      have hm1 : (s0.payload bs).1.marker = false := by
        cases hx : (s0.payload bs).1.marker with
        | false => rfl
        | true => rw [g4 hx] at h; exact absurd h (by simp)
      simp [p4 hm1]; simpa using g3 h
    · intro h
      exact g4 (by rw [p3, h0.2, h]; rfl)

-- no room, then one byte (only the marker fits), then more
example : (writePayloads (NEnc.init 0) [(none, [1]), (some 1, [2]), (some 2, [3, 4, 5]), (some 9, [6])]).out =
    [0xFF, 3, 4, 6] := by decide

end Verif.Props
