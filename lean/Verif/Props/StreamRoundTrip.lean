import Verif.Props.OptionEncoder
import Verif.Props.DecoderMessage

/-! # Encoding a message with the stream encoder and decoding it again (C22) -/
namespace Verif.Props
open Verif.Model OptEnc SEnc Spec Proofs

/-- A user of the stream encoder writing options one after the other, giving up at the first failure. -/
def writeOpts : SEnc → List Opt → Except Fault (SEnc × Bool)
  | s, [] => .ok (s, true)
  | s, o :: os =>
    match s.option (UInt16.ofNat o.number) o.value with
    | .error e => .error e
    | .ok (s, false) => .ok (s, false)
    | .ok (s, true) => writeOpts s os

/-- Writing the payload: the marker, then the bytes through the stream buffer. -/
def writePayload (s : SEnc) : Option (List UInt8) → SEnc
  | none => s
  | some p => (s.payloadMarker.1.putn p).1

/-- Writing a whole message. -/
def writeMsg (s : SEnc) (h : Header) (token : List UInt8) (opts : List Opt) (payload : Option (List UInt8)) :
    Except Fault (SEnc × Bool) :=
  match writeOpts ((s.header h).token token) opts with
  | .error e => .error e
  | .ok (s, false) => .ok (s, false)
  | .ok (s, true) => .ok (writePayload s payload, true)

/-- Deltas and lengths whose option header this library's decoder reads back. -/
def Encodable (delta len : Nat) : Prop :=
  delta < 65266 ∧
  (len < 13 ∨ delta < 13 ∧ (len = 26 ∨
    269 ≤ len ∧ len < 65266 ∧ (len - 269) / 256 ≠ 13 ∧ ((len - 269) % 256 = 13 ∨ (len - 269) % 256 = 14)))

instance (d l : Nat) : Decidable (Encodable d l) := by unfold Encodable; infer_instance

/-- All options are encodable one after the other. -/
def OptsEncodable (prev : Nat) : List Opt → Prop
  | [] => True
  | o :: os => Encodable (o.number - prev) o.value.length ∧ OptsEncodable o.number os

instance : (prev : Nat) → (os : List Opt) → Decidable (OptsEncodable prev os)
  | _, [] => isTrue trivial
  | _, o :: os =>
    have : Decidable (OptsEncodable o.number os) := instDecidableOptsEncodable o.number os
    inferInstanceAs (Decidable (_ ∧ _))

theorem reads_codeExt (v : UInt16) (h : v.toNat < 65266) : Reads (helper v 0).toNat (codeExt v) v.toNat := by
  intro t
  have vlt := u16_lt v
  unfold codeExt
  by_cases c1 : v.toNat < 13
  · exact ⟨v.toNat, by simp [c1, readExt, helper_lit c1], by omega⟩
  · by_cases c2 : v.toNat < 242
    · obtain ⟨k0, k1, -⟩ := helper_8 (by omega) c2
      refine ⟨v.toNat, ?_, by omega⟩
      simp [c1, c2, readExt, k0, k1]; omega
    · obtain ⟨k0, k1, k2, -⟩ := helper_16 (v := v) (by omega) h
      refine ⟨269 + 256 * ((v.toNat + 65267) % 65536 / 256) + (v.toNat + 65267) % 256, ?_, by omega⟩
      simp [c1, c2, readExt, k0, k1, k2]

/-- An encodable option header is written in a form the decoder reads back. -/
theorem encodable_header (prev n len : Nat) (hn : prev ≤ n) (hn2 : n < 65536) (hl : len < 65536)
    (hok : Encodable (n - prev) len) :
    ∃ hdr, HdrOf hdr (n - prev) len ∧ hdr.length ≤ 5 ∧
      ∀ s : SEnc, s.oe.current = UInt16.ofNat prev → s.out.length + hdr.length ≤ s.cap →
        ∃ oe, oe.current = UInt16.ofNat n ∧ s.optionHeader (UInt16.ofNat n) (UInt16.ofNat len) =
          .ok (⟨oe, s.out ++ hdr, s.cap⟩, true) := by
  obtain ⟨hd, hl2⟩ := hok
  by_cases cl : len < 13
  · have hv := sub_ofNat hn hn2
    generalize hvv : UInt16.ofNat n - UInt16.ofNat prev = v at hv
    generalize hll : UInt16.ofNat len = l
    have hln : l.toNat = len := by rw [← hll]; simp; omega
    have hw16 : (helper v 0).toNat ≤ 14 := by
      by_cases c1 : v.toNat < 13
      · rw [helper_lit c1]; omega
      · by_cases c2 : v.toNat < 242
        · rw [(helper_8 (by omega) c2).1]; decide
        · rw [(helper_16 (v := v) (by omega) (by omega)).1]; decide
    have hl0 : (helper l 0).toNat = len := by rw [helper_lit (by omega), hln]
    have hc := comb (helper v 0) (helper l 0) (by omega) (by omega)
    have hlen : (codeExt v).length ≤ 2 := by unfold codeExt; (repeat' split) <;> simp
    refine ⟨(helper l 0 ||| (helper v 0 <<< 4)) :: codeExt v, ?_, ?_, ?_⟩
    · refine ⟨_, codeExt v, [], by rw [List.append_nil], ?_, ?_, ?_⟩
      · intro h; rw [h] at hc; simp at hc; omega
      · rw [hc, hl0, show (16 * (helper v 0).toNat + len) / 16 = (helper v 0).toNat by omega, ← hv]
        exact reads_codeExt v (by omega)
      · rw [hc, hl0, show (16 * (helper v 0).toNat + len) % 16 = len by omega]
        intro t; exact ⟨len, by simp [readExt, cl], by omega⟩
    · simp only [List.length_cons]; omega
    · intro s hcur hroom
      obtain ⟨⟨st, cur, pos⟩, out, cap⟩ := s
      simp only at hcur hroom; subst hcur
      obtain ⟨q, he⟩ := short_emits ⟨UInt16.ofNat n, l, []⟩ (UInt16.ofNat prev) pos (by simp only [hvv]; omega)
        (by simp only [hln]; exact cl)
      simp only [hvv] at he
      refine ⟨⟨.optionLengthDone, UInt16.ofNat n, q⟩, rfl, ?_⟩
      exact loop_of_emits he _ out cap trivial hroom (by simp only [fuelFor, room, erank]; omega)
  · have h := hl2.resolve_left cl
    have hh : HeaderOk (n - prev) len := ⟨by omega, Or.inr h⟩
    refine ⟨optHeader (n - prev) len, hdrOf_optHeader _ _ (by omega) hl, optHeader_length _ _, fun s hcur hroom => ?_⟩
    exact option_header_exact_partial prev n len hn hn2 hl hh s hcur hroom

/-- Room that certainly suffices for some options. -/
def optsRoom (os : List Opt) : Nat := (os.map fun o => 5 + o.value.length).sum

theorem putn_fits (s : SEnc) (bs : List UInt8) (h : s.out.length + bs.length ≤ s.cap) :
    s.putn bs = ({ s with out := s.out ++ bs }, bs.length) := by
  have hr : bs.length ≤ s.room := by unfold room; omega
  simp only [putn, List.take_of_length_le hr, Nat.min_eq_right hr]

theorem option_written (prev n : Nat) (value : List UInt8) (hn : prev ≤ n) (hn2 : n < 65536) (hl : value.length < 65536)
    (hok : Encodable (n - prev) value.length) :
    ∃ hdr, HdrOf hdr (n - prev) value.length ∧ hdr.length ≤ 5 ∧
      ∀ s : SEnc, s.oe.current = UInt16.ofNat prev → s.out.length + hdr.length + value.length ≤ s.cap →
        ∃ oe, oe.current = UInt16.ofNat n ∧ s.option (UInt16.ofNat n) value =
          .ok (⟨oe, s.out ++ (hdr ++ value), s.cap⟩, true) := by
  obtain ⟨hdr, h1, h2, h3⟩ := encodable_header prev n value.length hn hn2 hl hok
  refine ⟨hdr, h1, h2, fun s hcur hroom => ?_⟩
  obtain ⟨oe, e1, e2⟩ := h3 s hcur (by omega)
  refine ⟨oe, e1, ?_⟩
  rw [SEnc.option, e2]
  simp only
  rw [putn_fits _ _ (by simp only [List.length_append]; omega)]
  simp

theorem opts_written (prev : Nat) (os : List Opt) (hok : OptsOk prev os) (he : OptsEncodable prev os) :
    ∃ ob, IsOpts prev os ob ∧ ob.length ≤ optsRoom os ∧
      ∀ s : SEnc, s.oe.current = UInt16.ofNat prev → s.out.length + ob.length ≤ s.cap →
        ∃ oe, writeOpts s os = .ok (⟨oe, s.out ++ ob, s.cap⟩, true) := by
  induction os generalizing prev with
  | nil => exact ⟨[], .nil, by simp [optsRoom], fun s _ _ => ⟨s.oe, by simp [writeOpts]⟩⟩
  | cons o os ih =>
    obtain ⟨h1, h2, h3, h4⟩ := hok
    obtain ⟨e1, e2⟩ := he
    obtain ⟨hdr, g1, g2, g3⟩ := option_written prev o.number o.value h1 h2 h3 e1
    obtain ⟨ob, k1, k2, k3⟩ := ih o.number h4 e2
    refine ⟨hdr ++ o.value ++ ob, .cons h1 h2 h3 g1 k1, ?_, fun s hcur hroom => ?_⟩
    · simp only [optsRoom, List.map_cons, List.sum_cons, List.length_append] at k2 ⊢; omega
    · simp only [List.length_append] at hroom
      obtain ⟨oe, f1, f2⟩ := g3 s hcur (by omega)
      obtain ⟨oe', f3⟩ := k3 ⟨oe, s.out ++ (hdr ++ o.value), s.cap⟩ f1 (by simp only [List.length_append]; omega)
      refine ⟨oe', ?_⟩
      rw [writeOpts, f2]; simp only; rw [f3]; simp

theorem header_bytes (m : Msg) (hm : m.Ok) (h : Header)
    (hh : fields h.b0 h.b1 h.b2 h.b3 = ⟨m.version, m.type, m.token.length, m.code, m.mid⟩) :
    [h.b0, h.b1, h.b2, h.b3] = encHeader m := by
  obtain ⟨h1, h2, h3, h4, h5, -⟩ := hm
  obtain ⟨b0, b1, b2, b3⟩ := h
  simp only [fields, Fields.mk.injEq] at hh
  obtain ⟨f1, f2, f3, f4, f5⟩ := hh
  have := u8_lt b0; have := u8_lt b1; have := u8_lt b2; have := u8_lt b3
  simp only [encHeader, List.cons.injEq, and_true]
  refine ⟨?_, ?_, ?_, ?_⟩ <;> apply UInt8.toNat_inj.1 <;> simp <;> omega

/-- C22 (partial: option lengths of 13 and more are excluded except the few of `Encodable`, as are deltas of
65266 and more): a message written through the stream encoder into a large enough buffer decodes to the
same header, token, options and payload, whatever the uninitialised members of the decoder hold. -/
theorem stream_round_trip_partial (m : Msg) (hm : m.Ok) (he : OptsEncodable 0 m.opts) (h : Header)
    (hh : fields h.b0 h.b1 h.b2 h.b3 = ⟨m.version, m.type, m.token.length, m.code, m.mid⟩) :
    ∃ w, w.length ≤ 5 + m.token.length + optsRoom m.opts + (m.payload.getD []).length ∧
      (∀ cap, w.length ≤ cap → ∃ s', writeMsg (SEnc.init cap) h m.token m.opts m.payload = .ok (s', true) ∧ s'.out = w) ∧
      ∀ junk : Dec, junk.tbuf.length = 8 →
        (junk.opt.st ≠ .payload ∨ m.token ≠ [] ∨ m.opts ≠ [] ∨ m.payload ≠ none) →
        ∃ N d', d'.st = .done ∧ ∀ fuel, N ≤ fuel →
          Dec.processToDone fuel (Dec.fresh junk) ⟨w, 0, true⟩ = .ok (d', ⟨w, w.length, true⟩, delivery m) := by
  obtain ⟨ob, k1, k2, k3⟩ := opts_written 0 m.opts hm.2.2.2.2.2.1 he
  have hhb := header_bytes m hm h hh
  refine ⟨wire m ob, ?_, fun cap hcap => ?_, fun junk hj hst => ?_⟩
  · simp only [wire, encHeader, List.length_append, List.length_cons, List.length_nil]
    cases m.payload <;> simp [encPayload] <;> omega
  · simp only [wire, List.length_append] at hcap
    have hl4 : (encHeader m).length = 4 := rfl
    have hh1 : (SEnc.init cap).header h = ⟨OptEnc.init, encHeader m, cap⟩ := by
      rw [SEnc.header, hhb, putn_fits _ _ (by simp [SEnc.init]; omega)]; simp [SEnc.init]
    have hh2 : SEnc.token ⟨OptEnc.init, encHeader m, cap⟩ m.token = ⟨OptEnc.init, encHeader m ++ m.token, cap⟩ := by
      rw [SEnc.token, putn_fits _ _ (by simp only; omega)]
    obtain ⟨oe, hw⟩ := k3 ⟨OptEnc.init, encHeader m ++ m.token, cap⟩ rfl (by simp only [List.length_append]; omega)
    rw [writeMsg, hh1, hh2, hw]
    simp only
    refine ⟨_, rfl, ?_⟩
    cases hp : m.payload with
    | none => simp [writePayload, wire, encPayload, hp]
    | some p =>
      simp only [hp, encPayload, List.length_cons] at hcap
      simp only [writePayload, payloadMarker, putc]
      rw [if_pos (by simp only [List.length_append]; omega)]
      rw [putn_fits _ _ (by simp only [List.length_append, List.length_singleton]; omega)]
      simp [wire, hp, encPayload]
  · obtain ⟨N, d', -, h1, h2⟩ := wire_delivered_partial m hm ob k1 junk hj hst
    exact ⟨N, d', h1, h2⟩

/-- A message with a token, an ext8, a 242..268 and an ext16 delta, and a payload. -/
def streamSample : Msg :=
  { version := 1, type := 0, code := 1, mid := 0x1234, token := [0xAA, 0xFF],
    opts := [⟨11, [0x61]⟩, ⟨11, []⟩, ⟨60, List.replicate 12 7⟩, ⟨310, [1]⟩, ⟨4000, [1, 2]⟩], payload := some [0xFF, 9] }

example : streamSample.Ok ∧ OptsEncodable 0 streamSample.opts ∧
    fields 0x42 1 0x12 0x34 = ⟨1, 0, streamSample.token.length, 1, 0x1234⟩ := by decide

/-- An everyday request: GET with one Uri-Path of 13 characters. -/
def longPathMsg : Msg := ⟨1, 0, 1, 1, [], [⟨11, List.replicate 13 0x61⟩], none⟩

/-- C22 fails in general: a message with a 13-byte option value is written, success is reported, and it
decodes to another option value and a payload that was never written. -/
theorem stream_round_trip_fails : longPathMsg.Ok ∧ fields 0x40 1 0 1 = ⟨1, 0, longPathMsg.token.length, 1, 1⟩ ∧
    ∃ s', writeMsg (SEnc.init 1000) ⟨0x40, 1, 0, 1⟩ longPathMsg.token longPathMsg.opts longPathMsg.payload = .ok (s', true) ∧
    ((Dec.processToDone 400 (Dec.fresh Dec.zero) ⟨s'.out, 0, true⟩).toOption.map (·.2.2)) =
      some [.header ⟨0x40, 1, 0, 1⟩, .token [], .optionStart, .option 11 (List.replicate 13 0xFF) true,
        .optionsCompleted, .payload (List.replicate 240 0xFF ++ [13] ++ List.replicate 13 0x61) true, .completed] := by
  refine ⟨by decide, by decide, ⟨⟨.optionLengthDone, 11, 0⟩, [0x40, 1, 0, 1, 0xBD, 0] ++ List.replicate 254 0xFF ++ [13] ++
    List.replicate 13 0x61, 1000⟩, by decide +kernel, by decide +kernel⟩

/-- An option value that does not fit is cut silently: `option` reports success although only a part of the
value was written (the comment in the source says so too). -/
theorem option_value_cut_unreported (s : SEnc) (number : UInt16) (value : List UInt8) (s1 : SEnc)
    (h : s.optionHeader number (UInt16.ofNat value.length) = .ok (s1, true)) (hfit : s1.out.length ≤ s1.cap)
    (hroom : s1.cap < s1.out.length + value.length) :
    ∃ s', s.option number value = .ok (s', true) ∧ s'.out.length < s1.out.length + value.length := by
  refine ⟨_, by rw [SEnc.option, h], ?_⟩
  simp only [putn, room, List.length_append, List.length_take]
  omega

example : (SEnc.init 3).option 11 [1, 2, 3, 4] = .ok (⟨⟨.optionLengthDone, 11, 0⟩, [0xB4, 1, 2], 3⟩, true) := by
  decide +kernel

end Verif.Props
