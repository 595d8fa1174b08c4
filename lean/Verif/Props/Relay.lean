import Verif.Spec.Relay
import Verif.Spec.Network
import Verif.Props.ReadBack
import Verif.Props.Header
import Verif.Props.StreamExtent

/-! # C101: relays -/
namespace Verif.Props
open Verif.Model Verif.Spec Verif.Proofs

/-- What the stream encoder makes of a message whose options it can write: one encoding of the message, whatever the room. -/
theorem stream_wire (m : Msg) (hm : m.Ok) (he : OptsEncodable 0 m.opts) :
    ∃ ob, IsOpts 0 m.opts ob ∧ (wire m ob).length ≤ 5 + m.token.length + optsRoom m.opts + (m.payload.getD []).length ∧
      ∀ h : Header, fields h.b0 h.b1 h.b2 h.b3 = ⟨m.version, m.type, m.token.length, m.code, m.mid⟩ →
        ∀ cap, (wire m ob).length ≤ cap → ∃ s', writeMsg (SEnc.init cap) h m.token m.opts m.payload = .ok (s', true) ∧ s'.out = wire m ob := by
  obtain ⟨ob, k1, k2, k3⟩ := opts_written 0 m.opts hm.2.2.2.2.2.1 he
  refine ⟨ob, k1, ?_, fun h hh cap hcap => ?_⟩
  · simp only [wire, encHeader, List.length_append, List.length_cons, List.length_nil]
    cases m.payload <;> simp [encPayload] <;> omega
  · have hhb := header_bytes m hm h hh
    simp only [wire, List.length_append] at hcap
    have hl4 : (encHeader m).length = 4 := rfl
    have hh1 : (SEnc.init cap).header h = ⟨OptEnc.init, encHeader m, cap⟩ := by
      rw [SEnc.header, hhb, putn_fits _ _ (by simp [SEnc.init]; omega)]; simp [SEnc.init]
    have hh2 : SEnc.token ⟨OptEnc.init, encHeader m, cap⟩ m.token = ⟨OptEnc.init, encHeader m ++ m.token, cap⟩ := by
      rw [SEnc.token, putn_fits _ _ (by simp only; omega)]
    obtain ⟨oe, hw⟩ := k3 ⟨OptEnc.init, encHeader m ++ m.token, cap⟩ rfl (by simp only [List.length_append]; omega)
    rw [writeMsg, hh1, hh2, hw]
    simp only
    refine ⟨_, rfl, ?_⟩
    cases hp : m.payload with
    | none => simp [writePayload, wire, encPayload, hp]
    | some p =>
      simp only [hp, encPayload, List.length_cons] at hcap
      simp only [writePayload, SEnc.payloadMarker, SEnc.putc]
      rw [if_pos (by simp only [List.length_append]; omega)]
      rw [putn_fits _ _ (by simp only [List.length_append, List.length_singleton]; omega)]
      simp [wire, hp, encPayload]

/-- The header that a relay writes. -/
theorem relay_header (m : Msg) (hm : m.Ok) (h : Header) (es : List Event) (hr : readBack (.header h :: es) = some m) :
    fields (h.setTokenLength (UInt8.ofNat m.token.length)).b0 (h.setTokenLength (UInt8.ofNat m.token.length)).b1
      (h.setTokenLength (UInt8.ofNat m.token.length)).b2 (h.setTokenLength (UInt8.ofNat m.token.length)).b3 =
      ⟨m.version, m.type, m.token.length, m.code, m.mid⟩ := by
  have ht : m.token.length ≤ 8 := hm.2.2.2.2.1
  have hn : (UInt8.ofNat m.token.length).toNat = m.token.length := by rw [UInt8.toNat_ofNat']; omega
  have key := header_set_token_length h (UInt8.ofNat m.token.length) (by omega)
  simp only [hfields] at key
  rw [key, hn]
  unfold readBack at hr
  split at hr
  · rename_i h' t es' heq
    simp only [List.cons.injEq, Event.header.injEq] at heq
    obtain ⟨rfl, -⟩ := heq
    simp only [Option.map_eq_some_iff] at hr
    obtain ⟨p, -, rfl⟩ := hr
    rfl
  · cases hr

/-- What a relay does with an encoding of a message: it hands the message to the encoder, whatever its memory held. -/
theorem relay_writes (m : Msg) (hm : m.Ok) (ob : List UInt8) (hob : IsOpts 0 m.opts ob) (cap fuel : Nat) (junk : Dec) (hj : junk.tbuf.length = 8)
    (hf : 11 * (wire m ob).length + 7 ≤ fuel) :
    ∃ h : Header, fields h.b0 h.b1 h.b2 h.b3 = ⟨m.version, m.type, m.token.length, m.code, m.mid⟩ ∧
      relay cap fuel junk (wire m ob) =
        match writeMsg (SEnc.init cap) h m.token m.opts m.payload with
        | .ok (s, true) => some s.out
        | _ => none := by
  obtain ⟨N, hN, hrun⟩ := message_read_back m hm ob hob (Dec.fresh junk) hj (.inl rfl)
  obtain ⟨d', c, evs, h1, h2⟩ := hrun fuel (by omega)
  obtain ⟨h, es, rfl⟩ : ∃ h es, evs = .header h :: es := by
    unfold readBack at h2
    split at h2
    · exact ⟨_, _, rfl⟩
    · cases h2
  refine ⟨_, relay_header m hm h es h2, ?_⟩
  have h1' : Dec.processToDone fuel (Dec.fresh junk) ⟨wire m ob, 0, true⟩ = .ok (d', c, .header h :: es) := h1
  unfold relay
  rw [h1']
  simp only [h2]
  rfl

/-- C101 (partial: options that the encoder writes rightly, the exact ones of C20): a chain of any number of relays, whatever their memory
held, with room for the message, hands on the message: what comes out is one encoding of it, the same however many relays there are. -/
theorem relays_hand_on_partial (m : Msg) (hm : m.Ok) (ob : List UInt8) (hob : IsOpts 0 m.opts ob) (he : OptsEncodable 0 m.opts) :
    ∃ w, Encodes m w ∧ ∀ rs : List Hop, rs ≠ [] →
      (∀ r ∈ rs, r.junk.tbuf.length = 8 ∧ 5 + m.token.length + optsRoom m.opts + (m.payload.getD []).length ≤ r.cap ∧
        11 * max (wire m ob).length (5 + m.token.length + optsRoom m.opts + (m.payload.getD []).length) + 7 ≤ r.fuel) →
      relays rs (wire m ob) = some w := by
  obtain ⟨ow, k1, k2, k3⟩ := stream_wire m hm he
  refine ⟨wire m ow, ⟨hm, ow, k1, rfl⟩, fun rs hne hrs => ?_⟩
  have one : ∀ (o : List UInt8), IsOpts 0 m.opts o → ∀ r : Hop, r.junk.tbuf.length = 8 →
      5 + m.token.length + optsRoom m.opts + (m.payload.getD []).length ≤ r.cap → 11 * (wire m o).length + 7 ≤ r.fuel →
      relay r.cap r.fuel r.junk (wire m o) = some (wire m ow) := by
    intro o ho r h1 h2 h3
    obtain ⟨h, hh, e⟩ := relay_writes m hm o ho r.cap r.fuel r.junk h1 h3
    obtain ⟨s', e1, e2⟩ := k3 h hh r.cap (by omega)
    rw [e, e1]
    simp only [e2]
  have many : ∀ rs : List Hop, (∀ r ∈ rs, r.junk.tbuf.length = 8 ∧ 5 + m.token.length + optsRoom m.opts + (m.payload.getD []).length ≤ r.cap ∧
      11 * (wire m ow).length + 7 ≤ r.fuel) → relays rs (wire m ow) = some (wire m ow) := by
    intro rs
    induction rs with
    | nil => intro _; rfl
    | cons r rs ih =>
      intro h
      obtain ⟨g1, g2, g3⟩ := h r (by simp)
      rw [relays, one ow k1 r g1 g2 g3]
      exact ih fun r hr => h r (by simp [hr])
  cases rs with
  | nil => exact absurd rfl hne
  | cons r rs =>
    obtain ⟨g1, g2, g3⟩ := hrs r (by simp)
    rw [relays, one ob hob r g1 g2 (by omega)]
    exact many rs fun r hr => by
      obtain ⟨q1, q2, q3⟩ := hrs r (by simp [hr])
      exact ⟨q1, q2, by omega⟩

/-- C101, exactly when: who gets what a relay sent, with a byte to spare, is told exactly the message that came in if and only if its
options are among those that the encoder writes rightly. -/
theorem relay_right_iff_partial (m : Msg) (hm : m.Ok) (ob : List UInt8) (hob : IsOpts 0 m.opts ob) (cap fuel : Nat) (junk : Dec)
    (hj : junk.tbuf.length = 8) (hf : 11 * (wire m ob).length + 7 ≤ fuel) (out : List UInt8)
    (hout : relay cap fuel junk (wire m ob) = some out) (hroom : out.length < cap) (junk2 : Dec) (hj2 : junk2.tbuf.length = 8)
    (hst : junk2.opt.st ≠ .payload ∨ m.token ≠ [] ∨ m.opts ≠ [] ∨ m.payload ≠ none) :
    (∃ N d' c', ∀ fuel, N ≤ fuel → Dec.processToDone fuel (Dec.fresh junk2) ⟨out, 0, true⟩ = .ok (d', c', delivery m)) ↔
      OptsEncodable 0 m.opts := by
  obtain ⟨h, hh, e⟩ := relay_writes m hm ob hob cap fuel junk hj hf
  rw [hout] at e
  split at e
  · rename_i s hw
    simp only [Option.some.injEq] at e
    subst e
    exact stream_round_trip_iff_partial m hm h hh cap s hw hroom junk2 hj2 hst
  · cases e

/-- C101 fails: a message with a value of thirteen bytes comes out of a relay as something that a reader is not told as that message,
whatever the memory of the reader held. -/
theorem relay_right_fails : longPathMsg.Ok ∧ ∃ out, relay 1000 1000 Dec.zero (encMsg longPathMsg) = some out ∧ ∀ junk : Dec, junk.tbuf.length = 8 →
    ¬∃ N d' c', ∀ fuel, N ≤ fuel → Dec.processToDone fuel (Dec.fresh junk) ⟨out, 0, true⟩ = .ok (d', c', delivery longPathMsg) := by
  have hm : longPathMsg.Ok := by decide
  have h1 : ((relay 1000 1000 Dec.zero (encMsg longPathMsg)).map (fun o => decide (o.length < 1000))) = some true := by decide +kernel
  obtain ⟨out, ho, hl⟩ := Option.map_eq_some_iff.mp h1
  refine ⟨hm, out, ho, fun junk hj => ?_⟩
  rw [← wire_encMsg] at ho
  rw [relay_right_iff_partial longPathMsg hm _ (isOpts_encOpts 0 _ (by decide)) 1000 1000 Dec.zero (by decide) (by decide +kernel) out ho
    (by simpa using hl) junk hj (.inr (.inr (.inl (by decide))))]
  decide

/-- Three relays, one of them with other things in its memory, and a message with a token, options and a payload. -/
example : ∃ w, Encodes streamSample w ∧ relays [⟨300, 1000, Dec.zero⟩, ⟨80, 1200, { Dec.zero with hpos := 3, tpos := 5, tbuf := List.replicate 8 0xEE }⟩,
    ⟨100, 1000, Dec.zero⟩]
    (encMsg streamSample) = some w := by
  obtain ⟨w, h1, h2⟩ := relays_hand_on_partial streamSample (by decide) _ (isOpts_encOpts 0 _ (by decide)) (by decide)
  exact ⟨w, h1, by rw [← wire_encMsg]; exact h2 _ (by simp) (by decide +kernel)⟩

end Verif.Props
