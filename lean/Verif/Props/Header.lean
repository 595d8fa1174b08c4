import Verif.Model.Header
import Verif.Spec.Wire
import Verif.Proofs.Bytes

/-! # Header properties (C01–C05) -/
namespace Verif.Props
open Verif.Model Verif.Spec Verif.Proofs Header

/-- The fields of a model header according to the RFC figure. -/
def hfields (h : Header) : Fields := fields h.b0 h.b1 h.b2 h.b3

/-- C01: every getter returns the RFC field. -/
theorem header_getters (h : Header) :
    h.version.toNat = (hfields h).version ∧ h.type.toNat = (hfields h).type ∧
    h.tokenLength.toNat = (hfields h).tkl ∧ h.code.toNat = (hfields h).code ∧
    h.messageId.toNat = (hfields h).mid :=
  ⟨ver_toNat _, type_toNat _, tkl_toNat _, rfl, ntoh_toNat _ _⟩

/-- C01: setting the type changes the type field and nothing else. -/
theorem header_set_type (h : Header) (t : UInt8) (ht : t.toNat < 4) :
    hfields (h.setType t) = { hfields h with type := t.toNat } := by
  have e := setType_toNat h.b0 ⟨t.toNat, ht⟩
  simp only [UInt8.ofNat_toNat] at e
  have := u8_lt h.b0
  simp only [hfields, fields, setType, e, Fields.mk.injEq]
  refine ⟨?_, ?_, ?_, trivial, trivial⟩ <;> omega

/-- C01: setting the token length (0..15) changes that field and nothing else. -/
theorem header_set_token_length (h : Header) (t : UInt8) (ht : t.toNat < 16) :
    hfields (h.setTokenLength t) = { hfields h with tkl := t.toNat } := by
  have e := setTkl_toNat h.b0 ⟨t.toNat, ht⟩
  simp only [UInt8.ofNat_toNat] at e
  have := u8_lt h.b0
  simp only [hfields, fields, setTokenLength, e, Fields.mk.injEq]
  refine ⟨?_, ?_, ?_, trivial, trivial⟩ <;> omega

/-- C01: setting the code changes the code and nothing else. -/
theorem header_set_code (h : Header) (c : UInt8) :
    hfields (h.setCode c) = { hfields h with code := c.toNat } := rfl

/-- C01: setting the message id changes the message id and nothing else. -/
theorem header_set_message_id (h : Header) (m : UInt16) :
    hfields (h.setMessageId m) = { hfields h with mid := m.toNat } := by
  simp only [hfields, fields, setMessageId, hton_fst, hton_snd, Fields.mk.injEq]
  refine ⟨trivial, trivial, trivial, trivial, ?_⟩; omega

-- a non-trivial case: type, tkl and id of a header with every other bit set
example : hfields (((⟨0xFF, 0x45, 0xAB, 0xCD⟩ : Header).setType 2).setTokenLength 8)
    = { version := 3, type := 2, tkl := 8, code := 0x45, mid := 0xABCD } := by decide

/-- C01, boundary of the token-length precondition: beyond 15 the setter corrupts other fields.  The
code only logs (`ASSERT(true, tkl <= 8)`), so callers must respect the precondition. -/
theorem header_set_token_length_overflow :
    ¬ ∀ (h : Header) (t : UInt8), (hfields (h.setTokenLength t)).type = (hfields h).type := by
  intro H; exact absurd (H ⟨0x40, 0, 0, 0⟩ 16) (by decide)

/-- C02: the one-argument constructor. -/
theorem header_new (t : UInt8) (ht : t.toNat < 4) :
    hfields (mk1 t) = { version := 1, type := t.toNat, tkl := 0, code := 0, mid := 0 } := by
  have : ∀ i : Fin 4, hfields (mk1 (UInt8.ofNat i))
      = { version := 1, type := i, tkl := 0, code := 0, mid := 0 } := by decide
  simpa using this ⟨t.toNat, ht⟩

/-- C02: the two-argument constructor. -/
theorem header_new_code (t c : UInt8) (ht : t.toNat < 4) :
    hfields (mk2 t c) = { version := 1, type := t.toNat, tkl := 0, code := c.toNat, mid := 0 } := by
  have h := header_new t ht
  have e : mk2 t c = (mk1 t).setCode c := rfl
  rw [e, header_set_code, h]

/-- C02: the wire bytes of a fresh header. -/
theorem header_new_bytes (t c : UInt8) (ht : t.toNat < 4) :
    (mk2 t c).bytes = [UInt8.ofNat (64 + 16 * t.toNat), c, 0, 0] := by
  have : ∀ i : Fin 4, (mk1 (UInt8.ofNat i)).b0 = UInt8.ofNat (64 + 16 * i) := by decide
  have e := this ⟨t.toNat, ht⟩
  simp only [UInt8.ofNat_toNat] at e
  change [(mk1 t).b0, c, 0, 0] = _
  rw [e]

example : (mk2 confirmable 0x45).bytes = [0x40, 0x45, 0, 0] := by decide

/-- C03: a response header echoes message id, token length and version, answers CON with ACK and NON
with NON, and carries the requested code — whatever the uninitialised output contained. -/
theorem response_echoes (junk req : Header) (c : UInt8) :
    let r := hfields (createResponse junk req c)
    r.mid = (hfields req).mid ∧ r.tkl = (hfields req).tkl ∧ r.version = (hfields req).version ∧
    r.code = c.toNat ∧
    r.type = (if (hfields req).type = 0 then 2 else (hfields req).type) := by
  have hty : req.type.toNat = (hfields req).type := type_toNat _
  have ht0 : (req.type == confirmable) = true ↔ (hfields req).type = 0 := by
    rw [← hty, beq_iff_eq, ← UInt8.toNat_inj]; rfl
  by_cases h : (hfields req).type = 0
  · have hb := ht0.2 h
    have e := header_set_type { junk.copyMessageId req with b0 := req.b0 } 2 (by decide)
    simp only [createResponse, processRequest, hb, if_true, header_set_code, acknowledgement, e,
      h]
    simp [hfields, fields, copyMessageId]
  · have hb : (req.type == confirmable) = false := by
      cases hc : req.type == confirmable
      · rfl
      · exact absurd (ht0.1 hc) h
    simp only [createResponse, processRequest, hb, header_set_code, h]
    simp [hfields, fields, copyMessageId]

example : hfields (createResponse ⟨0xDE, 0xAD, 0xBE, 0xEF⟩ ⟨0x44, 1, 0x12, 0x34⟩ 0x45)
    = { version := 1, type := 2, tkl := 4, code := 0x45, mid := 0x1234 } := by decide

/-- C04: only confirmable messages are acknowledged; otherwise the output is untouched. -/
theorem ack_only_confirmable (input output : Header) :
    ((processResponse input output).2 = true ↔ (hfields input).type = 0) ∧
    ((hfields input).type = 0 →
      hfields (processResponse input output).1 =
        { hfields input with type := 2, code := (hfields output).code }) ∧
    ((hfields input).type ≠ 0 → (processResponse input output).1 = output) := by
  have hty : input.type.toNat = (hfields input).type := type_toNat _
  have ht0 : (input.type == confirmable) = true ↔ (hfields input).type = 0 := by
    rw [← hty, beq_iff_eq, ← UInt8.toNat_inj]; rfl
  by_cases h : (hfields input).type = 0
  · have hb := ht0.2 h
    have e := header_set_type ({ output with b0 := input.b0 }.copyMessageId input) 2 (by decide)
    simp only [processResponse, hb, if_true, h, acknowledgement, e]
    simp [hfields, fields, copyMessageId]
  · have hb : (input.type == confirmable) = false := by
      cases hc : input.type == confirmable
      · rfl
      · exact absurd (ht0.1 hc) h
    simp [processResponse, hb, h]

example : (processResponse ⟨0x44, 0x45, 1, 2⟩ ⟨0, 9, 0, 0⟩) = (⟨0x64, 9, 1, 2⟩, true) := by decide

/-- A reset reply carries the message id with type RST and keeps the rest of the output. -/
theorem reset_echoes_mid (input output : Header) :
    hfields (processReset input output) =
      { hfields output with type := 3, mid := (hfields input).mid } := by
  have e := header_set_type (output.copyMessageId input) 3 (by decide)
  simp only [processReset, reset, e]
  simp [hfields, fields, copyMessageId]

/-- C05: request exactly when the class digit is 0; class and detail determine the code. -/
theorem request_iff_class_zero (h : Header) :
    (h.isRequest = true ↔ (hfields h).code / 32 = 0) ∧ (h.isResponse = !h.isRequest) ∧
    codeIsRequest h.code = h.isRequest ∧
    (codeClass h.code).toNat = (hfields h).code / 32 ∧
    (codeDetail h.code).toNat = (hfields h).code % 32 ∧
    (codeClass h.code).toNat < 8 ∧
    32 * (codeClass h.code).toNat + (codeDetail h.code).toNat = (hfields h).code := by
  have h1 : (h.b1 >>> 5).toNat = h.b1.toNat / 32 := by simp [Nat.shiftRight_eq_div_pow]
  have h2 : (h.b1 &&& 0x1F).toNat = h.b1.toNat % 32 := by simp [and_31]
  have := u8_lt h.b1
  simp only [isRequest, isResponse, codeIsRequest, codeClass, codeDetail, code, beq_iff_eq,
    ← UInt8.toNat_inj, h1, h2, hfields, fields]
  refine ⟨Iff.rfl, trivial, trivial, trivial, trivial, ?_, ?_⟩ <;> omega

example : (⟨0x40, 0x45, 0, 0⟩ : Header).isRequest = false ∧
    (⟨0x40, 0x02, 0, 0⟩ : Header).isRequest = true := by decide

end Verif.Props
