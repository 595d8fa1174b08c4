/-!
# Specification of the RFC 7252 wire format

Independent of the model: plain arithmetic on `Nat` and lists of bytes.
-/
namespace Verif.Spec

/-- RFC 7252 section 3: the fields of the fixed header. -/
structure Fields where
  version : Nat
  type : Nat
  tkl : Nat
  code : Nat
  mid : Nat
deriving DecidableEq, Repr

/-- Read the header fields off four octets (RFC 7252 figure 7). -/
def fields (b0 b1 b2 b3 : UInt8) : Fields where
  version := b0.toNat / 64
  type := b0.toNat / 16 % 4
  tkl := b0.toNat % 16
  code := b1.toNat
  mid := b2.toNat * 256 + b3.toNat

/-- Big-endian value of a byte string. -/
def beValue : List UInt8 → Nat
  | [] => 0
  | b :: bs => b.toNat * 256 ^ bs.length + beValue bs

/-- RFC 7959 section 2.2: numeric value of a block option. -/
def blockValue (num : Nat) (m : Bool) (szx : Nat) : Nat := 16 * num + 8 * m.toNat + szx

/-- Four-bit root of an option delta or length (RFC 7252 section 3.1). -/
def nibble (v : Nat) : Nat := if v < 13 then v else if v < 269 then 13 else 14

/-- Extended bytes of an option delta or length (RFC 7252 section 3.1). -/
def extBytes (v : Nat) : List UInt8 :=
  if v < 13 then []
  else if v < 269 then [UInt8.ofNat (v - 13)]
  else [UInt8.ofNat ((v - 269) / 256), UInt8.ofNat ((v - 269) % 256)]

/-- The option header for a delta and a value length. -/
def optHeader (delta len : Nat) : List UInt8 :=
  UInt8.ofNat (16 * nibble delta + nibble len) :: (extBytes delta ++ extBytes len)

/-- An option: absolute number and value. -/
structure Opt where
  number : Nat
  value : List UInt8
deriving DecidableEq, Repr

/-- Options on the wire, each number relative to the previous one. -/
def encOpts (prev : Nat) : List Opt → List UInt8
  | [] => []
  | o :: os => optHeader (o.number - prev) o.value.length ++ o.value ++ encOpts o.number os

/-- Option numbers are non-decreasing starting at `prev`, fit in 16 bits, as do value lengths. -/
def OptsOk (prev : Nat) : List Opt → Prop
  | [] => True
  | o :: os => prev ≤ o.number ∧ o.number < 65536 ∧ o.value.length < 65536 ∧ OptsOk o.number os

instance : (prev : Nat) → (os : List Opt) → Decidable (OptsOk prev os)
  | _, [] => isTrue trivial
  | _, o :: os =>
    have : Decidable (OptsOk o.number os) := instDecidableOptsOk o.number os
    inferInstanceAs (Decidable (_ ∧ _ ∧ _ ∧ _))

/-- A CoAP message.  `payload = none` means no payload marker. -/
structure Msg where
  version : Nat
  type : Nat
  code : Nat
  mid : Nat
  token : List UInt8
  opts : List Opt
  payload : Option (List UInt8)
deriving DecidableEq, Repr

/-- Well-formed message (RFC 7252 section 3): field ranges, token of at most 8 bytes, ordered
options, and a marker only in front of a non-empty payload. -/
def Msg.Ok (m : Msg) : Prop :=
  m.version < 4 ∧ m.type < 4 ∧ m.code < 256 ∧ m.mid < 65536 ∧ m.token.length ≤ 8 ∧
  OptsOk 0 m.opts ∧ m.payload ≠ some []

instance (m : Msg) : Decidable m.Ok := inferInstanceAs (Decidable (_ ∧ _ ∧ _ ∧ _ ∧ _ ∧ _ ∧ _))

/-- Header bytes of a message. -/
def encHeader (m : Msg) : List UInt8 :=
  [UInt8.ofNat (64 * m.version + 16 * m.type + m.token.length), UInt8.ofNat m.code,
   UInt8.ofNat (m.mid / 256), UInt8.ofNat (m.mid % 256)]

/-- Payload with its marker. -/
def encPayload : Option (List UInt8) → List UInt8
  | none => []
  | some p => 0xFF :: p

/-- The whole message on the wire. -/
def encMsg (m : Msg) : List UInt8 :=
  encHeader m ++ m.token ++ encOpts 0 m.opts ++ encPayload m.payload

end Verif.Spec
