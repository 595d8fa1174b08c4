import Verif.Model.CborDoc

/-!
# Model of the CBOR encoder that writes heads only (`EncoderBase` of `src/cbor/encoder.h`)

The buffer is a member of the encoder (`layer1::Encoder`: five bytes, not initialised) or lent to it (`layer3::Encoder`); every call
writes from its first byte on.
-/
namespace Verif.Model.Cbor

/-- The calls — src/cbor/encoder.h:292-316. -/
inductive HCall
  | integer (v : Int)
  | string (length : Nat)
  | array (length : Nat)
deriving DecidableEq, Repr

/-- One call: the buffer and what is returned — src/cbor/encoder.h:284-316; `w` is the width of the type given to `integer`.  The number
returned is at most nine, so that its type `uint8_t` makes no difference. -/
def HCall.run (w : Nat) (buf : List UInt8) : HCall → Option (List UInt8 × Nat)
  | .integer v => integerBase w buf v
  | .string n => majorTypeAndInteger buf 3 n
  | .array n => majorTypeAndInteger buf 2 n

/-- How the encoder is used, as its comments say (src/cbor/encoder.h:302-303, 310-311): after each call the bytes of `data()` that the returned number
tells are sent, then the contents, which are outside its scope.  The calls share the buffer. -/
def headsDoc (w : Nat) : List UInt8 → List (HCall × List UInt8) → Option (List UInt8)
  | _, [] => some []
  | buf, (c, content) :: rest =>
    match c.run w buf with
    | none => none
    | some (buf, n) => (headsDoc w buf rest).map (buf.take n ++ content ++ ·)

end Verif.Model.Cbor
