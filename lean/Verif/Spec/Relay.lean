import Verif.Props.StreamRoundTrip
import Verif.Spec.ReadBack

/-!
# A relay

A program over this library: it decodes a datagram, puts the message together from what it is told, and encodes the message again.
The library parts it calls are those of the model: `Decoder` (src/coap/decoder.cpp), driven as in
src/coap/platform/lwip/context.h:68-72, and `StreamEncoder` (src/coap/encoder/streambuf.h), used as in `writeMsg`.
-/
namespace Verif.Spec
open Verif.Model Verif.Props

/-- The relay: `cap` bytes of room for the encoder, `junk` what the memory of the decoder held. -/
def relay (cap fuel : Nat) (junk : Dec) (bytes : List UInt8) : Option (List UInt8) :=
  match Dec.processToDone fuel (Dec.fresh junk) ⟨bytes, 0, true⟩ with
  | .ok (_, _, .header h :: evs) =>
    match readBack (.header h :: evs) with
    | some m =>
      match writeMsg (SEnc.init cap) (h.setTokenLength (UInt8.ofNat m.token.length)) m.token m.opts m.payload with
      | .ok (s, true) => some s.out
      | _ => none
    | none => none
  | _ => none

/-- A relay in a chain. -/
structure Hop where
  cap : Nat
  fuel : Nat
  junk : Dec

/-- A chain of relays. -/
def relays : List Hop → List UInt8 → Option (List UInt8)
  | [], bytes => some bytes
  | r :: rs, bytes => (relay r.cap r.fuel r.junk bytes).bind (relays rs)

end Verif.Spec
