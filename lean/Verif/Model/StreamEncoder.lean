import Verif.Model.OptionEncoder
import Verif.Model.UInt

/-!
# Model of `src/coap/encoder/streambuf.h`

The output stream buffer belongs to the estd library, which is not part of the repository.  It is
modelled by a fixed capacity: `sputc` fails exactly when the buffer is full, `sputn` writes as much as
fits and returns that count (the contract of `std::basic_streambuf`).
-/
namespace Verif.Model

/-- `StreambufEncoder` — src/coap/encoder/streambuf.h:59-310: the option encoder, what has been written and
the capacity of the stream buffer. -/
structure SEnc where
  oe : OptEnc
  out : List UInt8
  cap : Nat
deriving DecidableEq, Repr

namespace SEnc

/-- Constructor — src/coap/encoder/streambuf.h:139-154. -/
def init (cap : Nat) : SEnc := ⟨OptEnc.init, [], cap⟩

/-- Room left in the stream buffer — src/coap/encoder/streambuf.h:100-112. -/
def room (s : SEnc) : Nat := s.cap - s.out.length

/-- `write(char_type)` — src/coap/encoder/streambuf.h:106-112. -/
def putc (s : SEnc) (b : UInt8) : SEnc × Bool :=
  if s.out.length < s.cap then ({ s with out := s.out ++ [b] }, true) else (s, false)

/-- `write(bytes, n)` — src/coap/encoder/streambuf.h:100-103, and `sputn`. -/
def putn (s : SEnc) (bs : List UInt8) : SEnc × Nat :=
  ({ s with out := s.out ++ bs.take s.room }, min s.room bs.length)

/-- The loop of `option(number, length)` — src/coap/encoder/streambuf.h:226-240. -/
def optionLoop : Nat → SEnc → OptBase → Except Fault (SEnc × Bool)
  | 0, _, _ => .error .outOfFuel
  | fuel + 1, s, base =>
    match s.oe.generate base with
    | .error e => .error e
    | .ok (oe, result) =>
      let s := { s with oe := oe }
      match result with
      | some b =>
        let (s, ok) := s.putc b
        if !ok then .ok (s, false)
        else if s.oe.st == .optionLengthDone then .ok (s, true)
        else optionLoop fuel s base
      | none =>
        if s.oe.st == .optionLengthDone then .ok (s, true)
        else optionLoop fuel s base

/-- Fuel that `optionLoop` never exhausts — src/coap/encoder/streambuf.h:226-240. -/
def fuelFor (s : SEnc) : Nat := s.room + 8

/-- `option(number, length)` — src/coap/encoder/streambuf.h:215-241. -/
def optionHeader (s : SEnc) (number length : UInt16) : Except Fault (SEnc × Bool) :=
  optionLoop s.fuelFor { s with oe := s.oe.next } ⟨number, length, []⟩

/-- `option(number, array)` — src/coap/encoder/streambuf.h:244-277. -/
def option (s : SEnc) (number : UInt16) (value : List UInt8) : Except Fault (SEnc × Bool) :=
  match s.optionHeader number (UInt16.ofNat value.length) with
  | .error e => .error e
  | .ok (s, false) => .ok (s, false)
  | .ok (s, true) => .ok ((s.putn value).1, true)

/-- `option(number, str)` — src/coap/encoder/streambuf.h:279-287. -/
def optionStr (s : SEnc) (number : UInt16) (str : List UInt8) : Except Fault (SEnc × Bool) :=
  match s.optionHeader number (UInt16.ofNat str.length) with
  | .error e => .error e
  | .ok (s, _) =>
    let (s, n) := s.putn str
    .ok (s, n == str.length)

/-- `header` — src/coap/encoder/streambuf.h:166-172. -/
def header (s : SEnc) (h : Header) : SEnc := (s.putn [h.b0, h.b1, h.b2, h.b3]).1

/-- `token` — src/coap/encoder/streambuf.h:176-190. -/
def token (s : SEnc) (t : List UInt8) : SEnc := (s.putn t).1

/-- `payload` — src/coap/encoder/streambuf.h:292-295 (the marker only). -/
def payloadMarker (s : SEnc) : SEnc × Bool := s.putc 0xFF

end SEnc
end Verif.Model
