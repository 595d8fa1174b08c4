import Verif.Model.OptionEncoder

/-!
# Model of `src/coap/encoder.h` and `src/coap/encoder.hpp` (`NetBufEncoder`)

Non-`DEBUG` build: `state`, `assert_state` and `assert_not_state` do nothing (src/coap-encoder.h:245-249).
The base class `NetBufWriter` belongs to the memory library, which is not part of the repository.  It is
modelled by the bytes written so far and the room left in the current buffer: `size()` is that room,
`write` copies as much as fits, `advance` and `putchar` consume room.  Moving to the next buffer is
`refill`.
-/
namespace Verif.Model

/-- `NetBufEncoder` — src/coap/encoder.h:24-30, 84.  `marker` is `m_payload_marker_written`. -/
structure NEnc where
  oe : OptEnc
  out : List UInt8
  room : Nat
  marker : Bool
deriving DecidableEq, Repr

namespace NEnc

/-- Constructor — src/coap/encoder.h:165-187. -/
def init (room : Nat) : NEnc := ⟨OptEnc.init, [], room, false⟩

/-- The caller continues in a buffer of `n` bytes (outside the encoder, on the netbuf) — src/platform/generic/malloc_netbuf.h:88-95. -/
def refill (s : NEnc) (n : Nat) : NEnc := { s with room := n }

/-- `NetBufWriter::write` as called at src/coap/encoder.h:47-50, 142-153: bytes written. -/
def write (s : NEnc) (bs : List UInt8) : NEnc × Nat :=
  ({ s with out := s.out ++ bs.take s.room, room := s.room - bs.length }, min s.room bs.length)

/-- The loop of `option_header` — src/coap/encoder.hpp:42-51.  `acc` is what was put in `output_data` so
far, `n` the room still left.  Running out of fuel stands for not returning. -/
def headerLoop (base : OptBase) (isDone : OState) : Nat → OptEnc → Nat → List UInt8 → Except Fault (OptEnc × List UInt8)
  | 0, _, _, _ => .error .outOfFuel
  | fuel + 1, oe, n, acc =>
    if oe.st != isDone && decide (0 < n) then
      match oe.generate base with
      | .error e => .error e
      | .ok (oe, some b) => headerLoop base isDone fuel oe (n - 1) (acc ++ [b])
      | .ok (oe, none) => headerLoop base isDone fuel oe n acc
    else .ok (oe, acc)

/-- State in which the header of an option is complete — src/coap/encoder.hpp:25. -/
def doneState (length : UInt16) : OState := if length > 0 then .optionValue else .optionValueDone

/-- `option_header` — src/coap/encoder.hpp:4-66, allowing `fuel` rounds of its loop. -/
def optionHeader (fuel : Nat) (s : NEnc) (number length : UInt16) : Except Fault (NEnc × Bool) :=
  let isDone := doneState length
  let oe := if s.oe.st == .firstByte || s.oe.st == .optionDone then s.oe.next else s.oe
  match headerLoop ⟨number, length, []⟩ isDone fuel oe s.room [] with
  | .error e => .error e
  | .ok (oe, bs) => .ok ({ s with oe := oe, out := s.out ++ bs, room := s.room - bs.length }, oe.st == isDone)

/-- `option_value` — src/coap/encoder.h:64-80, with `last_chunk` true. -/
def optionValue (s : NEnc) (value : List UInt8) : NEnc × Bool :=
  let (s, written) := s.write value
  if written == value.length then ({ s with oe := s.oe.fastForward }, true) else (s, false)

/-- `option(number, value)` — src/coap/encoder.hpp:69-79 and 81-93. -/
def option (fuel : Nat) (s : NEnc) (number : UInt16) (value : List UInt8) : Except Fault (NEnc × Bool) :=
  match s.optionHeader fuel number (UInt16.ofNat value.length) with
  | .error e => .error e
  | .ok (s, false) => .ok (s, false)
  | .ok (s, true) => .ok (s.optionValue value)

/-- `option(number)`, an option without value — src/coap/encoder.h:272-275. -/
def optionEmpty (fuel : Nat) (s : NEnc) (number : UInt16) : Except Fault (NEnc × Bool) :=
  s.optionHeader fuel number 0

/-- `payload_header` — src/coap/encoder.h:106-129. -/
def payloadHeader (s : NEnc) : NEnc × Bool :=
  if !s.marker then
    if s.room == 0 then (s, false)
    else ({ s with out := s.out ++ [0xFF], room := s.room - 1, marker := true }, true)
  else (s, true)

/-- `payload(s)` — src/coap/encoder.hpp:95-104. -/
def payload (s : NEnc) (bs : List UInt8) : NEnc × Bool :=
  match s.payloadHeader with
  | (s, false) => (s, false)
  | (s, true) => let (s, n) := s.write bs; (s, n == bs.length)

/-- `header` — src/coap/encoder.h:193-209. -/
def header (s : NEnc) (h : Header) : NEnc × Bool :=
  if s.room ≥ 4 then ((s.write [h.b0, h.b1, h.b2, h.b3]).1, true) else (s, false)

/-- `token` — src/coap/encoder.h:211-237. -/
def token (s : NEnc) (t : List UInt8) : NEnc × Bool :=
  let (s, n) := s.write t
  (s, n == t.length)

end NEnc
end Verif.Model
