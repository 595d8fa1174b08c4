import Verif.Model.UInt

/-!
# Model of `src/cbor/encoder.h`, `src/cbor/decoder.h` and `src/cbor/decoder.cpp`

Writes outside a buffer are undefined behaviour and give `none`.
-/
namespace Verif.Model.Cbor

/-- `additional_integer_information_from_wordsize` — src/cbor/encoder.h:29-42. -/
def infoFromWordsize (n : UInt8) : UInt8 :=
  if n == 1 then 24 else if n == 2 then 25 else if n == 4 then 26 else if n == 8 then 27 else 0

/-- Word size used for a value that needs `n` bytes — src/cbor/encoder.h:66-88. -/
def padSize (n : UInt8) : UInt8 :=
  if n == 3 then 4 else if n == 5 || n == 6 || n == 7 then 8 else n

/-- `EncoderBaseBase::major_type_and_integer` (with `tiny_field`, src/cbor/encoder.h:20-24) —
src/cbor/encoder.h:54-95, for a value that is not negative: the buffer and `m_written`.  The parameter `len`
is not used by the code. -/
def majorTypeAndInteger (buf : List UInt8) (type : UInt8) (value : Nat) : Option (List UInt8 × Nat) :=
  if value ≤ 24 then
    (writeAt buf 0 (type <<< 5 ||| UInt8.ofNat value)).map (·, 1)
  else
    let n := padSize (assess value)
    match writeAt buf 0 (type <<< 5 ||| infoFromWordsize n) with
    | none => none
    | some [] => none
    | some (b :: rest) => (uintSetLen n.toNat value rest).map fun r => (b :: r, n.toNat + 1)

/-- `NetBufEncoder::integer` — src/cbor/encoder.h:187-195 (`major_type_and_integer` lines 124-137), for a
signed type of `w` bits, `w` at least that of `int`; `buf` is `netbuf.unprocessed()`.  Negating the smallest
value is undefined. -/
def integerNet (w : Nat) (buf : List UInt8) (value : Int) : Option (List UInt8 × Nat) :=
  if 0 ≤ value then majorTypeAndInteger buf 0 value.toNat
  else if value = -(2 ^ (w - 1) : Nat) then none
  else majorTypeAndInteger buf 1 (-value - 1).toNat

/-- `EncoderBase::integer` — src/cbor/encoder.h:292-299. -/
def integerBase (w : Nat) (buf : List UInt8) (value : Int) : Option (List UInt8 × Nat) :=
  if 0 ≤ value then majorTypeAndInteger buf 0 value.toNat
  else if value = -(2 ^ (w - 1) : Nat) then none
  else majorTypeAndInteger buf 1 (-value).toNat

/-- `NetBufEncoder::null`, `boolean` — src/cbor/encoder.h:141-149, values from src/cbor/decoder.h:30-35. -/
def nullNet (buf : List UInt8) : Option (List UInt8) := writeAt buf 0 ((7 : UInt8) <<< 5 ||| 22)
/-- src/cbor/encoder.h:146-149 -/
def booleanNet (buf : List UInt8) (b : Bool) : Option (List UInt8) :=
  writeAt buf 0 ((7 : UInt8) <<< 5 ||| (if b then 21 else 20))

/-- `NetBufEncoder::string(const char*)` — src/cbor/encoder.h:151-168: the bytes after the header are
written as far as they fit. -/
def stringNet (buf : List UInt8) (s : List UInt8) : Option (List UInt8 × Nat × Bool) :=
  match majorTypeAndInteger buf 3 s.length with
  | none => none
  | some (b, n) =>
    let k := min s.length (b.length - n)
    some (b.take n ++ s.take k ++ b.drop (n + k), n + k, k == s.length)

/-- `Root::State` — src/cbor/decoder.h:70-82. -/
inductive CState
  | headerStart | header | headerDone | additionalStart | additional | additionalDone
  | longStart | long | longDone | itemDone
deriving DecidableEq, Repr

/-- `Decoder` — src/cbor/decoder.h:106-123.  `pos` has three bits.  `buf` has four bytes, eight with
`CBOR_FEATURE_64_BIT`. -/
structure CDec where
  buf : List UInt8
  hdr : UInt8
  pos : Nat
  st : CState
deriving DecidableEq, Repr

namespace CDec

/-- `additional_raw` — src/cbor/decoder.h:129-134. -/
def additionalRaw (d : CDec) : UInt8 := d.hdr &&& 0x1F

/-- `additional_length` — src/cbor/decoder.h:137-140; only used if `additional_raw` is at least 24. -/
def additionalLength (d : CDec) : UInt8 := (1 : UInt8) <<< (d.additionalRaw - 24)

/-- `type` — src/cbor/decoder.h:147-152. -/
def type (d : CDec) : UInt8 := d.hdr >>> 5

/-- `is_tiny_value` — src/cbor/decoder.h:160-163. -/
def isTiny (d : CDec) : Bool := d.additionalRaw < 24

/-- `is_short_type` — src/cbor/decoder.h:168-181. -/
def isShort (d : CDec) : Bool := d.type == 0 || d.type == 1 || d.type == 6 || d.type == 7

/-- `is_indeterminate_type` — src/cbor/decoder.h:216-228. -/
def isIndeterminate (d : CDec) : Bool := d.type == 5 || d.type == 4

/-- `process_iterate` — src/cbor/decoder.cpp:6-65. -/
def iterate (d : CDec) (ch : UInt8) : Option (CDec × Bool) :=
  match d.st with
  | .headerStart => some ({ d with st := .header }, false)
  | .header => some ({ d with hdr := ch, st := .headerDone }, true)
  | .headerDone =>
    if d.isTiny then some ({ d with st := if d.isShort then .itemDone else .longStart }, false)
    else some ({ d with st := .additionalStart }, false)
  | .additionalStart => some ({ d with pos := 0, st := .additional }, false)
  | .additional =>
    match writeAt d.buf d.pos ch with
    | none => none
    | some buf =>
      let d := { d with buf := buf, pos := (d.pos + 1) % 8 }
      some ({ d with st := if d.pos == d.additionalLength.toNat then .additionalDone else .additional }, true)
  | .additionalDone => some ({ d with st := if d.isShort then .itemDone else .longStart }, false)
  | .longStart => some (d, false)
  | .long => some (d, false)
  | .longDone => some (d, false)
  | .itemDone => some ({ d with st := .headerStart }, false)

/-- `integer<unsigned>` — src/cbor/decoder.h:231-241, `w` bits, for items that are not negative integers.
`UInt::get` reads `additional_length()` bytes. -/
def unsigned (w : Nat) (d : CDec) : Nat :=
  if d.isTiny then d.additionalRaw.toNat else uintGet w (d.buf.take d.additionalLength.toNat)

/-- A `w`-bit two's complement number — src/cbor/decoder.h:231-241 (the type that `integer` returns). -/
def toSigned (w : Nat) (v : Nat) : Int := if v < 2 ^ (w - 1) then v else (v : Int) - 2 ^ w

/-- `integer<int>` — src/cbor/decoder.h:231-241, for a signed type of `w` bits. -/
def integer (w : Nat) (d : CDec) : Int :=
  if d.isTiny then d.additionalRaw.toNat
  else if d.type == 1 then -1 - toSigned w (uintGet w (d.buf.take d.additionalLength.toNat))
  else toSigned w (uintGet w (d.buf.take d.additionalLength.toNat))

/-- `fast_forward` — src/cbor/decoder.h:246-249. -/
def fastForward (d : CDec) : CDec := { d with st := .headerStart }

/-- A new decoder, src/cbor/decoder.h:145: everything but the state is uninitialised (`junk`). -/
def fresh (junk : CDec) : CDec := { junk with st := .headerStart }

end CDec

/-- `StreamDecoder::process` — src/cbor/decoder.cpp:69-102.  `*context.unprocessed()` is evaluated in every
round, also with nothing left; it then reads the byte after the chunk, which is `junk`.  The result is the
decoder, the position and the returned value; `some none` stands for running out of fuel. -/
def process (junk : UInt8) (chunk : List UInt8) : Nat → CDec → Nat → Option (Option (CDec × Nat × Bool))
  | 0, _, _ => some none
  | fuel + 1, d, pos =>
    if pos < chunk.length || (pos == chunk.length && d.st != .itemDone) then
      match d.iterate (chunk.getD pos junk) with
      | none => none
      | some (d, adv) =>
        let pos := if adv then pos + 1 else pos
        if d.st == .longStart || d.st == .itemDone then some (some (d, pos, false))
        else process junk chunk fuel d pos
    else some (some (d, pos, true))

/-- `Context::advance` with the length of a string — src/cbor/decoder.h:279, 289, 313-314, 335-338: an `unsigned` of 32
bits becomes the `int` that is added to `pos`, an `int` too.  `none`: the sum is no `int`, or the byte before the chunk
would be read next. -/
def advance (pos len : Nat) : Option Nat :=
  let p : Int := pos + CDec.toSigned 32 len
  if 0 ≤ p ∧ p < 2 ^ 31 then some p.toNat else none

/-- `StreamDecoder::fast_forward` — src/cbor/decoder.h:307-319. -/
def streamFastForward (junk : UInt8) (chunk : List UInt8) (fuel : Nat) (d : CDec) (pos : Nat) :
    Option (Option (CDec × Nat × Bool)) :=
  if d.isIndeterminate then process junk chunk fuel d.fastForward pos
  else
    match advance pos (d.unsigned 32) with
    | none => none
    | some pos => process junk chunk fuel d.fastForward pos

end Verif.Model.Cbor
