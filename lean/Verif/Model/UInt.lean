/-!
# Model of `src/coap/uint.h`, `src/coap/token.cpp` and `src/coap/blockwise.h`

Unsigned C++ inputs are modelled by `Nat` (the C++ types give `input < 2^64`).  A destination buffer is
a list of bytes; a write outside it is undefined behaviour and is modelled by `none`.
-/
namespace Verif.Model

/-- `output[i] = b`: undefined outside the buffer — src/coap/uint.h:121, 142, 148, 159. -/
def writeAt (buf : List UInt8) (i : Nat) (b : UInt8) : Option (List UInt8) :=
  if i < buf.length then some (buf.set i b) else none

/-- Loop of `uint_get` — src/coap/uint.h:22-26, on a `w`-bit unsigned `TReturn`. -/
def uintGetLoop (w : Nat) : Nat → List UInt8 → Nat
  | v, [] => v
  | v, b :: bs => uintGetLoop w ((v <<< 8) % 2 ^ w ||| b.toNat) bs

/-- `internal::uint_get<TReturn>` — src/coap/uint.h:14-29 (and `UInt::get`, lines 53-81, which only add
a logged assertion) for a `w`-bit unsigned type other than `uint8_t`. -/
def uintGet (w : Nat) : List UInt8 → Nat
  | [] => 0
  | b :: bs => uintGetLoop w b.toNat bs

/-- `internal::uint_get<uint8_t>` — src/coap/uint.h:32-41. -/
def uintGet8 : List UInt8 → Nat
  | [] => 0
  | b :: _ => b.toNat

/-- Loop of `assess_bytes_used` — src/coap/uint.h:91-92.  The fuel `input + 1` always suffices. -/
def assessLoop : Nat → Nat → UInt8 → UInt8
  | 0, _, c => c
  | fuel + 1, input, c => if input != 0 then assessLoop fuel (input >>> 8) (c + 1) else c

/-- `UInt::assess_bytes_used` — src/coap/uint.h:86-94, for unsigned input. -/
def assess (input : Nat) (headstart : UInt8 := 0) : UInt8 := assessLoop (input + 1) input headstart

/-- `UInt::set(input, output, output_length)` — src/coap/uint.h:154-162; the first argument is the loop
variable `i`. -/
def uintSetLen : Nat → Nat → List UInt8 → Option (List UInt8)
  | 0, _, buf => some buf
  | i + 1, input, buf =>
    match writeAt buf i (UInt8.ofNat (input &&& 0xFF)) with
    | none => none
    | some buf => uintSetLen i (input >>> 8) buf

/-- `UInt::set(input, output)` — src/coap/uint.h:167-175: the new buffer and the byte count. -/
def uintSet (input : Nat) (buf : List UInt8) : Option (List UInt8 × UInt8) :=
  let n := assess input
  match uintSetLen n.toNat input buf with
  | none => none
  | some buf => some (buf, n)

/-- The zeroing loops of `set_padded` — src/coap/uint.h:120-121 and 140-143: `count` more zeros starting
at index `i`. -/
def zeroLoop : Nat → Nat → List UInt8 → Option (List UInt8)
  | 0, _, buf => some buf
  | count + 1, i, buf =>
    match writeAt buf i 0 with
    | none => none
    | some buf => zeroLoop count (i + 1) buf

/-- The value loop of `set_padded` — src/coap/uint.h:146-150; the first argument is `i`. -/
def padLoop (pad : Nat) : Nat → Nat → List UInt8 → Option (List UInt8)
  | 0, _, buf => some buf
  | i + 1, input, buf =>
    if i + 1 > pad then
      match writeAt buf i (UInt8.ofNat (input &&& 0xFF)) with
      | none => none
      | some buf => padLoop pad i (input >>> 8) buf
    else some buf

/-- `UInt::set_padded` — src/coap/uint.h:113-151.  `bytes_pad` is a 64-bit `size_t`. -/
def uintSetPadded (input : Nat) (buf : List UInt8) (outputSize : Nat) : Option (List UInt8) :=
  if input == 0 then zeroLoop outputSize 0 buf
  else
    let used := assess (input >>> 8) 1
    let pad := (outputSize + 2 ^ 64 - used.toNat) % 2 ^ 64
    match zeroLoop pad 0 buf with
    | none => none
    | some buf => padLoop pad outputSize input buf

/-- `layer2::UInt::set_uint24_t` — src/coap/uint.h:251-259. -/
def uintSet24 (input : Nat) (buf : List UInt8) : Option (List UInt8) := uintSetLen 3 input buf

/-- `data.resize(n)` on the token vector — src/coap/token.cpp:17.  New elements are unspecified
(`junk`). -/
def resize (junk : UInt8) (old : List UInt8) (n : Nat) : List UInt8 :=
  old.take n ++ List.replicate (n - old.length) junk

/-- `SimpleTokenGenerator::generate` — src/coap/token.cpp:10-20: the token and the next counter. -/
def tokenGenerate (junk : UInt8) (current : UInt32) (old : List UInt8) : Option (List UInt8 × UInt32) :=
  let data := resize junk old (assess current.toNat).toNat
  match uintSet current.toNat data with
  | none => none
  | some (data, _) => some (data, current + 1)

/-- `n` successive calls of `SimpleTokenGenerator::generate` (src/coap/token.cpp:10-20) into the same
token object; the tokens handed out, oldest first. -/
def tokenRun (junk : UInt8) : Nat → UInt32 → List UInt8 → Option (List (List UInt8))
  | 0, _, _ => some []
  | n + 1, current, old =>
    match tokenGenerate junk current old with
    | none => none
    | some (t, next) =>
      match tokenRun junk n next t with
      | none => none
      | some ts => some (t :: ts)

/-- `option_value[option_value.size() - 1]`: undefined on an empty option value — src/coap/blockwise.h:23, 38. -/
def lastByte (v : List UInt8) : Option UInt8 := v.getLast?

/-- `option_block_decode_szx(uint8_t)` — src/coap/blockwise.h:13-18. -/
def blockSzx8 (value : UInt8) : Nat := 1 <<< ((value &&& 0x07) + 4).toNat % 2 ^ 16

/-- `option_block_decode_szx(span)` — src/coap/blockwise.h:20-24. -/
def blockDecodeSzx (v : List UInt8) : Option Nat := (lastByte v).map blockSzx8

/-- `option_block_decode_num<uint32_t>` — src/coap/blockwise.h:27-33. -/
def blockDecodeNum (v : List UInt8) : Nat := uintGet 32 v >>> 4

/-- `option_block_decode_m` — src/coap/blockwise.h:36-39. -/
def blockDecodeM (v : List UInt8) : Option Bool := (lastByte v).map fun b => (b &&& 0x08) != 0

/-- `option_value[i] |= b` — src/coap/blockwise.h:57-58. -/
def orAt (buf : List UInt8) (i : Nat) (b : UInt8) : Option (List UInt8) :=
  match buf[i]? with
  | none => none
  | some o => some (buf.set i (o ||| b))

/-- `option_block_encode<uint32_t>` — src/coap/blockwise.h:44-67: buffer and returned size.  With
`size == 0` the code writes `option_value[-1]`, which is undefined (`none`). -/
def blockEncode (buf : List UInt8) (num : UInt32) (m : Bool) (szx : UInt8) :
    Option (List UInt8 × UInt8) :=
  match writeAt buf 0 0 with
  | none => none
  | some buf =>
  match uintSet (num <<< 4).toNat buf with
  | none => none
  | some (buf, size) =>
  if size == 0 then none else
  match orAt buf (size.toNat - 1) (m.toUInt8 <<< 3) with
  | none => none
  | some buf =>
  match orAt buf (size.toNat - 1) szx with
  | none => none
  | some buf =>
  if size > 0 then some (buf, size)
  else some (buf, if buf.head? == some 0 then 0 else 1)

end Verif.Model
