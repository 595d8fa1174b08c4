import Verif.Model.Header

/-!
# Model of `src/coap/option-decoder.cpp` and `src/coap/decoder/option.h`

`ASSERT_*` (including `ASSERT_ABORT` on a reserved nibble) are taken to log only.
-/
namespace Verif.Model
open Header

deriving instance DecidableEq for Except

/-- Undefined behaviour, or a loop that ran out of model fuel (proved unreachable) —
src/coap/decoder/simple.h:63-83, src/coap/option-decoder.cpp:123, 161, 292, src/coap/decoder.cpp:170. -/
inductive Fault
  | headerOverflow
  | tokenOverflow
  | tokenOverread
  | optionBufferOverflow
  | chunkOverread
  | outOfFuel
deriving DecidableEq, Repr

/-- `Option::State` — src/coap/option.h:73-88.  `garbage` stands for a state word that holds none of the
enumerators because the token decoder, which shares its storage, was written last
(src/coap/decoder.h:131-136). -/
inductive OState
  | firstByte | firstByteDone | optionDelta | optionDeltaDone | optionLength | optionLengthDone
  | optionDeltaAndLengthDone | valueStart | optionValue | optionValueDone | optionDone | payload
  | garbage
deriving DecidableEq, Repr

/-- `OptionDecoder::Holder` — src/coap/decoder/option.h:29-44. -/
structure Holder where
  number : UInt16
  length : UInt16
deriving DecidableEq, Repr

/-- `OptionDecoder` — src/coap/decoder/option.h:46-59.  `b0..b3` is `buffer[4]`; the 16-bit
`value_length` of the union occupies `b0` (low byte) and `b1` (high byte), as on a little-endian
machine. -/
structure OptDec where
  st : OState
  b0 : UInt8
  b1 : UInt8
  b2 : UInt8
  b3 : UInt8
  pos : UInt8
deriving DecidableEq, Repr

namespace OptDec

/-- `raw_delta` — src/coap/decoder/option.h:63. -/
def rawDelta (o : OptDec) : UInt8 := o.b0 >>> 4
/-- `raw_length` — src/coap/decoder/option.h:64. -/
def rawLength (o : OptDec) : UInt8 := o.b0 &&& 0x0F

/-- `get_value` — src/coap/decoder/option.h:67-105; `e0 e1` are `extended[0]`, `extended[1]`. -/
def getValue (nonextended e0 e1 : UInt8) : UInt16 :=
  if nonextended < 13 then nonextended.toUInt16
  else if nonextended == 13 then (13 : UInt16) + e0.toUInt16
  else if nonextended == 14 then (269 : UInt16) + ((e0.toUInt16 <<< 8) ||| e1.toUInt16)
  else 0

/-- `option_delta` — src/coap/decoder/option.h:108-111. -/
def delta (o : OptDec) : UInt16 := getValue o.rawDelta o.b1 o.b2
/-- `option_length` — src/coap/decoder/option.h:113-116. -/
def length (o : OptDec) : UInt16 := getValue o.rawLength o.b1 o.b2

/-- Reading `value_length` of the union — src/coap/decoder/option.h:52. -/
def valueLength (o : OptDec) : UInt16 := ntoh o.b1 o.b0
/-- Writing `value_length` of the union — src/coap/decoder/option.h:52. -/
def setValueLength (o : OptDec) (v : UInt16) : OptDec := { o with b0 := (hton v).2, b1 := (hton v).1 }

/-- `buffer[pos] = value` — src/coap/option-decoder.cpp:123, 161. -/
def write (o : OptDec) (value : UInt8) : Except Fault OptDec :=
  if o.pos == 0 then .ok { o with b0 := value }
  else if o.pos == 1 then .ok { o with b1 := value }
  else if o.pos == 2 then .ok { o with b2 := value }
  else if o.pos == 3 then .ok { o with b3 := value }
  else .error .optionBufferOverflow

/-- `processOptionSize` — src/coap/option-decoder.cpp:9-26. -/
def processOptionSize (o : OptDec) (root : UInt8) : Bool :=
  if root == 13 then false else if root == 14 then o.pos != 2 else false

/-- `OptionDecoder::process_iterate(value, eof)` — src/coap/option-decoder.cpp:31-222.  Returns the new
state and whether the byte was consumed.  `eof` only feeds logged assertions and is dropped. -/
def step (o : OptDec) (value : UInt8) : Except Fault (OptDec × Bool) :=
  let rawDelta := o.rawDelta
  let rawLength := o.rawLength
  match o.st with
  | .optionValueDone => .ok ({ o with st := .firstByte }, false)
  | .firstByte =>
    if value == 0xFF then .ok ({ o with st := .payload }, true)
    else .ok ({ o with b0 := value, pos := 1, st := .firstByteDone }, false)
  | .firstByteDone =>
    let st :=
      if rawDelta ≥ 13 then (if rawLength ≥ 13 then OState.optionDelta else .optionLengthDone)
      else if rawLength ≥ 13 then .optionDeltaDone
      else .optionDeltaAndLengthDone
    .ok ({ o with st := st }, true)
  | .optionDelta =>
    match o.write value with
    | .error e => .error e
    | .ok o =>
      if !o.processOptionSize rawDelta then .ok ({ o with st := .optionDeltaDone }, true)
      else .ok ({ o with pos := o.pos + 1 }, true)
  | .optionDeltaDone =>
    if !(decide (rawLength ≥ 13)) then .ok ({ o with st := .valueStart }, false)
    else .ok ({ o with st := .optionLength, pos := 1 }, false)
  | .optionLength =>
    match o.write value with
    | .error e => .error e
    | .ok o =>
      if !o.processOptionSize rawLength then .ok ({ o with st := .optionLengthDone }, true)
      else .ok ({ o with pos := o.pos + 1 }, true)
  | .optionLengthDone =>
    if rawLength ≥ 13 then .ok ({ o with st := .valueStart }, false)
    else .ok ({ o with st := .optionDelta }, false)
  | .optionDeltaAndLengthDone => .ok ({ o with st := .valueStart }, false)
  | .valueStart =>
    let o := o.setValueLength o.length
    .ok ({ o with st := if o.valueLength == 0 then .optionValueDone else .optionValue }, false)
  | .optionValue =>
    let o := o.setValueLength (o.valueLength - 1)
    if o.valueLength == 0 then .ok ({ o with st := .optionValueDone }, true) else .ok (o, true)
  | .payload => .ok (o, true)
  | .optionDone => .ok (o, true)
  | .garbage => .ok (o, true)

/-- The loop of `OptionDecoder::process_iterate(chunk, built_option)` — src/coap/option-decoder.cpp:282-348
with `FEATURE_MCCOAP_SUCCINCT_OPTIONDECODE` (src/coap/decoder.h:32).  `n` counts the bytes consumed so
far; the result adds the final count. -/
def loop : Nat → OptDec → Holder → List UInt8 → Nat → Except Fault (OptDec × Holder × Nat)
  | 0, _, _, _, _ => .error .outOfFuel
  | _ + 1, o, h, [], n => .ok (o, h, n)
  | fuel + 1, o, h, b :: bs, n =>
    match o.step b with
    | .error e => .error e
    | .ok (o, processed) =>
      let data := if processed then bs else b :: bs
      let n := if processed then n + 1 else n
      match o.st with
      | .optionDeltaDone => loop fuel o { h with number := h.number + o.delta } data n
      | .optionDeltaAndLengthDone =>
        loop fuel o { number := h.number + o.delta, length := o.length } data n
      | .optionLengthDone => loop fuel o { h with length := o.length } data n
      | .valueStart => .ok (o, h, n)
      | .optionValueDone => .ok (o, h, n)
      | .payload => .ok (o, h, n)
      | _ => loop fuel o h data n

/-- Fuel that `loop` never exhausts: every byte costs at most five steps — src/coap/option-decoder.cpp:292. -/
def fuelFor (chunk : List UInt8) : Nat := 6 * chunk.length + 7

/-- `OptionDecoder::process_iterate(chunk, built_option, last_chunk)` —
src/coap/option-decoder.cpp:268-280. -/
def process (o : OptDec) (h : Holder) (chunk : List UInt8) (last : Bool) :
    Except Fault (OptDec × Holder × Nat) :=
  if chunk.length == 0 && last then
    match o.step 0 with
    | .error e => .error e
    | .ok (o, _) => .ok (o, h, 0)
  else loop (fuelFor chunk) o h chunk 0

end OptDec
end Verif.Model
