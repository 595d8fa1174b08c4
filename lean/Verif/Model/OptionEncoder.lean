import Verif.Model.OptionDecoder

/-!
# Model of `src/coap-encoder.cpp` and `src/coap-encoder.h`

`ASSERT_*` are taken to log only.  The `option_base` pointer is passed as an argument; a call while it is
null is not modelled (every caller sets it first).
-/
namespace Verif.Model

/-- `layer2::OptionBase` — src/coap_transmission.h:23-90.  `value` is what `value_opaque` points to. -/
structure OptBase where
  number : UInt16
  length : UInt16
  value : List UInt8
deriving DecidableEq, Repr

/-- `OptionEncoder` — src/coap-encoder.h:21-53. -/
structure OptEnc where
  st : OState
  current : UInt16
  pos : UInt8
deriving DecidableEq, Repr

namespace OptEnc

/-- `initialize` — src/coap-encoder.cpp:11-16. -/
def init : OptEnc := ⟨.firstByte, 0, 0⟩

/-- `generator_helper` — src/coap-encoder.cpp:19-45, with `COAP_EXTENDED8_BIT_MAX` 242 and
`COAP_EXTENDED16_BIT_MAX` 65266 of src/coap.h:59-60. -/
def helper (value : UInt16) (pos : UInt8) : UInt8 :=
  if value < 13 then value.toUInt8
  else if value < 242 then
    if pos == 0 then 13
    else if pos == 1 then (value - 13).toUInt8
    else 255
  else if value < 65266 then
    if pos == 0 then 14
    else if pos == 1 then ((value - 269) >>> 8).toUInt8
    else if pos == 2 then (value - 269).toUInt8
    else 255
  else 255

/-- `next` — src/coap-encoder.h:82-96. -/
def next (o : OptEnc) : OptEnc := { o with st := .firstByte }

/-- `fast_forward` — src/coap-encoder.h:121-126. -/
def fastForward (o : OptEnc) : OptEnc := { o with st := .optionDone }

/-- `generate_iterate` — src/coap-encoder.cpp:50-170.  `none` is `signal_continue`. -/
def generate (o : OptEnc) (base : OptBase) : Except Fault (OptEnc × Option UInt8) :=
  let deltaRoot := helper (base.number - o.current) 0
  let lengthRoot := helper base.length 0
  match o.st with
  | .firstByte => .ok ({ o with pos := 0, st := .firstByteDone }, some (lengthRoot ||| (deltaRoot <<< 4)))
  | .firstByteDone =>
    let st :=
      if deltaRoot ≥ 13 then OState.optionDelta
      else if lengthRoot ≥ 13 then .optionDeltaDone
      else .optionDeltaAndLengthDone
    .ok ({ o with st := st }, none)
  | .optionDelta =>
    let o := { o with pos := o.pos + 1 }
    let next := helper (base.number - o.current) o.pos
    let o :=
      if deltaRoot == 13 then { o with st := .optionDeltaDone }
      else if deltaRoot == 14 && o.pos == 2 then { o with st := .optionDeltaDone }
      else o
    .ok (o, some next)
  | .optionDeltaDone =>
    .ok ({ o with current := base.number, st := if lengthRoot ≥ 13 then .optionLength else .optionLengthDone }, none)
  | .optionLength =>
    let o := { o with pos := o.pos + 1 }
    let next := helper base.length o.pos
    let o :=
      if next == 13 then { o with st := .optionLengthDone }
      else if next == 14 && o.pos == 2 then { o with st := .optionLengthDone }
      else o
    .ok (o, some next)
  | .optionDeltaAndLengthDone => .ok ({ o with current := base.number, st := .optionLengthDone }, none)
  | .optionLengthDone =>
    if base.length == 0 then .ok ({ o with st := .optionValueDone }, none)
    else .ok ({ o with pos := 0, st := .optionValue }, none)
  | .optionValue =>
    let st := if o.pos.toNat + 1 == base.length.toNat then OState.optionValueDone else o.st
    match base.value[o.pos.toNat]? with
    | none => .error .chunkOverread
    | some b => .ok ({ o with st := st, pos := o.pos + 1 }, some b)
  | .optionValueDone => .ok ({ o with st := .optionDone }, none)
  | _ => .ok (o, none)

end OptEnc
end Verif.Model
