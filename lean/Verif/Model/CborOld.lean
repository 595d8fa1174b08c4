import Verif.Model.Cbor

/-!
# Model of `CBOR::Decoder` and `CBOR::DecodeToObserver` — `src/cbor.h`, `src/cbor/cbor.cpp`

The build options are those of `src/cbor/features.h`: no `CBOR_FEATURE_64_BIT`, and `FEATURE_MCCBOR_NESTED` is
not available (`src/cbor.h:30`).  `ASSERT_ERROR` only reports.
-/
namespace Verif.Model.CborOld

/-- An access outside an array — src/cbor.h:60-77, src/cbor/cbor.cpp:55-270. -/
inductive OFault
  | write
  | read
deriving DecidableEq, Repr

/-- `Decoder::State` — src/cbor.h:92-111. -/
inductive OState
  | uninitialized | majorType | majorTypeDone | additionalInteger | additionalIntegerDone | done | pop
deriving DecidableEq, Repr

/-- `CBOR::Decoder` — src/cbor.h:60-77, 131.  `buf` has five bytes; it and `pos` are not initialised by the
constructor. -/
structure ODec where
  buf : List UInt8
  pos : UInt8
  st : OState
deriving DecidableEq, Repr

namespace ODec

/-- `Decoder()` — src/cbor.h:269-275. -/
def fresh (junk : ODec) : ODec := { junk with st := .uninitialized }

/-- `get_simple_value`, `additional_integer_information` — src/cbor.h:133-136, 234. -/
def info (d : ODec) : UInt8 := d.buf.headD 0 &&& 0x1F

/-- `type` — src/cbor.h:277-282. -/
def type (d : ODec) : UInt8 := d.buf.headD 0 >>> 5

/-- `has_additional_integer_information` — src/cbor.h:170-183. -/
def hasInfo (d : ODec) : Bool := d.info == 24 || d.info == 25 || d.info == 26 || d.info == 27

/-- `process_iterate` — src/cbor/cbor.cpp:55-270 without `FEATURE_MCCBOR_NESTED`. -/
def iterate (d : ODec) (v : UInt8) : Except OFault (ODec × Bool) :=
  match d.st with
  | .uninitialized | .majorType =>
    match writeAt d.buf 0 v with
    | none => .error .write
    | some buf => .ok (⟨buf, 1, .majorTypeDone⟩, false)
  | .majorTypeDone => .ok ({ d with st := if d.hasInfo then .additionalInteger else .done }, true)
  | .additionalInteger =>
    match writeAt d.buf d.pos.toNat v with
    | none => .error .write
    | some buf =>
      let d : ODec := ⟨buf, d.pos + 1, d.st⟩
      let fin := if d.info == 24 then d.pos == 2 else if d.info == 25 then d.pos == 3
        else if d.info == 26 then d.pos == 5 else false
      if fin then .ok ({ d with st := .additionalIntegerDone }, false) else .ok (d, true)
  | .additionalIntegerDone => .ok ({ d with st := .done }, true)
  | .done => .ok ({ d with st := .majorType }, false)
  | .pop => .ok (d, false)

/-- `process(uint8_t)` — src/cbor.h:286-289; `none` stands for running out of fuel. -/
def processByte : Nat → ODec → UInt8 → Except OFault (Option ODec)
  | 0, _, _ => .ok none
  | fuel + 1, d, v =>
    match d.iterate v with
    | .error e => .error e
    | .ok (d, true) => .ok (some d)
    | .ok (d, false) => processByte fuel d v

/-- `process(const uint8_t*)` — src/cbor.h:292-301: the decoder and what follows the returned pointer.  The
list is what lies behind the pointer; reading behind its end is a fault.  No call of `process_iterate` needs
more than four rounds. -/
def process : ODec → List UInt8 → Except OFault (Option (ODec × List UInt8))
  | _, [] => .error .read
  | d, v :: rest =>
    match d.processByte 4 v with
    | .error e => .error e
    | .ok none => .ok none
    | .ok (some d) => if d.st == .done then .ok (some (d, rest)) else process d rest

/-- `additional_integer_information_wordsize` — src/cbor.h:138-154; -1 as a `uint8_t` is 255. -/
def wordsize (d : ODec) : Nat :=
  if d.info == 24 then 1 else if d.info == 25 then 2 else if d.info == 26 then 4 else if d.info == 27 then 8 else 255

/-- `value<T>`, `value_additional<T>` — src/cbor.h:203-211, 223-229, as a `w`-bit number, `w` > 8. -/
def value (w : Nat) (d : ODec) : Except OFault Nat :=
  if d.info ≤ 24 then .ok d.info.toNat
  else if 1 + d.wordsize ≤ d.buf.length then .ok (uintGet w ((d.buf.drop 1).take d.wordsize))
  else .error .read

end ODec

/-- `Decoder::ParseResult` — src/cbor.h:303-314; `cut` is `Partial`. -/
inductive PResult
  | ok | cut | invalidType
deriving DecidableEq, Repr

/-- `get_int_experimental` — src/cbor.h:318-339, 32-bit `int`: the number, the result, the decoder and what
follows the pointer.  `maxlen` is not used by the code. -/
def getInt (d : ODec) (bytes : List UInt8) : Except OFault (Option (Int × PResult × ODec × List UInt8)) :=
  match d.process bytes with
  | .error e => .error e
  | .ok none => .ok none
  | .ok (some (d, rest)) =>
    if d.type == 0 then
      match d.value 32 with
      | .error e => .error e
      | .ok v => .ok (some (Cbor.CDec.toSigned 32 v, .ok, d, rest))
    else if d.type == 1 then
      match d.value 32 with
      | .error e => .error e
      | .ok v => .ok (some (-1 - Cbor.CDec.toSigned 32 v, .ok, d, rest))
    else .ok (some (0, .invalidType, d, rest))

/-- `get_map_experimental<TSize>` — src/cbor.h:341-353, `TSize` unsigned of 32 bits; the result is not written
(`none`) when it is a map. -/
def getMap (d : ODec) (bytes : List UInt8) : Except OFault (Option (Nat × Option PResult × ODec × List UInt8)) :=
  match d.process bytes with
  | .error e => .error e
  | .ok none => .ok none
  | .ok (some (d, rest)) =>
    if d.type != 5 then .ok (some (0, some .invalidType, d, rest))
    else
      match d.value 32 with
      | .error e => .error e
      | .ok v => .ok (some (v, none, d, rest))

/-- `get_string_experimental` — src/cbor.h:357-386, 64-bit `size_t`: the chunk (`none` for a null pointer).
Its bytes are read by the user: a chunk that reaches behind the end is a fault. -/
def getString (d : ODec) (bytes : List UInt8) (maxlen : Nat) :
    Except OFault (Option (Option (List UInt8) × PResult × ODec × List UInt8)) :=
  match d.process bytes with
  | .error e => .error e
  | .ok none => .ok none
  | .ok (some (d, rest)) =>
    if d.type != 3 then .ok (some (none, .invalidType, d, rest))
    else
      match d.value 64 with
      | .error e => .error e
      | .ok len =>
        let (len, res) := if len > maxlen then (maxlen, PResult.cut) else (len, .ok)
        if len ≤ rest.length then .ok (some (some (rest.take len), res, d, rest.drop len)) else .error .read

/-- The loop over one byte in `DecodeToObserver::decode` — src/cbor/cbor.cpp:298-321: the decoders with which
`OnType` is called. -/
def observeByte : Nat → ODec → UInt8 → Except OFault (Option (ODec × List ODec))
  | 0, _, _ => .ok none
  | fuel + 1, d, v =>
    match d.iterate v with
    | .error e => .error e
    | .ok (d, true) => .ok (some (d, []))
    | .ok (d, false) =>
      let calls := if d.st == .done && (d.type == 0 || d.type == 1 || d.type == 7) then [d] else []
      match observeByte fuel d v with
      | .error e => .error e
      | .ok none => .ok none
      | .ok (some (d, more)) => .ok (some (d, calls ++ more))

/-- `DecodeToObserver::decode` — src/cbor/cbor.cpp:284-323. -/
def observe : ODec → List UInt8 → Except OFault (Option (ODec × List ODec))
  | d, [] => .ok (some (d, []))
  | d, v :: rest =>
    match observeByte 4 d v with
    | .error e => .error e
    | .ok none => .ok none
    | .ok (some (d, calls)) =>
      match observe d rest with
      | .error e => .error e
      | .ok none => .ok none
      | .ok (some (d, more)) => .ok (some (d, calls ++ more))

end Verif.Model.CborOld
