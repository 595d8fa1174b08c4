import Verif.Model.StreamDecoder

/-!
# The model run on the repository's own decoder tests

Each `example` runs the model on the input of one of the repository's unit tests and checks what that test
requires of the code.  These are tests of the model, not proofs of any property: they compare the model with the
expectations the authors wrote down, which is the only evidence about the running code that the text of the
repository holds.
-/
namespace Verif.Conformance
open Verif.Model

/-- `buffer_16bit_delta` — test/unit-tests/test-data.h:6-17. -/
def buffer16bitDelta : List UInt8 :=
  [0x40, 0x01, 0x01, 0x23, 0xE1, 0x00, 0x01, 0x03, 0x12, 0x04, 0x05, 0xFF, 0x10, 0x11, 0x12, 0x13, 0x14, 0x15, 0x16]

/-- `buffer_payload_only` — test/unit-tests/test-data.h. -/
def bufferPayloadOnly : List UInt8 := [0x40, 0, 0, 0, 0xFF, 0x10, 0x11, 0x12, 0x13, 0x14, 0x15, 0x16]

/-- `buffer_oversimplified_observe` — test/unit-tests/test-data.h. -/
def bufferOversimplifiedObserve : List UInt8 := [0x40, 0x00, 0x01, 0x23, 0x60]

/-- What a test looks at after each `process_iterate`: the return value, the state, the option decoder's state and
the option's number and length. -/
abbrev Seen := Bool × DState × OState × UInt16 × UInt16

/-- `n` calls of `process_iterate` on one chunk. -/
def iterates (d : Dec) (c : Ctx) : Nat → List Seen
  | 0 => []
  | n + 1 =>
    match d.step c with
    | .error _ => []
    | .ok (d, c) => (Dec.atEnd c, d.st, d.opt.st, d.holder.number, d.holder.length) :: iterates d c n

/-- The same on a stream. -/
def streamIterates (d : Dec) (s : Sb) : Nat → List Seen
  | 0 => []
  | n + 1 =>
    match SDec.step ⟨false, true⟩ d s with
    | .error _ => []
    | .ok (d, s, eof) => (eof, d.st, d.opt.st, d.holder.number, d.holder.length) :: streamIterates d s n

/-- The decoder after `n` calls of `process_iterate` on one chunk. -/
def decAfter (d : Dec) (c : Ctx) : Nat → Option Dec
  | 0 => some d
  | n + 1 =>
    match d.step c with
    | .error _ => none
    | .ok (d, c) => decAfter d c n

/-- The decoder and the stream after `n` calls of `process_iterate_streambuf`. -/
def streamAfter (d : Dec) (s : Sb) : Nat → Option (Dec × Sb)
  | 0 => some (d, s)
  | n + 1 =>
    match SDec.step ⟨false, true⟩ d s with
    | .error _ => none
    | .ok (d, s, _) => streamAfter d s n

/-- `while(!process_iterate(context))` on chunks of one byte each; what is seen after each byte. -/
def byteByByte (d : Dec) : List UInt8 → List Seen
  | [] => []
  | b :: bs =>
    match Dec.process 20 d ⟨[b], 0, bs.isEmpty⟩ with
    | .error _ => []
    | .ok (d, c, _) => (Dec.atEnd c, d.st, d.opt.st, d.holder.number, d.holder.length) :: byteByByte d bs

/-- "Payload only test" — test/unit-tests/coap-decoder-test.cpp:43-66. -/
example : ((iterates Dec.zero ⟨bufferPayloadOnly, 0, true⟩ 6).map fun x => (x.1, x.2.1)) =
    [(false, .header), (false, .headerDone), (false, .tokenDone), (false, .optionsStart), (false, .optionsDone),
     (false, .payload)] := by decide +kernel

/-- "16 bit delta test" — test/unit-tests/coap-decoder-test.cpp:67-119, as compiled with
`FEATURE_MCCOAP_SUCCINCT_OPTIONDECODE` (src/coap/decoder.h:32): return values and states. -/
example : ((iterates Dec.zero ⟨buffer16bitDelta, 0, true⟩ 9).map fun x => (x.1, x.2.1)) =
    [(false, .header), (false, .headerDone), (false, .tokenDone), (false, .optionsStart), (false, .options),
     (false, .options), (false, .options), (false, .options), (false, .optionsDone)] := by decide +kernel

/-- The same test: the option decoder's state with the number and the length of the option. -/
example : (((iterates Dec.zero ⟨buffer16bitDelta, 0, true⟩ 8).drop 4).map fun x => x.2.2) =
    [(.valueStart, 270, 1), (.optionValueDone, 270, 1), (.valueStart, 271, 2), (.optionValueDone, 271, 2)] := by
  decide +kernel

/-- The same test: `option_delta()` at the start of each value. -/
example : (decAfter Dec.zero ⟨buffer16bitDelta, 0, true⟩ 5).map (·.opt.delta) = some 270 ∧
    (decAfter Dec.zero ⟨buffer16bitDelta, 0, true⟩ 7).map (·.opt.delta) = some 1 := by decide +kernel

/-- "Parity test with bronze-star project" — test/unit-tests/coap-decoder-test.cpp:120-136. -/
example : ((iterates Dec.zero ⟨[0x44, 0x01, 0x6F, 0x34], 0, true⟩ 2).map fun x => x.2.1) = [.header, .headerDone] := by
  decide +kernel

/-- "streambuf native style" — test/unit-tests/coap-decoder-test.cpp:180-243, and test/unity/decoder.cpp. -/
example : ((streamIterates Dec.zero ⟨buffer16bitDelta, []⟩ 10).map fun x => (x.1, x.2.1)) =
    [(false, .header), (false, .headerDone), (false, .tokenDone), (false, .optionsStart), (false, .options),
     (false, .options), (false, .options), (false, .options), (false, .optionsDone), (false, .payload)] := by
  decide +kernel

example : (((streamIterates Dec.zero ⟨buffer16bitDelta, []⟩ 8).drop 4).map fun x => x.2.2) =
    [(.valueStart, 270, 1), (.optionValueDone, 270, 1), (.valueStart, 271, 2), (.optionValueDone, 271, 2)] := by
  decide +kernel

/-- The same test: at `Payload` the stream holds the seven bytes of the payload; once they are read the next call
returns `true` and the state is `PayloadDone`. -/
example : ((streamAfter Dec.zero ⟨buffer16bitDelta, []⟩ 10).map fun x => x.2.cur) =
      some [0x10, 0x11, 0x12, 0x13, 0x14, 0x15, 0x16] ∧
    ((streamAfter Dec.zero ⟨buffer16bitDelta, []⟩ 10).map fun x =>
      (streamIterates x.1 { x.2 with cur := [] } 1).map fun y => (y.1, y.2.1)) = some [(true, .payloadDone)] := by
  decide +kernel

/-- The same test: `header_decoder().message_id()` once the header is done. -/
example : ((streamAfter Dec.zero ⟨buffer16bitDelta, []⟩ 2).map fun x => x.1.hdr.messageId) = some 0x0123 := by
  decide +kernel

/-- "Basic parsing" — test/unit-tests/coap_lowlevel.cpp:32-95. -/
def basicParsing : List UInt8 := [0x40, 0, 0, 0, 0x11, 0x03, 0x12, 0x04, 0x05]

example : ((byteByByte Dec.zero basicParsing)[3]?.map fun x => x.2.1) = some .headerDone ∧
    ((byteByByte Dec.zero basicParsing)[4]?.map (·.2)) = some (.options, .optionDeltaAndLengthDone, 1, 1) ∧
    ((byteByByte Dec.zero basicParsing)[5]?.map fun x => (x.2.1, x.2.2.1)) = some (.options, .optionValueDone) ∧
    ((byteByByte Dec.zero basicParsing)[6]?.map fun x => (x.2.1, x.2.2.2)) = some (.options, 2, 2) ∧
    ((byteByByte Dec.zero basicParsing)[7]?.map fun x => (x.2.1, x.2.2.1)) = some (.options, .optionValue) ∧
    ((byteByByte Dec.zero basicParsing)[8]?.map fun x => (x.2.1, x.2.2.1)) = some (.optionsDone, .optionValueDone) := by
  decide +kernel

/-- "Basic Parsing: 16 bit" — test/unit-tests/coap_lowlevel.cpp:96-173. -/
example : ((byteByByte Dec.zero buffer16bitDelta)[3]?.map fun x => x.2.1) = some .headerDone ∧
    ((byteByByte Dec.zero buffer16bitDelta)[4]?.map fun x => (x.2.1, x.2.2.1, x.2.2.2.2)) =
      some (.options, .optionLengthDone, 1) ∧
    ((byteByByte Dec.zero buffer16bitDelta)[5]?.map fun x => (x.2.1, x.2.2.1)) = some (.options, .optionDelta) ∧
    ((byteByByte Dec.zero buffer16bitDelta)[6]?.map fun x => (x.2.1, x.2.2.1, x.2.2.2.1)) =
      some (.options, .optionDeltaDone, 270) := by decide +kernel

example : ((byteByByte Dec.zero buffer16bitDelta)[7]?.map fun x => (x.2.1, x.2.2.1)) =
      some (.options, .optionValueDone) ∧
    ((byteByByte Dec.zero buffer16bitDelta)[8]?.map (·.2)) = some (.options, .optionDeltaAndLengthDone, 271, 2) ∧
    ((byteByByte Dec.zero buffer16bitDelta)[9]?.map fun x => (x.2.1, x.2.2.1)) = some (.options, .optionValue) ∧
    ((byteByByte Dec.zero buffer16bitDelta)[10]?.map fun x => (x.2.1, x.2.2.1)) = some (.options, .optionValueDone) ∧
    ((byteByByte Dec.zero buffer16bitDelta)[11]?.map fun x => x.2.1) = some .optionsDone := by decide +kernel

/-- test/unit-tests/coap-observable-test.cpp: after five calls the decoder is at the Observe option, which is empty. -/
example : ((iterates Dec.zero ⟨bufferOversimplifiedObserve, 0, true⟩ 5)[4]?.map fun x => (x.2.1, x.2.2.2)) =
    some (.options, 6, 0) := by decide +kernel

end Verif.Conformance
