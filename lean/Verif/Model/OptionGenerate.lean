import Verif.Model.OptionEncoder

/-!
# Model of `OptionEncoder` used by itself, header and value byte by byte

`generate` of src/coap-encoder.h and the two ways of running the encoder over an option: until it says that the option is done,
one byte at a time with `generate` (test/unit-tests/coap.cpp:103-106), or one step at a time with `generate_iterate`.
-/
namespace Verif.Model
namespace OptEnc

/-- `generate` — src/coap-encoder.h:55-64: repeat `generate_iterate` until there is a byte.  `outOfFuel` after `f` rounds without
one. -/
def generateByte : Nat → OptEnc → OptBase → Except Fault (OptEnc × UInt8)
  | 0, _, _ => .error .outOfFuel
  | f + 1, o, base =>
    match o.generate base with
    | .error e => .error e
    | .ok (o, none) => generateByte f o base
    | .ok (o, some b) => .ok (o, b)

/-- `while(sm.state() != OptionValueDone) buffer[counter++] = sm.generate();` — test/unit-tests/coap.cpp:103-106.  At most `f`
bytes, and each within `g` rounds; the buffer is taken to be large enough. -/
def byteLoop (g : Nat) : Nat → OptEnc → OptBase → Except Fault (OptEnc × List UInt8)
  | f, o, base =>
    if o.st == .optionValueDone then .ok (o, [])
    else match f with
      | 0 => .error .outOfFuel
      | f + 1 =>
        match generateByte g o base with
        | .error e => .error e
        | .ok (o, b) =>
          match byteLoop g f o base with
          | .error e => .error e
          | .ok (o, bs) => .ok (o, b :: bs)

/-- The same with `generate_iterate` (src/coap-encoder.cpp:50-170) in place of `generate`, where a call without a byte adds nothing
to the buffer. -/
def stepLoop : Nat → OptEnc → OptBase → Except Fault (OptEnc × List UInt8)
  | f, o, base =>
    if o.st == .optionValueDone then .ok (o, [])
    else match f with
      | 0 => .error .outOfFuel
      | f + 1 =>
        match o.generate base with
        | .error e => .error e
        | .ok (o, none) => stepLoop f o base
        | .ok (o, some b) =>
          match stepLoop f o base with
          | .error e => .error e
          | .ok (o, bs) => .ok (o, b :: bs)

/-- The first `n` bytes that `generate` (src/coap-encoder.h:55-64) returns, whatever the state says. -/
def firstBytes (g : Nat) : Nat → OptEnc → OptBase → Except Fault (List UInt8)
  | 0, _, _ => .ok []
  | n + 1, o, base =>
    match generateByte g o base with
    | .error e => .error e
    | .ok (o, b) =>
      match firstBytes g n o base with
      | .error e => .error e
      | .ok bs => .ok (b :: bs)

/-- Several options with the same encoder: `next(option)` (src/coap-encoder.h:89-96) and a loop for each. -/
def optionsWith (run : OptEnc → OptBase → Except Fault (OptEnc × List UInt8)) : OptEnc → List OptBase → Except Fault (OptEnc × List UInt8)
  | o, [] => .ok (o, [])
  | o, b :: bs =>
    match run o.next b with
    | .error e => .error e
    | .ok (o, x) =>
      match optionsWith run o bs with
      | .error e => .error e
      | .ok (o, y) => .ok (o, x ++ y)

end OptEnc
end Verif.Model
