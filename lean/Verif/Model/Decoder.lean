import Verif.Model.OptionDecoder
import Verif.Model.UInt

/-!
# Model of `src/coap/decoder.cpp`, `decoder.h`, `decoder.hpp`, `decoder/simple.h` and
`decoder/subject.hpp`

The C++11 build keeps the token decoder and the option decoder in one union
(src/coap/decoder.h:131-136).  They are modelled as two fields; a write to the token decoder sets the
option state to `garbage`.  The state word then starts with the token position (0..8), so it cannot
read as `Payload` (11), which is the only comparison made before the option decoder is initialised
again.  Option decoding clobbers the token buffer; the token is not read after `TokenDone`.
-/
namespace Verif.Model
open Header

/-- `Root::State` — src/coap.h:83-99. -/
inductive DState
  | uninitialized | header | headerDone | tokenStart | token | tokenDone | optionsStart | options
  | optionsDone | payload | payloadDone | done
deriving DecidableEq, Repr

/-- `Decoder` — src/coap/decoder.h:111-265: header decoder (bytes and position), token decoder
(position and `buffer[8]`), option decoder and option holder. -/
structure Dec where
  st : DState
  hdr : Header
  hpos : UInt8
  tpos : UInt8
  tbuf : List UInt8
  opt : OptDec
  holder : Holder
deriving DecidableEq, Repr

/-- `DecoderContext` — src/coap/decoder.h:51-102. -/
structure Ctx where
  chunk : List UInt8
  pos : Nat
  last : Bool
deriving DecidableEq, Repr

/-- `DecoderContext::remainder` — src/coap/decoder.h:76-81. -/
def Ctx.remainder (c : Ctx) : List UInt8 := c.chunk.drop c.pos

/-- Events of src/coap/decoder/events.h:34-114. -/
inductive Event
  | header (h : Header)
  | token (chunk : List UInt8)
  | optionStart
  | option (number : UInt16) (chunk : List UInt8) (last : Bool)
  | optionsCompleted
  | payload (chunk : List UInt8) (last : Bool)
  | completed
deriving DecidableEq, Repr

namespace Dec

/-- `bytes[pos] = value` in the header decoder — src/coap/decoder/simple.h:81. -/
def writeHeader (h : Header) (pos : UInt8) (value : UInt8) : Except Fault Header :=
  if pos == 0 then .ok { h with b0 := value }
  else if pos == 1 then .ok { h with b1 := value }
  else if pos == 2 then .ok { h with b2 := value }
  else if pos == 3 then .ok { h with b3 := value }
  else .error .headerOverflow

/-- `header_process_iterate` — src/coap/decoder.hpp:8-23 with `HeaderDecoder::process_iterate`
(src/coap/decoder/simple.h:79-83), over the unread part of the chunk.  Returns the decoder, the number
of bytes read and `process_done`. -/
def headerLoop (d : Dec) : List UInt8 → Nat → Except Fault (Dec × Nat × Bool)
  | [], n => .ok (d, n, false)
  | b :: bs, n =>
    match writeHeader d.hdr d.hpos b with
    | .error e => .error e
    | .ok hdr =>
      let d := { d with hdr := hdr, hpos := d.hpos + 1 }
      if d.hpos ≥ 4 then .ok (d, n + 1, true) else headerLoop d bs (n + 1)

/-- `token_process_iterate` — src/coap/decoder.hpp:26-42 with `RawDecoder<8>::process_iterate`
(src/coap/decoder/simple.h:63-67). -/
def tokenLoop (d : Dec) : List UInt8 → Nat → Except Fault (Dec × Nat × Bool)
  | [], n => .ok (d, n, false)
  | b :: bs, n =>
    match writeAt d.tbuf d.tpos.toNat b with
    | none => .error .tokenOverflow
    | some tbuf =>
      let d := { d with tbuf := tbuf, tpos := d.tpos + 1, opt := { d.opt with st := .garbage } }
      if d.tpos ≥ d.hdr.tokenLength then .ok (d, n + 1, true) else tokenLoop d bs (n + 1)

/-- `Decoder::process_iterate` — src/coap/decoder.cpp:38-209; the result is the decoder and the
context. -/
def step (d : Dec) (c : Ctx) : Except Fault (Dec × Ctx) :=
  match d.st with
  | .uninitialized => .ok ({ d with st := .header, hpos := 0 }, c)
  | .header =>
    match headerLoop d c.remainder 0 with
    | .error e => .error e
    | .ok (d, n, processDone) =>
      .ok ({ d with st := if processDone then .headerDone else .header }, { c with pos := c.pos + n })
  | .headerDone =>
    if d.hdr.tokenLength > 0 then .ok ({ d with st := .tokenStart }, c)
    else .ok ({ d with st := .tokenDone }, c)
  | .tokenStart => .ok ({ d with st := .token, tpos := 0, opt := { d.opt with st := .garbage } }, c)
  | .token =>
    match tokenLoop d c.remainder 0 with
    | .error e => .error e
    | .ok (d, n, processDone) =>
      .ok ({ d with st := if processDone then .tokenDone else .token }, { c with pos := c.pos + n })
  | .tokenDone => .ok ({ d with st := .optionsStart }, c)
  | .optionsStart =>
    if c.remainder.length == 0 && c.last then .ok ({ d with st := .optionsDone }, c)
    else
      match OptDec.process { d.opt with st := .firstByte } { number := 0, length := 0 } c.remainder c.last with
      | .error e => .error e
      | .ok (o, h, n) =>
        .ok ({ d with opt := o, holder := h, st := if o.st == .payload then .optionsDone else .options },
          { c with pos := c.pos + n })
  | .options =>
    match OptDec.process d.opt d.holder c.remainder c.last with
    | .error e => .error e
    | .ok (o, h, n) =>
      let d := { d with opt := o, holder := h }
      let c := { c with pos := c.pos + n }
      if o.st == .payload then .ok ({ d with st := .optionsDone }, c)
      else if c.pos == c.chunk.length && c.last then
        .ok ({ d with st := if o.st == .optionValueDone then .optionsDone else .options }, c)
      else .ok (d, c)
  | .optionsDone =>
    if d.opt.st == .payload then .ok ({ d with st := .payload }, c)
    else if c.pos == c.chunk.length && c.last then .ok ({ d with st := .done }, c)
    else
      match c.chunk[c.pos]? with
      | none => .error .chunkOverread
      | some b =>
        if b == 0xFF then .ok ({ d with st := .payload }, { c with pos := c.pos + 1 })
        else .ok ({ d with st := .done }, c)
  | .payload =>
    .ok ({ d with st := if c.last then .payloadDone else .payload }, { c with pos := c.chunk.length })
  | .payloadDone => .ok ({ d with st := .done }, c)
  | .done => .ok ({ d with st := .uninitialized }, c)

/-- Return value of `Decoder::process_iterate` — src/coap/decoder.cpp:208. -/
def atEnd (c : Ctx) : Bool := c.pos == c.chunk.length

/-- `Decoder::option` — src/coap/decoder.cpp:11-35: the value chunk and `completed`. -/
def optionValue (d : Dec) (c : Ctx) : List UInt8 × Bool :=
  let valueLength := d.opt.length.toNat
  let ret := c.remainder
  if valueLength ≤ ret.length then (ret.take valueLength, true) else (ret, false)

/-- The notification part of `decode_and_notify` — src/coap/decoder/subject.hpp:37-99: the events fired
for the state reached (at most one). -/
def notify (d : Dec) (c : Ctx) : Except Fault (List Event) :=
  match d.st with
  | .headerDone => .ok [.header d.hdr]
  | .tokenDone =>
    if d.hdr.tokenLength.toNat ≤ d.tbuf.length then
      .ok [.token (d.tbuf.take d.hdr.tokenLength.toNat)]
    else .error .tokenOverread
  | .optionsStart => .ok [.optionStart]
  | .options =>
    if d.opt.st == .valueStart then
      if d.holder.length > 0 then
        .ok [.option d.holder.number (d.optionValue c).1 (d.optionValue c).2]
      else .ok [.option d.holder.number [] true]
    else .ok []
  | .optionsDone => .ok [.optionsCompleted]
  | .payload => .ok [.payload c.remainder c.last]
  | .done => .ok [.completed]
  | _ => .ok []

/-- `decode_and_notify` — src/coap/decoder/subject.hpp:19-102. -/
def stepNotify (d : Dec) (c : Ctx) : Except Fault (Dec × Ctx × List Event) :=
  match d.step c with
  | .error e => .error e
  | .ok (d, c) =>
    match d.notify c with
    | .error e => .error e
    | .ok evs => .ok (d, c, evs)

/-- `Decoder::process_experimental` — src/coap/decoder.h:260-264: `while(!decode_and_notify(...))`. -/
def process : Nat → Dec → Ctx → Except Fault (Dec × Ctx × List Event)
  | 0, _, _ => .error .outOfFuel
  | fuel + 1, d, c =>
    match d.stepNotify c with
    | .error e => .error e
    | .ok (d, c, evs) =>
      if atEnd c then .ok (d, c, evs)
      else match process fuel d c with
        | .error e => .error e
        | .ok (d, c, evs') => .ok (d, c, evs ++ evs')

/-- The caller's loop `do decode_and_notify while(state != Done)` — e.g.
src/coap/platform/lwip/context.h:68-72. -/
def processToDone : Nat → Dec → Ctx → Except Fault (Dec × Ctx × List Event)
  | 0, _, _ => .error .outOfFuel
  | fuel + 1, d, c =>
    match d.stepNotify c with
    | .error e => .error e
    | .ok (d, c, evs) =>
      if d.st == .done then .ok (d, c, evs)
      else match processToDone fuel d c with
        | .error e => .error e
        | .ok (d, c, evs') => .ok (d, c, evs ++ evs')

/-- `Decoder()` — src/coap/decoder.h:148, 225: only the state is initialised; everything else is
whatever memory held (`junk`).  `tbuf` is `buffer[8]`. -/
def fresh (junk : Dec) : Dec := { junk with st := .uninitialized }

/-- A decoder whose uninitialised storage happens to be zero; used in examples — src/coap/decoder.h:111-265. -/
def zero : Dec :=
  { st := .uninitialized, hdr := ⟨0, 0, 0, 0⟩, hpos := 0, tpos := 0, tbuf := List.replicate 8 0,
    opt := ⟨.garbage, 0, 0, 0, 0, 0⟩, holder := ⟨0, 0⟩ }

end Dec
end Verif.Model
