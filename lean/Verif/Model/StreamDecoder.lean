import Verif.Model.Decoder

/-!
# Model of `src/coap/decoder/streambuf.hpp` and `src/coap/decoder/subject-core.hpp`

The stream buffer belongs to a library outside the repository.  It is modelled by its contract: the bytes in
the current segment, further segments that `underflow` brings in, `sbumpc`, `in_avail` and `pubseekoff`.  Two
points depend on the platform and on the stream buffer and are parameters: whether `char_type` is signed, and
whether `in_avail()` at the end of the data is -1 or 0.
-/
namespace Verif.Model
open Header

/-- A stream buffer: what is left of the current segment, and the segments after it —
src/coap/decoder/streambuf.hpp:8-213 (its parameter; the library is not in the checkout). -/
structure Sb where
  cur : List UInt8
  more : List (List UInt8)
deriving DecidableEq, Repr

/-- `charSigned`: `char_type` is signed, so the byte 0xFF compares equal to `eof()`.  `endNeg`: `in_avail()` is -1 at
the end of the data (0 otherwise) — src/coap/decoder/streambuf.hpp:38-39, 75-76. -/
structure SbKind where
  charSigned : Bool
  endNeg : Bool
deriving DecidableEq, Repr

namespace Sb

/-- `underflow`: go on to the next segment that has bytes — src/coap/decoder/streambuf.hpp:38-39, 75-76 (library code). -/
def pullFrom : List UInt8 → List (List UInt8) → Sb
  | b :: cur, more => ⟨b :: cur, more⟩
  | [], [] => ⟨[], []⟩
  | [], m :: more => pullFrom m more

/-- The current segment after `underflow` — called at src/coap/decoder/streambuf.hpp:38-39, 75-76 (library code). -/
def pull (s : Sb) : Sb := pullFrom s.cur s.more

/-- `(ch = streambuf.sbumpc()) != traits_type::eof()` with `ch` of type `char_type` —
src/coap/decoder/streambuf.hpp:38-39, 75-76: the byte if the comparison holds. -/
def bumpc (k : SbKind) (s : Sb) : Option UInt8 × Sb :=
  match s.pull.cur with
  | [] => (if k.charSigned then none else some 0xFF, s.pull)
  | b :: r => (if k.charSigned && b == 0xFF then none else some b, { s.pull with cur := r })

end Sb

namespace SDec

/-- The loop of state `Header` — src/coap/decoder/streambuf.hpp:38-40.  Four rounds are enough. -/
def headerLoop (k : SbKind) : Nat → Dec → Sb → Except Fault (Dec × Sb × Bool)
  | 0, _, _ => .error .outOfFuel
  | fuel + 1, d, s =>
    match s.bumpc k with
    | (none, s) => .ok (d, s, false)
    | (some b, s) =>
      match Dec.writeHeader d.hdr d.hpos b with
      | .error e => .error e
      | .ok hdr =>
        let d := { d with hdr := hdr, hpos := d.hpos + 1 }
        if d.hpos ≥ 4 then .ok (d, s, true) else headerLoop k fuel d s

/-- The loop of state `Token` — src/coap/decoder/streambuf.hpp:75-77.  The buffer has eight bytes, so nine
rounds are enough. -/
def tokenLoop (k : SbKind) : Nat → Dec → Sb → Except Fault (Dec × Sb × Bool)
  | 0, _, _ => .error .outOfFuel
  | fuel + 1, d, s =>
    match s.bumpc k with
    | (none, s) => .ok (d, s, false)
    | (some b, s) =>
      match writeAt d.tbuf d.tpos.toNat b with
      | none => .error .tokenOverflow
      | some tbuf =>
        let d := { d with tbuf := tbuf, tpos := d.tpos + 1, opt := { d.opt with st := .garbage } }
        if d.tpos ≥ d.hdr.tokenLength then .ok (d, s, true) else tokenLoop k fuel d s

/-- `OptionDecoder::process_iterate_streambuf` — src/coap/decoder/streambuf.hpp:260-281.  The caller has pulled.
`length` is a `size_t`: an `in_avail()` of -1 makes it huge, and the decoder reads past the end. -/
def optProcess (k : SbKind) (o : OptDec) (h : Holder) (s : Sb) : Except Fault (OptDec × Holder × Sb) :=
  if s.cur.length == 0 then
    if k.endNeg then .error .chunkOverread
    else
      match o.step 0 with
      | .error e => .error e
      | .ok (o, _) => .ok (o, h, s)
  else
    match o.process h s.cur false with
    | .error e => .error e
    | .ok (o, h, n) => .ok (o, h, { s with cur := s.cur.drop n })

/-- `process_iterate_streambuf` — src/coap/decoder/streambuf.hpp:8-213: decoder, stream and returned `eof`. -/
def step (k : SbKind) (d : Dec) (s : Sb) : Except Fault (Dec × Sb × Bool) :=
  let s := s.pull
  let eof := s.cur.length == 0
  match d.st with
  | .uninitialized => .ok ({ d with st := .header, hpos := 0 }, s, eof)
  | .header =>
    match headerLoop k 5 d s with
    | .error e => .error e
    | .ok (d, s, processDone) => .ok ({ d with st := if processDone then .headerDone else .header }, s, eof)
  | .headerDone =>
    if d.hdr.tokenLength > 0 then .ok ({ d with st := .tokenStart }, s, eof)
    else .ok ({ d with st := .tokenDone }, s, eof)
  | .tokenStart => .ok ({ d with st := .token, tpos := 0, opt := { d.opt with st := .garbage } }, s, eof)
  | .token =>
    match tokenLoop k 17 d s with
    | .error e => .error e
    | .ok (d, s, processDone) => .ok ({ d with st := if processDone then .tokenDone else .token }, s, eof)
  | .tokenDone => .ok ({ d with st := .optionsStart }, s, eof)
  | .optionsStart =>
    if eof then .ok ({ d with st := .optionsDone }, s, eof)
    else
      match optProcess k { d.opt with st := .firstByte } { number := 0, length := 0 } s with
      | .error e => .error e
      | .ok (o, h, s) =>
        .ok ({ d with opt := o, holder := h, st := if o.st == .payload then .optionsDone else .options }, s, eof)
  | .options =>
    match optProcess k d.opt d.holder s with
    | .error e => .error e
    | .ok (o, h, s) =>
      let s := s.pull
      let eof := s.cur.length == 0
      let d := { d with opt := o, holder := h }
      if o.st == .payload then .ok ({ d with st := .optionsDone }, s, eof)
      else if eof then .ok ({ d with st := if o.st == .optionValueDone then .optionsDone else .options }, s, eof)
      else .ok (d, s, eof)
  | .optionsDone =>
    if d.opt.st == .payload then .ok ({ d with st := .payload }, s, eof)
    else if eof then .ok ({ d with st := .done }, s, eof)
    else if s.cur.head? == some 0xFF then .ok ({ d with st := .payload }, { s with cur := s.cur.drop 1 }, eof)
    else .ok ({ d with st := .done }, s, eof)
  | .payload => .ok ({ d with st := if eof then .payloadDone else .payload }, s, eof)
  | .payloadDone => .ok ({ d with st := .done }, s, eof)
  | .done => .ok ({ d with st := .uninitialized }, s, eof)

/-- `option` — src/coap/decoder/streambuf.hpp:218-255. -/
def optionValue (d : Dec) (s : Sb) : List UInt8 × Bool :=
  (s.cur.take d.opt.length.toNat, decide (d.opt.length.toNat ≤ (s.cur.take d.opt.length.toNat).length))

/-- The notification part of `decode_and_notify` — src/coap/decoder/subject-core.hpp:33-136.  The payload event
hands over the stream itself; the model records what is left of its current segment and whether this is the last
one, for an observer that leaves the stream alone.  The stream is then moved past it (lines 118-126). -/
def notify (d : Dec) (s : Sb) : Except Fault (Sb × List Event) :=
  match d.st with
  | .headerDone => .ok (s, [.header d.hdr])
  | .tokenDone =>
    if d.hdr.tokenLength.toNat ≤ d.tbuf.length then .ok (s, [.token (d.tbuf.take d.hdr.tokenLength.toNat)])
    else .error .tokenOverread
  | .optionsStart => .ok (s, [.optionStart])
  | .options =>
    if d.opt.st == .valueStart then
      if d.holder.length > 0 then .ok (s, [.option d.holder.number (optionValue d s).1 (optionValue d s).2])
      else .ok (s, [.option d.holder.number [] true])
    else .ok (s, [])
  | .optionsDone => .ok (s, [.optionsCompleted])
  | .payload => .ok ({ s with cur := [] }, [.payload s.cur (s.more.all (·.isEmpty))])
  | .done => .ok (s, [.completed])
  | _ => .ok (s, [])

/-- `decode_and_notify` on a stream — src/coap/decoder/subject-core.hpp:12-139. -/
def stepNotify (k : SbKind) (d : Dec) (s : Sb) : Except Fault (Dec × Sb × List Event × Bool) :=
  match step k d s with
  | .error e => .error e
  | .ok (d, s, eof) =>
    match notify d s with
    | .error e => .error e
    | .ok (s, evs) => .ok (d, s, evs, eof)

/-- The caller's loop `do decode_and_notify while(state != Done)` — src/coap/platform/lwip/context.h:68-72. -/
def processToDone (k : SbKind) : Nat → Dec → Sb → Except Fault (Dec × List Event)
  | 0, _, _ => .error .outOfFuel
  | fuel + 1, d, s =>
    match stepNotify k d s with
    | .error e => .error e
    | .ok (d, s, evs, _) =>
      if d.st == .done then .ok (d, evs)
      else match processToDone k fuel d s with
        | .error e => .error e
        | .ok (d, evs') => .ok (d, evs ++ evs')

end SDec
end Verif.Model
