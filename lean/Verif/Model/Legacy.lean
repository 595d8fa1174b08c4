import Verif.Model.Decoder

/-!
# Model of `DecoderSubjectBase` (src/coap/decoder/subject.h:165-257, subject.hpp:106-218)

The older dispatch, which calls `on_header`, `on_token`, `on_option`, `on_payload` and `on_complete` of a
message observer.  `FEATURE_MCCOAP_LEGACY_EVENTS` (subject.h:21-23) and `FEATURE_MCCOAP_COMPLETE_OBSERVER`
(src/coap-features.h:28) are on.
-/
namespace Verif.Model
open Header Dec

/-- Calls made on the message observer — src/coap/decoder/observer.h:60-77. -/
inductive LEvent
  | header (h : Header)
  | token (chunk : List UInt8) (last : Bool)
  | option (number length : UInt16)
  | value (number : UInt16) (chunk : List UInt8) (last : Bool)
  | payload (chunk : List UInt8) (last : Bool)
  | complete
deriving DecidableEq, Repr

namespace Dec

/-- `observer_on_option(chunk)` — src/coap/decoder/subject.hpp:152-170.  `subset(n)` of the memory library is
taken to be the first `n` bytes. -/
def legacyValue (d : Dec) (chunk : List UInt8) : List LEvent × Dec :=
  if chunk.length < d.holder.length.toNat then
    ([.value d.holder.number chunk false],
      { d with holder := { d.holder with length := d.holder.length - UInt16.ofNat chunk.length } })
  else ([.value d.holder.number (chunk.take d.holder.length.toNat) true], d)

/-- `dispatch_option` — src/coap/decoder/subject.hpp:175-199. -/
def legacyOption (d : Dec) (c : Ctx) : List LEvent × Dec :=
  match d.opt.st with
  | .valueStart =>
    if d.holder.length == 0 then ([.option d.holder.number d.holder.length], d)
    else
      (.option d.holder.number d.holder.length :: (d.legacyValue c.remainder).1, (d.legacyValue c.remainder).2)
  | .optionValue => d.legacyValue c.remainder
  | _ => ([], d)

/-- `dispatch_token` — src/coap/decoder/subject.hpp:202-218. -/
def legacyToken (d : Dec) : Except Fault (List LEvent) :=
  if d.hdr.tokenLength == 0 then .ok []
  else if d.hdr.tokenLength.toNat ≤ d.tbuf.length then .ok [.token (d.tbuf.take d.hdr.tokenLength.toNat) true]
  else .error .tokenOverread

/-- The `switch` of `dispatch_iterate` — src/coap/decoder/subject.hpp:112-145. -/
def legacyDispatch (d : Dec) (c : Ctx) : Except Fault (List LEvent × Dec) :=
  match d.st with
  | .headerDone => .ok ([.header d.hdr], d)
  | .tokenDone =>
    match d.legacyToken with
    | .error e => .error e
    | .ok evs => .ok (evs, d)
  | .options => .ok (d.legacyOption c)
  | .payload => .ok (.payload c.remainder c.last :: (if c.last then [.complete] else []), d)
  | .done => .ok ([.complete], d)
  | _ => .ok ([], d)

/-- `dispatch_iterate` — src/coap/decoder/subject.hpp:110-148: report on the current state, then step. -/
def legacyIterate (d : Dec) (c : Ctx) : Except Fault (Dec × Ctx × List LEvent) :=
  match d.legacyDispatch c with
  | .error e => .error e
  | .ok (evs, d) =>
    match d.step c with
    | .error e => .error e
    | .ok (d, c) => .ok (d, c, evs)

/-- `dispatch` — src/coap/decoder/subject.h:241-248: `while(!dispatch_iterate(context) && state != Done)`.
The result holds the final context; its `pos` is the return value. -/
def legacyRun : Nat → Dec → Ctx → Except Fault (Dec × Ctx × List LEvent)
  | 0, _, _ => .error .outOfFuel
  | fuel + 1, d, c =>
    match d.legacyIterate c with
    | .error e => .error e
    | .ok (d, c, evs) =>
      if atEnd c || d.st == .done then .ok (d, c, evs)
      else match legacyRun fuel d c with
        | .error e => .error e
        | .ok (d, c, evs') => .ok (d, c, evs ++ evs')

/-- A message handed over in several calls of `dispatch`, only the last one flagged `last_chunk` — src/coap/decoder/subject.h:241-248. -/
def legacyChunks (fuel : Nat) (d : Dec) : List (List UInt8) → List UInt8 → Except Fault (Dec × List LEvent)
  | [], l =>
    match legacyRun fuel d ⟨l, 0, true⟩ with
    | .error e => .error e
    | .ok (d, _, evs) => .ok (d, evs)
  | c :: cs, l =>
    match legacyRun fuel d ⟨c, 0, false⟩ with
    | .error e => .error e
    | .ok (d, _, evs) =>
      match legacyChunks fuel d cs l with
      | .error e => .error e
      | .ok (d, evs') => .ok (d, evs ++ evs')

end Dec
end Verif.Model
