import Verif.Model.StreamDecoder
import Verif.Model.StreamEncoder
import Verif.Model.UriPath

/-!
# Model of `src/coap/context.h`, `src/coap/encoder/factory.h` and `src/coap/decoder/observer/util.h`

The observers are stateless; an event is handed to all of them in the order of the subject
(test/rtos/esp32/boilerplate-subject/main/app.cpp:58-63): header, token, URI parser, then `Auto404Observer`.  The
encoder writes into a stream buffer with room for `cap` bytes.
-/
namespace Verif.Model
open Header

/-- `IncomingContext` with an inline token and `UriParserContext` — src/coap/context.h:44-71, 108-126, 217-231 and
src/coap/decoder/observer/util.h:25-49.  `token` is the eight-byte array; `sent` are the messages given to
`reply`. -/
structure SCtx where
  hdr : Header
  token : List UInt8
  uri : Uri.Matcher
  sent : List (List UInt8)
deriving DecidableEq, Repr

namespace SCtx

/-- Constructors — src/coap/context.h:113-118, src/coap/decoder/observer/util.h:36-37.  The token array is not
initialised (`junk`). -/
def init (paths : List Uri.Entry) (junk : List UInt8) : SCtx := ⟨⟨0, 0, 0, 0⟩, junk, Uri.Matcher.init paths, []⟩

/-- `HeaderContext::header` — src/coap/context.h:123, called at src/coap/decoder/observer/util.h:67-70. -/
def setHeader (x : SCtx) (h : Header) : SCtx := { x with hdr := h }

/-- `TokenContext<true>::token` — src/coap/context.h:60-65, called at src/coap/decoder/observer/util.h:57-61. -/
def setToken (x : SCtx) (t : List UInt8) : Except Fault SCtx :=
  if t.length ≤ x.token.length then .ok { x with token := t ++ x.token.drop t.length } else .error .tokenOverflow

/-- `TokenAndHeaderContext<true>::token()` — src/coap/context.h:221-225. -/
def getToken (x : SCtx) : Except Fault (List UInt8) :=
  if x.hdr.tokenLength.toNat ≤ x.token.length then .ok (x.token.take x.hdr.tokenLength.toNat) else .error .tokenOverread

/-- `event.string()` — src/coap/decoder/events.h:47-50. -/
def str (bs : List UInt8) : List Char := bs.map fun b => Char.ofNat b.toNat

/-- `build_reply` — src/coap/encoder/factory.h:21-34, with `make_encoder_reply` (lines 41-48): what is in the stream
buffer afterwards. -/
def buildReply (x : SCtx) (cap : Nat) (code : UInt8) : Except Fault (List UInt8) :=
  match x.getToken with
  | .error e => .error e
  | .ok token => .ok (((SEnc.init cap).header ((x.hdr.setCode code).setType acknowledgement)).token token).out

/-- `found_node` — src/coap/decoder/observer/util.h:41-49. -/
def foundNode (x : SCtx) : Int := x.uri.lastFound

/-- All observers for one event — src/coap/decoder/observer/util.h:55-95, 138-152; 0x84 is 4.04
(src/coap/header.h:107). -/
def onEvent (cap : Nat) (x : SCtx) : Event → Except Fault SCtx
  | .header h => .ok (x.setHeader h)
  | .token t => x.setToken t
  | .option number chunk _ => .ok (if number == 11 then { x with uri := (x.uri.find (str chunk)).1 } else x)
  | .optionsCompleted =>
    if x.foundNode ≠ Uri.none_ then .ok x
    else
      match x.buildReply cap 0x84 with
      | .error e => .error e
      | .ok r => .ok { x with sent := x.sent ++ [r] }
  | _ => .ok x

/-- The events of a message, one after the other — src/coap/platform/lwip/context.h:60-73. -/
def onEvents (cap : Nat) (x : SCtx) : List Event → Except Fault SCtx
  | [] => .ok x
  | e :: es =>
    match x.onEvent cap e with
    | .error f => .error f
    | .ok x => onEvents cap x es

end SCtx

/-- A server for one datagram — src/coap/platform/lwip/context.h:60-73 and
test/rtos/esp32/boilerplate-subject/main/app.cpp:66-81, with the buffer decoder: the messages sent in reply. -/
def serve (cap : Nat) (paths : List Uri.Entry) (junk : Dec) (junkToken : List UInt8) (fuel : Nat) (bytes : List UInt8) :
    Except Fault (List (List UInt8)) :=
  match Dec.processToDone fuel (Dec.fresh junk) ⟨bytes, 0, true⟩ with
  | .error e => .error e
  | .ok (_, _, evs) =>
    match (SCtx.init paths junkToken).onEvents cap evs with
    | .error e => .error e
    | .ok x => .ok x.sent

/-- As `serve`, with the stream decoder that src/coap/platform/lwip/context.h:60-73 uses, on a datagram in one
segment. -/
def serveStream (k : SbKind) (cap : Nat) (paths : List Uri.Entry) (junk : Dec) (junkToken : List UInt8) (fuel : Nat)
    (bytes : List UInt8) : Except Fault (List (List UInt8)) :=
  match SDec.processToDone k fuel (Dec.fresh junk) ⟨bytes, []⟩ with
  | .error e => .error e
  | .ok (_, evs) =>
    match (SCtx.init paths junkToken).onEvents cap evs with
    | .error e => .error e
    | .ok x => .ok x.sent

end Verif.Model
