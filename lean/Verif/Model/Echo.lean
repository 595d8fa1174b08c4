import Verif.Model.Responder
import Verif.Model.Observable

/-!
# Model of the ESP32 example servers `echo`, `echo-subject` and `boilerplate-subject` (test/rtos/esp32)

The lwIP stream buffers are those of `Model/StreamDecoder` and `Model/StreamEncoder`: a datagram is a chain of segments,
the reply has room for `cap` bytes.  Log calls are left out, except that `ESP_LOG_BUFFER_HEX` reads the bytes the reply
reads as well.
-/
namespace Verif.Model
open Header Observable

/-- `n` calls of `process_iterate_streambuf` — src/coap/decoder/streambuf.hpp:8-213. -/
def SDec.iterate (k : SbKind) : Nat → Dec → Sb → Except Fault (Dec × Sb)
  | 0, d, s => .ok (d, s)
  | n + 1, d, s =>
    match SDec.step k d s with
    | .error e => .error e
    | .ok (d, s, _) => iterate k n d s

/-- `udp_coap_recv` of the echo server — test/rtos/esp32/echo/main/udp-coap.cpp:24-92: two calls, then the header is
copied (line 53); four more calls (lines 60-70); `token` points into the decoder (line 67), which is read when the reply
is written (line 79).  The value `eof` of the calls is not looked at. -/
def echoReply (k : SbKind) (cap : Nat) (junk : Dec) (s : Sb) : Except Fault (List UInt8) :=
  match SDec.iterate k 2 (Dec.fresh junk) s with
  | .error e => .error e
  | .ok (d, s) =>
    let header := d.hdr
    match SDec.iterate k 4 d s with
    | .error e => .error e
    | .ok (d, _) =>
      if header.tokenLength.toNat ≤ d.tbuf.length then
        .ok (((SEnc.init cap).header ((header.setType acknowledgement).setCode codeValid)).token
          (d.tbuf.take header.tokenLength.toNat)).out
      else .error .tokenOverread

namespace SCtx

/-- A message handed to `reply` — src/coap/platform/lwip/context.h:113-127. -/
def send (x : SCtx) : Except Fault (List UInt8) → Except Fault SCtx
  | .error e => .error e
  | .ok r => .ok { x with sent := x.sent ++ [r] }

/-- The observers of the server `echo-subject` — test/rtos/esp32/echo-subject/main/udp-coap.cpp:20-38, 52-55: header,
token, then `Observer`. -/
def echoEvent (cap : Nat) (x : SCtx) : Event → Except Fault SCtx
  | .header h => .ok (x.setHeader h)
  | .token t => x.setToken t
  | .completed => x.send (x.buildReply cap codeValid)
  | _ => .ok x

/-- The observers of the server `boilerplate-subject` — test/rtos/esp32/boilerplate-subject/main/app.cpp:33-63: header,
token, path, then `Observer`; `id` is `id_path_v1_api_version`. -/
def boilerEvent (cap : Nat) (id : Int) (text junk : List UInt8) (x : SCtx) : Event → Except Fault SCtx
  | .header h => .ok (x.setHeader h)
  | .token t => x.setToken t
  | .option number chunk _ => .ok (if number == 11 then { x with uri := (x.uri.find (str chunk)).1 } else x)
  | .completed => x.send (if x.foundNode = id then x.versionReply cap text junk else x.buildReply cap 0x84)
  | _ => .ok x

/-- The events of a message, one after the other — src/coap/platform/lwip/context.h:60-73. -/
def runEvents (on : SCtx → Event → Except Fault SCtx) : SCtx → List Event → Except Fault SCtx
  | x, [] => .ok x
  | x, e :: es =>
    match on x e with
    | .error f => .error f
    | .ok x => runEvents on x es

end SCtx

/-- `do_notify` — src/coap/platform/lwip/context.h:60-73, on a datagram in segments: the messages sent in reply. -/
def serveWith (on : SCtx → Event → Except Fault SCtx) (k : SbKind) (paths : List Uri.Entry) (junk : Dec) (junkToken : List UInt8)
    (fuel : Nat) (s : Sb) : Except Fault (List (List UInt8)) :=
  match SDec.processToDone k fuel (Dec.fresh junk) s with
  | .error e => .error e
  | .ok (_, evs) =>
    match SCtx.runEvents on (SCtx.init paths junkToken) evs with
    | .error e => .error e
    | .ok x => .ok x.sent

end Verif.Model
