import Verif.Model.Server

/-!
# Model of `src/coap/platform/esp-idf/observer.h` and of `option_int` of the stream encoder

The version text is a parameter: it comes from the firmware image or a compiler definition.
-/
namespace Verif.Model
open Header

/-- `UInt::assess_bytes_used` — src/coap/uint.h:86-94, for an `int`: `>>= 8` is the arithmetic shift, that is the
quotient by 256 rounded down.  `.outOfFuel` means that the loop is still running. -/
def assessInt : Nat → Int → UInt8 → Except Fault UInt8
  | 0, _, _ => .error .outOfFuel
  | fuel + 1, input, c => if input = 0 then .ok c else assessInt fuel (input / 256) (c + 1)

/-- `option_int` — src/coap/encoder/streambuf.h:202-209 with `layer2::UInt<4>::set` (src/coap/uint.h:261-269).  `junk` is
the uninitialised storage of the vector, whose `resize` (library code outside the checkout) is taken to leave the
bytes that are there. -/
def SEnc.optionInt (fuel : Nat) (s : SEnc) (number : UInt16) (v : Int) (junk : List UInt8) : Except Fault (SEnc × Bool) :=
  match assessInt fuel v 0 with
  | .error e => .error e
  | .ok n =>
    match uintSetLen n.toNat v.toNat junk with
    | none => .error .optionBufferOverflow
    | some buf => s.option number (buf.take n.toNat)

namespace SCtx

/-- `build_version_response` — src/coap/platform/esp-idf/observer.h:27-53: 2.05 Content (0x45, src/coap/header.h:102),
Content-Format (12) 0, the marker, the text.  The results of the writes are not looked at. -/
def versionReply (x : SCtx) (cap : Nat) (text junk : List UInt8) : Except Fault (List UInt8) :=
  match x.getToken with
  | .error e => .error e
  | .ok token =>
    match (((SEnc.init cap).header ((x.hdr.setCode 0x45).setType acknowledgement)).token token).optionInt 8 12 0 junk with
    | .error e => .error e
    | .ok (s, _) => .ok (s.payloadMarker.1.putn text).1.out

/-- All observers for one event, with `VersionObserver` (src/coap/platform/esp-idf/observer.h:58-77) for node `id` among
them. -/
def versionEvent (cap : Nat) (id : Int) (text junk : List UInt8) (x : SCtx) : Event → Except Fault SCtx
  | .completed =>
    if x.foundNode = id then
      match x.versionReply cap text junk with
      | .error e => .error e
      | .ok r => .ok { x with sent := x.sent ++ [r] }
    else .ok x
  | e => x.onEvent cap e

/-- The events of a message, one after the other — src/coap/decoder/subject.hpp:6-64. -/
def versionEvents (cap : Nat) (id : Int) (text junk : List UInt8) (x : SCtx) : List Event → Except Fault SCtx
  | [] => .ok x
  | e :: es =>
    match x.versionEvent cap id text junk e with
    | .error f => .error f
    | .ok x => versionEvents cap id text junk x es

end SCtx

/-- A server for one datagram — src/coap/platform/lwip/context.h:60-73, with the buffer decoder: the messages sent in
reply. -/
def serveVersion (cap : Nat) (paths : List Uri.Entry) (id : Int) (text : List UInt8) (junk : Dec) (junkToken junkVec : List UInt8)
    (fuel : Nat) (bytes : List UInt8) : Except Fault (List (List UInt8)) :=
  match Dec.processToDone fuel (Dec.fresh junk) ⟨bytes, 0, true⟩ with
  | .error e => .error e
  | .ok (_, _, evs) =>
    match (SCtx.init paths junkToken).versionEvents cap id text junkVec evs with
    | .error e => .error e
    | .ok x => .ok x.sent

/-- As `serveVersion`, with the stream decoder that src/coap/platform/lwip/context.h:60-73 uses, on a datagram in one
segment. -/
def serveVersionStream (k : SbKind) (cap : Nat) (paths : List Uri.Entry) (id : Int) (text : List UInt8) (junk : Dec)
    (junkToken junkVec : List UInt8) (fuel : Nat) (bytes : List UInt8) : Except Fault (List (List UInt8)) :=
  match SDec.processToDone k fuel (Dec.fresh junk) ⟨bytes, []⟩ with
  | .error e => .error e
  | .ok (_, evs) =>
    match (SCtx.init paths junkToken).versionEvents cap id text junkVec evs with
    | .error e => .error e
    | .ok x => .ok x.sent

end Verif.Model
