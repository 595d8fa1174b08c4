/-!
# Model of `src/coap/header.h`

The C++ `Header` is a union of `bytes[4]` and `raw`; only `bytes` is modelled (`raw` is used for bulk
copy and zeroing only).  `ASSERT_*` macros are log-only and are dropped (see DESIGN.md).
-/
namespace Verif.Model

/-- `Header::bytes[4]` — src/coap/header.h:141-146. -/
structure Header where
  b0 : UInt8
  b1 : UInt8
  b2 : UInt8
  b3 : UInt8
deriving DecidableEq, Repr

namespace Header

/-- The four bytes in memory (= wire) order — src/coap/header.h:143. -/
def bytes (h : Header) : List UInt8 := [h.b0, h.b1, h.b2, h.b3]

/-- `hton` — src/coap/header.h:39-43 (high byte, low byte). -/
def hton (v : UInt16) : UInt8 × UInt8 := ((v >>> 8).toUInt8, (v &&& 0xFF).toUInt8)

/-- `nto_uint16` — src/coap/header.h:46-52. -/
def ntoh (hi lo : UInt8) : UInt16 := (hi.toUInt16 <<< 8) ||| lo.toUInt16

/-- `Header::code()` — src/coap/header.h:170-173. -/
def code (h : Header) : UInt8 := h.b1

/-- `Header::code(uint8_t)` — src/coap/header.h:248-251. -/
def setCode (h : Header) (c : UInt8) : Header := { h with b1 := c }

/-- `Header::type()` — src/coap/header.h:185-196. -/
def type (h : Header) : UInt8 := (h.b0 &&& 0x30) >>> 4

/-- `Header::type(TypeEnum)` — src/coap/header.h:207-214.  The enum is passed as its `uint8_t` value,
not masked, exactly as in the code. -/
def setType (h : Header) (t : UInt8) : Header :=
  { h with b0 := (h.b0 &&& ~~~(0x30 : UInt8)) ||| (t <<< 4) }

/-- `Header::message_id(uint16_t)` — src/coap/header.h:271-278. -/
def setMessageId (h : Header) (mid : UInt16) : Header :=
  { h with b2 := (hton mid).1, b3 := (hton mid).2 }

/-- `Header::message_id()` — src/coap/header.h:280-288. -/
def messageId (h : Header) : UInt16 := ntoh h.b2 h.b3

/-- `Header::copy_message_id` — src/coap/header.h:256-260. -/
def copyMessageId (h from_ : Header) : Header := { h with b2 := from_.b2, b3 := from_.b3 }

/-- `Header::token_length(uint8_t)` — src/coap/header.h:290-296.  `tkl` is or-ed in un-masked. -/
def setTokenLength (h : Header) (tkl : UInt8) : Header :=
  { h with b0 := (h.b0 &&& ~~~(0x0F : UInt8)) ||| tkl }

/-- `Header::token_length()` — src/coap/header.h:299-306. -/
def tokenLength (h : Header) : UInt8 := h.b0 &&& 0x0F

/-- `Header::version()` — src/coap/header.h:309-313. -/
def version (h : Header) : UInt8 := h.b0 >>> 6

/-- `Code::get_class()` — src/coap/header.h:123. -/
def codeClass (c : UInt8) : UInt8 := c >>> 5

/-- `Code::detail()` — src/coap/header.h:125. -/
def codeDetail (c : UInt8) : UInt8 := c &&& 0x1F

/-- `Code::is_request()` — src/coap/header.h:129. -/
def codeIsRequest (c : UInt8) : Bool := codeClass c == 0

/-- `Header::is_request()` — src/coap/header.h:223-226. -/
def isRequest (h : Header) : Bool := (h.code >>> 5) == 0

/-- `Header::is_response()` — src/coap/header.h:228. -/
def isResponse (h : Header) : Bool := !h.isRequest

/-- `Header(TypeEnum)` — src/coap/header.h:322-327 (`mask_or` is lines 199-203). -/
def mk1 (t : UInt8) : Header :=
  { b0 := ((0 : UInt8) ||| ((1 : UInt8) <<< 6)) ||| (t <<< 4), b1 := 0, b2 := 0, b3 := 0 }

/-- `Header(TypeEnum, Code::Codes)` — src/coap/header.h:330-336. -/
def mk2 (t c : UInt8) : Header :=
  { b0 := ((0 : UInt8) ||| ((1 : UInt8) <<< 6)) ||| (t <<< 4), b1 := c, b2 := 0, b3 := 0 }

/-- `TypeEnum` — src/coap/header.h:177-183. -/
def confirmable : UInt8 := 0
/-- `TypeEnum::NonConfirmable` — src/coap/header.h:180. -/
def nonConfirmable : UInt8 := 1
/-- `TypeEnum::Acknowledgement` — src/coap/header.h:181. -/
def acknowledgement : UInt8 := 2
/-- `TypeEnum::Reset` — src/coap/header.h:182. -/
def reset : UInt8 := 3

end Header

open Header

/-- `process_request` — src/coap/header.h:345-377.  The assertion in the ACK/RST branch is log-only. -/
def processRequest (input output : Header) : Header :=
  let output := output.copyMessageId input
  let output := { output with b0 := input.b0 }
  if input.type == confirmable then output.setType acknowledgement
  else if input.type == nonConfirmable then output
  else output

/-- `create_response` — src/coap/header.h:381-390.  `junk` is the content of the uninitialised local
`Header output`. -/
def createResponse (junk incoming : Header) (c : UInt8) : Header :=
  (processRequest incoming junk).setCode c

/-- `process_response` — src/coap/header.h:393-426; returns the new output header and the result. -/
def processResponse (input output : Header) : Header × Bool :=
  if input.type == confirmable then
    let output := { output with b0 := input.b0 }
    let output := output.copyMessageId input
    (output.setType acknowledgement, true)
  else (output, false)

/-- `process_reset` — src/mc/experimental.cpp:13-18: copies the message id and sets type Reset. -/
def processReset (input output : Header) : Header :=
  (output.copyMessageId input).setType reset

end Verif.Model
