import Verif.Model.StreamEncoder

/-!
# Model of the stream operators of `src/coap/encoder/streambuf.h`

The operators and the `ostream` work on one and the same stream buffer.  The state bits of the `ostream` (library code
outside the checkout) are not modelled; nothing here reads them.
-/
namespace Verif.Model

/-- What is written, one operator after the other — src/coap/encoder/streambuf.h:307-310, 313-388; `put` and `write` are
those of the `ostream` of line 164. -/
inductive StreamOp
  | header (h : Header)
  | token (t : List UInt8)
  | option (number length : UInt16)
  | payload
  | put (b : UInt8)
  | write (bs : List UInt8)
deriving DecidableEq, Repr

/-- One operator — src/coap/encoder/streambuf.h:315-321 (header), 372-378 (token), 364-370 (option), 381-387 with 307-310
(payload).  What the encoder returns is dropped. -/
def StreamOp.run (s : SEnc) : StreamOp → Except Fault SEnc
  | .header h => .ok (s.header h)
  | .token t => .ok (s.token t)
  | .option number length =>
    match s.optionHeader number length with
    | .error e => .error e
    | .ok (s, _) => .ok s
  | .payload => .ok s.payloadMarker.1
  | .put b => .ok (s.putc b).1
  | .write bs => .ok (s.putn bs).1

/-- A sequence of them — test/unit-tests/coap-encoder-test.cpp:358-366 writes a message this way. -/
def runOps : SEnc → List StreamOp → Except Fault SEnc
  | s, [] => .ok s
  | s, op :: ops =>
    match op.run s with
    | .error e => .error e
    | .ok s => runOps s ops

end Verif.Model
