import Verif.Model.DispatchContext

/-!
# Model of the request contexts of `src/coap/context.h` filled by the observers of `src/coap/decoder/observer/util.h`

The context that copies the token is `HCtx` (`Model/DispatchContext.lean`); this file adds the one that refers to it, and
the observers that fill both.
-/
namespace Verif.Model
open Dispatch

/-- `TokenContext<true>::token()` with the header's length — src/coap/context.h:221-225; a length beyond the array is read
outside it (`none`). -/
def Dispatch.HCtx.shown (x : HCtx) : Option (List UInt8) :=
  if x.header.tokenLength.toNat ≤ x.token.length then some (x.token.take x.header.tokenLength.toNat) else none

/-- `TokenContextObserver` and `HeaderContextObserver` for a context that copies the token —
src/coap/decoder/observer/util.h:54-71, src/coap/context.h:60-65, 123. -/
def Dispatch.HCtx.onEvent (x : HCtx) : Event → Option HCtx
  | .header h => some { x with header := h }
  | .token t => x.setToken t
  | _ => some x

/-- The events one after the other — src/coap/decoder/observer/util.h:54-71. -/
def Dispatch.HCtx.fill (x : HCtx) : List Event → Option HCtx
  | [] => some x
  | e :: es => (x.onEvent e).bind fun x => x.fill es

/-- `IncomingContext<TAddr, false>` — src/coap/context.h:75-104, 108-126, 235-249: `set` says that the pointer is not null;
it points to the token buffer of the decoder that reported the token (src/coap/decoder/subject.hpp:47-49). -/
structure RefCtx where
  header : Header
  set : Bool
deriving DecidableEq, Repr

namespace RefCtx

/-- Constructors — src/coap/context.h:82-84, 113-118. -/
def init : RefCtx := ⟨⟨0, 0, 0, 0⟩, false⟩

/-- `TokenContextObserver` and `HeaderContextObserver` for a context that refers to the token —
src/coap/decoder/observer/util.h:54-71, src/coap/context.h:88-99, 123.  The log output of lines 91-97 is left out. -/
def onEvent (x : RefCtx) : Event → RefCtx
  | .header h => { x with header := h }
  | .token _ => { x with set := true }
  | _ => x

/-- The events one after the other — src/coap/decoder/observer/util.h:54-71. -/
def fill (x : RefCtx) (es : List Event) : RefCtx := es.foldl onEvent x

end RefCtx

/-- The eight bytes at `token_decoder().data()` — src/coap/decoder.h:131-141, src/coap/decoder/simple.h:50-68.  Without the
union (`u = false`, before C++11) they are the token decoder's own.  In the union the buffer lies behind a one-byte counter, so
once the option decoder has been written its first three bytes are the upper ones of the option decoder's state, a
32-bit little-endian word (src/coap/decoder/option.h:12-14, src/coap/decoder/simple.h:12-14), and the other five are its
`buffer[4]` and `pos` (src/coap/decoder/option.h:46-59).  Simplification: what these five hold before the option decoder
writes them is arbitrary here (in fact it is left over from the token). -/
def tokenBytes (u : Bool) (d : Dec) : List UInt8 :=
  if u = true ∧ d.opt.st ≠ .garbage then [0, 0, 0, d.opt.b0, d.opt.b1, d.opt.b2, d.opt.b3, d.opt.pos] else d.tbuf

/-- `TokenAndHeaderContext<false>::token()` — src/coap/context.h:240-243, looked at while the decoder is `d`; a null pointer
is no token, and cannot be read (`none`) when the header announces one. -/
def RefCtx.shown (u : Bool) (d : Dec) (x : RefCtx) : Option (List UInt8) :=
  if x.set then some ((tokenBytes u d).take x.header.tokenLength.toNat)
  else if x.header.tokenLength = 0 then some [] else none

end Verif.Model
