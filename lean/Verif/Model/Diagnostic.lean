import Verif.Model.Decoder
import Verif.Model.OptionMeta
import Verif.Model.UInt

/-!
# Model of two observers: `src/exp/diagnostic-decoder-observer.h` and `_UriBuilderObserver` of
`src/coap/decoder/observer/util.h`

What is handed to `printf`, `puts` and `putchar` is modelled, their formatting is not.
-/
namespace Verif.Model
open OptionMeta

/-- `get_description(Option::Numbers)` — src/coap.cpp:7-22. -/
def description (number : UInt16) : Option String :=
  if number == 0 then some "Zeroed"
  else if number == 4 then some "ETag"
  else if number == 6 then some "Observe"
  else if number == 11 then some "Uri-Path"
  else if number == 12 then some "Content-Format"
  else if number == 15 then some "Uri-Query"
  else if number == 17 then some "Accept"
  else if number == 23 then some "Block1"
  else if number == 27 then some "Block2"
  else none

/-- What is printed behind `value = `: a line of text, `(Empty)`, bytes in hexadecimal and as characters, a number,
`N/A` — src/exp/diagnostic-decoder-observer.h:82-119. -/
inductive Shown
  | text (bytes : List UInt8)
  | empty
  | dump (bytes : List UInt8)
  | number (n : Nat)
  | unknown
deriving DecidableEq, Repr

/-- One event printed — src/exp/diagnostic-decoder-observer.h:62-132. -/
inductive Line
  | header (tokenLength : UInt8) (mid : UInt16)
  | token (bytes : List UInt8)
  | option (number : UInt16) (length : Nat) (name : String) (value : Shown)
  | payload (length : Nat) (bytes : List UInt8)
  | completed
deriving DecidableEq, Repr

/-- The `String` case — src/exp/diagnostic-decoder-observer.h:86-98: at most 128 bytes are copied to `debug_print[128]`,
a zero is written behind them (undefined when that is outside, `none`), and `puts` prints up to the first zero. -/
def showText (v : List UInt8) : Option (List UInt8) :=
  if (v.take 128).length < 128 then some ((v.take 128).takeWhile (· != 0)) else none

/-- The value of an option — src/exp/diagnostic-decoder-observer.h:82-119; `long unsigned` has 64 bits. -/
def showValue (number : UInt16) (v : List UInt8) : Option Shown :=
  match getFormat number with
  | .string => (showText v).map .text
  | .empty => some .empty
  | .opaque => some (.dump v)
  | .uint => some (.number (uintGet 64 v))
  | .unknown => some .unknown

/-- One event — src/exp/diagnostic-decoder-observer.h:62-132; there is no function for the two other events. -/
def showEvent : Event → Option (List Line)
  | .header h => some [.header h.tokenLength h.messageId]
  | .token t => some [.token t]
  | .optionStart => some []
  | .option n v _ => (showValue n v).map fun s => [.option n v.length ((description n).getD "Unknown") s]
  | .optionsCompleted => some []
  | .payload p _ => some [.payload p.length p]
  | .completed => some [.completed]

/-- All events of a message — src/exp/diagnostic-decoder-observer.h:62-132. -/
def showEvents : List Event → Option (List Line)
  | [] => some []
  | e :: es => (showEvent e).bind fun a => (showEvents es).map fun b => a ++ b

/-- `_UriBuilderObserver` — src/coap/decoder/observer/util.h:105-131: the text in `incoming_uri`, which holds at most 127
characters; what the string library does beyond that is not in the checkout (`none`). -/
def buildUri : Option (List UInt8) → Event → Option (List UInt8)
  | _, .header _ => some []
  | u, .option n v _ =>
    if n == 11 then u.bind fun u => if u.length + v.length + 1 ≤ 127 then some (u ++ v ++ [0x2F]) else none
    else u
  | u, _ => u

end Verif.Model
