import Verif.Model.Dispatch

/-!
# Model of `AggregateUriPathObserver` (`src/coap-uripath-dispatcher.h(pp)`)

A factory always makes an observer (no null results); the observers are told apart by the position of their factory.
-/
namespace Verif.Model.Dispatch
open Verif.Model

/-- `AggregateUriPathObserver` — src/coap-uripath-dispatcher.h:192-275.  `handler` is the member of that name (line 223):
the position of its factory and whether the object still exists; `given` are the calls made to handlers so far. -/
structure Agg where
  interest : Interest
  handler : Option (Nat × Bool)
  given : List (Nat × Call)
deriving DecidableEq, Repr

/-- Constructors — src/coap-uripath-dispatcher.h:229-256. -/
def Agg.init : Agg := ⟨.currently, none, []⟩

/-- `factory.create(option_value_part, context)` — src/mc/experimental-factory.h:55-78, 260-273: the position of the
factory that makes the handler. -/
def aggFind (cs : Bool) (names : List (List UInt8)) (seg : List UInt8) : Option Nat :=
  create (startsWith cs) none (names.zipIdx.map fun x => (x.1, some fun (_ : Unit) => some x.2)) seg ()

/-- Call the handler, if there is one — src/coap-uripath-dispatcher.hpp:42-45, 57-58, 75-79; `none` for a call to an
object that is destroyed. -/
def Agg.hand (a : Agg) (c : Call) : Option Agg :=
  match a.handler with
  | none => some a
  | some (_, false) => none
  | some (i, true) => some { a with given := a.given ++ [(i, c)] }

/-- `on_option`, lines 22-41: the first accepted Uri-Path value makes the handler
— src/coap-uripath-dispatcher.hpp:22-41. -/
def Agg.look (cs : Bool) (names : List (List UInt8)) (a : Agg) (seg : List UInt8) : Agg :=
  if a.handler = none then
    match aggFind cs names seg with
    | some i => { a with handler := some (i, true), interest := .always }
    | none => { a with interest := .never }
  else a

/-- One call — src/coap-uripath-dispatcher.hpp:12-81; header, token and option head go to the empty functions of
`DecoderObserverBase` (src/coap/decoder/observer.h:242-250).  After `on_complete` the handler's destructor is called
(line 78) and the pointer kept. -/
def Agg.call (cs : Bool) (names : List (List UInt8)) (a : Agg) : Call → Option Agg
  | .header _ => some a
  | .token _ _ => some a
  | .optionHead _ _ => some a
  | .option n p l => (if n == 11 then a.look cs names p else a).hand (.option n p l)
  | .payload p l => a.hand (.payload p l)
  | .complete => (a.hand .complete).map fun a => { a with handler := a.handler.map fun h => (h.1, false) }

/-- A sequence of calls — src/coap-uripath-dispatcher.hpp:12-81. -/
def Agg.calls (cs : Bool) (names : List (List UInt8)) : Agg → List Call → Option Agg
  | a, [] => some a
  | a, c :: rest => (a.call cs names c).bind fun a => Agg.calls cs names a rest

end Verif.Model.Dispatch
