import Verif.Model.Legacy

/-!
# Model of `ObservableOptionObserverBase` (src/coap/observable.h:283-326, src/coap/observable.hpp:78-162)

A message observer for requests with an Observe option, with the registrar it owns.  The token of the request is in
the context it was constructed with; the class does not put it there, so it is a parameter.  `ASSERT_*` log only.
-/
namespace Verif.Model
open Dec

/-- `IsInterestedBase::InterestedEnum` — src/coap/decoder/observer.h:84-96. -/
inductive Interest
  | always | currently | notRightNow | never
deriving DecidableEq, Repr

/-- `ObservableOptionObserverBase` — src/coap/observable.h:283-313.  Neither `_interested`
(src/coap/decoder/observer.h:102) nor `is_registering` is given a value by a constructor, so a new object has whatever
memory held.  Of a session only the token is kept: nothing else is stored (src/coap/observable.h:250-269). -/
structure ObserveHandler where
  interest : Interest
  isRegistering : Bool
  sessions : List (List UInt8)
deriving DecidableEq, Repr

namespace ObserveHandler

/-- `on_option` with a part of the value — src/coap/observable.hpp:79-139.  `on_uri_path` of the registrar does nothing
(src/coap/observable.h:246). -/
def onValue (h : ObserveHandler) (number : UInt16) (chunk : List UInt8) : Except Fault ObserveHandler :=
  if number == 6 then
    match chunk with
    | [] => .error .chunkOverread
    | b :: _ => .ok { h with interest := if b == 0 || b == 1 then .always else .never }
  else if number == 11 then
    .ok { h with interest := if h.interest == .always then .always else .never }
  else .ok h

/-- `on_complete` — src/coap/observable.hpp:142-162 with `ObservableRegistrar::on_complete`
(src/coap/observable.h:250-269). -/
def onComplete (h : ObserveHandler) (token : List UInt8) : ObserveHandler :=
  if h.interest == .always && h.isRegistering then { h with sessions := token :: h.sessions } else h

/-- The calls of the dispatch; the other ones are empty functions (src/coap/observable.h:321,
src/coap/experimental-observer.h:33-45). -/
def handle (token : List UInt8) : ObserveHandler → List LEvent → Except Fault ObserveHandler
  | h, [] => .ok h
  | h, .value number chunk _ :: es =>
    match h.onValue number chunk with
    | .error e => .error e
    | .ok h => handle token h es
  | h, .complete :: es => handle token (h.onComplete token) es
  | h, _ :: es => handle token h es

/-- A message handed over in buffers to a subject that dispatches to the handler — src/coap/decoder/subject.h:241-248. -/
def dispatch (fuel : Nat) (d : Dec) (token : List UInt8) (h : ObserveHandler) (cs : List (List UInt8)) (l : List UInt8) :
    Except Fault (Dec × ObserveHandler) :=
  match legacyChunks fuel d cs l with
  | .error e => .error e
  | .ok (d, evs) =>
    match handle token h evs with
    | .error e => .error e
    | .ok h => .ok (d, h)

end ObserveHandler
end Verif.Model
