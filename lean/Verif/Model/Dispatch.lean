import Verif.Model.Header

/-!
# Model of `src/coap-uripath-dispatcher.h(pp)`, `src/mc/experimental-factory.h` and `src/coap-dispatcher.h(pp)`

A prefix is a C string, modelled by its bytes without the terminator (so it contains no zero byte).
-/
namespace Verif.Model.Dispatch
open Verif.Model

/-- `*prefix == *s` for a `char` and a `uint8_t`: with a signed `char`, a byte from 0x80 on is negative and equals no
`uint8_t` — src/coap-uripath-dispatcher.h:14-23, src/mc/experimental-factory.h:126-139. -/
def sameChar (charSigned : Bool) (p s : UInt8) : Bool := p == s && !(charSigned && decide (128 ≤ p))

/-- `starts_with` — src/coap-uripath-dispatcher.h:14-23. -/
def startsWithUri (cs : Bool) : List UInt8 → List UInt8 → Bool
  | _, [] => true
  | [], _ :: _ => true
  | b :: s, p :: ps => if !sameChar cs p b then false else startsWithUri cs s ps

/-- `starts_with` — src/mc/experimental-factory.h:126-139. -/
def startsWith (cs : Bool) : List UInt8 → List UInt8 → Bool
  | _, [] => true
  | [], _ :: _ => false
  | b :: s, p :: ps => if !sameChar cs p b then false else startsWith cs s ps

/-- `find` — src/mc/experimental-factory.h:55-78, for any comparison of keys; `nf` is `not_found_value()`. -/
def find {K K' V : Type} (equals : K' → K → Bool) (nf : V) (key : K') : List (K × V) → V
  | [] => nf
  | item :: items => if equals key item.1 then item.2 else find equals nf key items

/-- `FnFactory::create` — src/mc/experimental-factory.h:260-273: a factory is a pointer to a function, `none` being the
null pointer that is also `not_found_value()`. -/
def create {K K' C V : Type} (equals : K' → K → Bool) (nf : V) (items : List (K × Option (C → V))) (key : K') (context : C) : V :=
  match find equals none key items with
  | none => nf
  | some f => f context

/-- `InterestedEnum` — src/coap/decoder/observer.h:84-97. -/
inductive Interest
  | always | currently | notRightNow | never
deriving DecidableEq, Repr

/-- The calls of an `IMessageObserver` — src/coap/decoder/observer.h:60-75.  `optionHead` is
`on_option(number, length)`. -/
inductive Call
  | header (h : Header)
  | token (part : List UInt8) (last : Bool)
  | optionHead (number length : UInt16)
  | option (number : UInt16) (part : List UInt8) (last : Bool)
  | payload (part : List UInt8) (last : Bool)
  | complete
deriving DecidableEq, Repr

/-- `UriPathDispatcherHandlerBase` — src/coap-uripath-dispatcher.h:34-133: its prefix and interest, and the calls made to
the observer behind it so far. -/
structure UriHandler where
  pre : List UInt8
  interest : Interest
  passed : List Call
deriving DecidableEq, Repr

/-- Constructors — src/coap-uripath-dispatcher.h:41-43, 61-66, src/coap/decoder/observer.h:222-225. -/
def UriHandler.init (pre : List UInt8) : UriHandler := ⟨pre, .currently, []⟩

/-- One call — src/coap-uripath-dispatcher.h:44-48 (header), 68-75 and 77-111 (options), 113-122 (payload);
tokens and completion are not overridden (src/coap/decoder/observer.h:244-271).  11 is Uri-Path. -/
def UriHandler.call (cs : Bool) (u : UriHandler) : Call → UriHandler
  | .header h => if !h.isRequest then { u with interest := .never } else u
  | .token _ _ => u
  | .optionHead n l => if u.interest == .always then { u with passed := u.passed ++ [.optionHead n l] } else u
  | .option n part last =>
    if u.interest == .always then { u with passed := u.passed ++ [.option n part last] }
    else if n == 11 then { u with interest := if startsWithUri cs part u.pre then .always else .never }
    else u
  | .payload part last =>
    if u.interest == .currently then u else { u with passed := u.passed ++ [.payload part last] }
  | .complete => u

/-- A sequence of calls — src/coap-uripath-dispatcher.h:34-133. -/
def UriHandler.calls (cs : Bool) (u : UriHandler) : List Call → UriHandler
  | [] => u
  | c :: cs' => (u.call cs c).calls cs cs'

/-- `FactoryDispatcherHandler` — src/coap-dispatcher.h:53-246.  `states` are the interests recorded per factory (`none`
before the first), `made` counts the handlers created so far, `chosen` is a handler: the factory it came from and
its number. -/
structure Disp where
  states : List (Option Interest)
  made : Nat
  chosen : Option (Nat × Nat)
deriving DecidableEq, Repr

/-- A call made to a handler: its factory, its number, the call — src/coap-dispatcher.hpp:86-254. -/
structure Delivered where
  factory : Nat
  handler : Nat
  call : Call
deriving DecidableEq, Repr

/-- Constructors — src/coap-dispatcher.h:185-212.  There is room for ten states (line 155); constructing more writes past
the end (`none`). -/
def Disp.init (n : Nat) : Option Disp := if n ≤ 10 then some ⟨List.replicate n none, 0, none⟩ else none

/-- What a handler is given in a pass — src/coap-dispatcher.hpp:86-110, 113-146, 160-188, 200-228, 231-254.  An option
value arrives as two calls, the second one always as last. -/
def passCalls : Call → List Call
  | .option n part _ => [.optionHead n (UInt16.ofNat part.length), .option n part true]
  | c => [c]

/-- The loop over the factories — src/coap-dispatcher.hpp:92-109 with `observer_helper_begin` (6-23) and
`observer_helper_end` (26-83).  `answer i` is what the handler of factory `i` answers to `interested()` after this
call.  `i` is the index of the first of `states`. -/
def pass (answer : Nat → Interest) (c : Call) : Nat → List (Option Interest) → Nat → Option (Nat × Nat) →
    List (Option Interest) × Nat × Option (Nat × Nat) × List Delivered
  | _, [], made, chosen => ([], made, chosen, [])
  | i, s :: states, made, chosen =>
    if s == some .never then
      let r := pass answer c (i + 1) states made chosen
      (s :: r.1, r.2)
    else
      let chosen := if answer i == .always then some (i, made) else chosen
      let r := pass answer c (i + 1) states (made + 1) chosen
      (some (answer i) :: r.1, r.2.1, r.2.2.1, (passCalls c).map (⟨i, made, ·⟩) ++ r.2.2.2)

/-- The whole loop — src/coap-dispatcher.hpp:92-109. -/
def Disp.passAll (d : Disp) (answer : Nat → Interest) (c : Call) : Disp × List Delivered :=
  let r := pass answer c 0 d.states d.made d.chosen
  (⟨r.1, r.2.1, r.2.2.1⟩, r.2.2.2)

/-- One call to the dispatcher — src/coap-dispatcher.hpp:86-254: header and completion always go to all factories
(`FEATURE_MCCOAP_COMPLETE_OBSERVER` is defined, src/coap-features.h:28), the others to the chosen handler if there is
one, and an option head without chosen handler to nobody. -/
def Disp.call (d : Disp) (answer : Nat → Interest) (c : Call) : Disp × List Delivered :=
  match c with
  | .header _ => d.passAll answer c
  | .complete => d.passAll answer c
  | .optionHead _ _ =>
    match d.chosen with
    | some (f, h) => (d, [⟨f, h, c⟩])
    | none => (d, [])
  | _ =>
    match d.chosen with
    | some (f, h) => (d, [⟨f, h, c⟩])
    | none => d.passAll answer c

/-- A sequence of calls, each with the answers the handlers give — src/coap-dispatcher.hpp:86-254. -/
def Disp.calls (d : Disp) : List ((Nat → Interest) × Call) → Disp × List Delivered
  | [] => (d, [])
  | (a, c) :: rest =>
    let r := d.call a c
    let r' := r.1.calls rest
    (r'.1, r.2 ++ r'.2)

end Verif.Model.Dispatch
