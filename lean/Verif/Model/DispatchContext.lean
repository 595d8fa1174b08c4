import Verif.Model.Dispatch
import Verif.Model.Decoder

/-!
# Model of the contexts handlers get from `FactoryDispatcherHandler`

`src/coap-dispatcher.hpp` gives every factory a local copy of the dispatcher's context, which itself is a copy.
A context is `none` once the local object is gone; using it then is undefined (result `none` of a call).
-/
namespace Verif.Model.Dispatch
open Verif.Model

/-- `IncomingContext` with an inline token — src/coap/context.h:44-71, 108-126, 217-231. -/
structure HCtx where
  header : Header
  token : List UInt8
  present : Bool
deriving DecidableEq, Repr

/-- Constructors — src/coap/context.h:54-56, 113-118; the token array is not initialised. -/
def HCtx.init (junk : List UInt8) : HCtx := ⟨⟨0, 0, 0, 0⟩, junk, false⟩

/-- `TokenContext<true>::token` — src/coap/context.h:60-65; more than eight bytes overflow the array (`none`). -/
def HCtx.setToken (x : HCtx) (t : List UInt8) : Option HCtx :=
  if t.length ≤ x.token.length then some { x with token := t ++ x.token.drop t.length, present := true } else none

/-- `have_header` — src/coap/context.h:125. -/
def HCtx.haveHeader (x : HCtx) : Bool := decide (x.header.version > 0)

/-- The handlers considered: `store` is `ContextDispatcherHandler` (src/coap-dispatcher.h:252-325), `answer` the one made
by `uri_plus_observer_dispatcher` (src/coap-uripath-dispatcher.h:167-181) for an observer that looks up header and
token in its context when the payload arrives, as
test/pio/simple_receiver.esp8266/src/coap-app.cpp:30-66 does. -/
inductive Kind
  | store
  | answer (pre : List UInt8)
deriving DecidableEq, Repr

/-- A handler: its interest (for `answer`), and the headers and tokens its observer has looked up —
src/coap-uripath-dispatcher.h:34-133, src/coap-dispatcher.h:252-325. -/
structure Handler where
  interest : Interest
  seen : List (Header × List UInt8)
deriving DecidableEq, Repr

/-- Constructors — src/coap/decoder/observer.h:222-225. -/
def Handler.new : Handler := ⟨.currently, []⟩

/-- One call to a handler — src/coap-dispatcher.hpp:276-300 (`store`), src/coap-uripath-dispatcher.h:44-122 (`answer`).
The context is the handler's own, possibly gone. -/
def Kind.call (cs : Bool) : Kind → Handler → Option HCtx → Call → Option (Handler × Option HCtx)
  | .store, _, none, .header _ => none
  | .store, h, some x, .header hd => some (h, some { x with header := hd })
  | .store, _, none, .token _ _ => none
  | .store, h, some x, .token t _ => (x.setToken t).map fun x => (h, some x)
  | .store, h, x, _ => some (h, x)
  | .answer pre, h, x, c =>
    let u := UriHandler.call cs ⟨pre, h.interest, []⟩ c
    match u.passed with
    | .payload _ _ :: _ => x.map fun x => (⟨u.interest, h.seen ++ [(x.header, x.token.take x.header.tokenLength.toNat)]⟩, some x)
    | _ => some (⟨u.interest, h.seen⟩, x)

/-- `interested()` — src/coap-dispatcher.h:296-324 (`store`), src/coap/decoder/observer.h:238-242 (`answer`). -/
def Kind.interest : Kind → Handler → HCtx → Interest
  | .store, _, x =>
    if !x.haveHeader then .currently
    else if x.header.tokenLength > 0 then (if x.present then .never else .currently)
    else .never
  | .answer _, h, _ => h.interest

/-- `FactoryDispatcherHandler` — src/coap-dispatcher.h:53-246; `ctx` is `m_context` (line 124), a copy of the context
given to the constructor. -/
structure FD where
  ctx : HCtx
  states : List (Option Interest)
  chosen : Option (Nat × Handler)
deriving DecidableEq, Repr

/-- Constructor — src/coap-dispatcher.h:185-212, for at most ten factories. -/
def FD.init (ctx : HCtx) (kinds : List Kind) : FD := ⟨ctx, kinds.map fun _ => none, none⟩

/-- Calls one after the other to one handler — src/coap-dispatcher.hpp:86-254. -/
def Kind.calls (cs : Bool) (k : Kind) : Handler → Option HCtx → List Call → Option (Handler × Option HCtx)
  | h, x, [] => some (h, x)
  | h, x, c :: rest => (k.call cs h x c).bind fun r => Kind.calls cs k r.1 r.2 rest

/-- The loop over the factories — src/coap-dispatcher.hpp:92-109 and the like, with `observer_helper_begin` (6-23) and
`observer_helper_end` (26-83).  `context_t ctx(m_context)` (line 99) is made anew for every factory and is gone after
`observer_helper_end`. -/
def fdPass (cs : Bool) (m : HCtx) (c : Call) : List Kind → Nat → List (Option Interest) → Option (Nat × Handler) →
    Option (List (Option Interest) × Option (Nat × Handler))
  | k :: kinds, n, s :: states, chosen =>
    if s == some .never then
      (fdPass cs m c kinds (n + 1) states chosen).map fun r => (s :: r.1, r.2)
    else
      (Kind.calls cs k Handler.new (some m) (passCalls c)).bind fun r =>
        match r.2 with
        | none => none
        | some x =>
          let i := k.interest r.1 x
          (fdPass cs m c kinds (n + 1) states (if i == .always then some (n, r.1) else chosen)).map fun q => (some i :: q.1, q.2)
  | _, _, states, chosen => some (states, chosen)

/-- One call to the dispatcher — src/coap-dispatcher.hpp:86-254. -/
def FD.call (cs : Bool) (kinds : List Kind) (d : FD) (c : Call) : Option FD :=
  let all := (fdPass cs d.ctx c kinds 0 d.states d.chosen).map fun r => { d with states := r.1, chosen := r.2 }
  let one (other : Option FD) := match d.chosen with
    | none => other
    | some (i, h) =>
      match kinds[i]? with
      | none => none
      | some k => (k.call cs h none c).map fun r => { d with chosen := some (i, r.1) }
  match c with
  | .header _ => all
  | .complete => all
  | .optionHead _ _ => one (some d)
  | _ => one all

/-- A sequence of calls — src/coap-dispatcher.hpp:86-254. -/
def FD.calls (cs : Bool) (kinds : List Kind) : FD → List Call → Option FD
  | d, [] => some d
  | d, c :: rest => (d.call cs kinds c).bind fun d => FD.calls cs kinds d rest

end Verif.Model.Dispatch
