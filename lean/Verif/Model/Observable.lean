import Verif.Model.NetBufEncoder
import Verif.Model.Header
import Verif.Model.UInt

/-!
# Model of `src/coap/observable.h` and `src/coap/observable.hpp`

Addresses are of any type `A`.  The resource key is not set and not read by this code and is left out.  The
registrations are a vector of fixed capacity from a library that is not part of the repository; a `push_back` beyond its
capacity is the fault `full`.
-/
namespace Verif.Model.Observable
open Verif.Model

/-- Ways in which the modelled code does not return normally — src/coap/observable.h:155-166, src/coap/observable.hpp:26-75. -/
inductive OFault
  /-- `push_back` on a full vector -/
  | full
  /-- `mid++` on the largest `int` -/
  | intOverflow
  /-- `assess_bytes_used` of a negative number does not end -/
  | hang
  | enc (e : Fault)
deriving DecidableEq, Repr

/-- `ObservableSession` — src/coap/observable.h:16-40. -/
structure Session (A : Type) where
  addr : A
  token : List UInt8
  sequence : UInt32
deriving DecidableEq, Repr

/-- `ObservableRegistrar::registrations` — src/coap/observable.h:145, with the static `mid` of `for_each`
(src/coap/observable.hpp:45), which starts at 0 and is here taken to belong to one registrar. -/
structure Registrar (A : Type) where
  sessions : List (Session A)
  mid : Nat
deriving DecidableEq, Repr

/-- A message handed to `enqueue_out` — src/coap/observable.hpp:70-74. -/
structure Sent (A : Type) where
  addr : A
  bytes : List UInt8
deriving DecidableEq, Repr

/-- `Header::Code::Content` — src/coap/header.h:102. -/
def codeContent : UInt8 := 0x45
/-- `Header::Code::Valid` — src/coap/header.h:100. -/
def codeValid : UInt8 := 0x43
/-- `Header::Code::BadOption` — src/coap/header.h:105. -/
def codeBadOption : UInt8 := 0x82

namespace Registrar
variable {A : Type}

/-- Before any registration — src/coap/observable.h:145. -/
def init : Registrar A := ⟨[], 0⟩

/-- `do_register` — src/coap/observable.h:155-166, for capacity `cap`. -/
def doRegister (cap : Nat) (r : Registrar A) (addr : A) (token : List UInt8) : Except OFault (Registrar A) :=
  if r.sessions.length < cap then .ok { r with sessions := r.sessions ++ [⟨addr, token, 0⟩] } else .error .full

/-- `do_deregister` — src/coap/observable.h:170-174. -/
def doDeregister (r : Registrar A) (_addr : A) (_token : List UInt8) : Registrar A := r

/-- `evaluate_observe_option` — src/coap/observable.h:187-205; the code returned is what to respond with. -/
def evaluate (cap : Nat) (r : Registrar A) (addr : A) (token : List UInt8) (code : UInt8) : Except OFault (Registrar A × UInt8) :=
  if code == 0 then
    match r.doRegister cap addr token with
    | .error e => .error e
    | .ok r => .ok (r, codeValid)
  else if code == 1 then .ok (r.doDeregister addr token, codeValid)
  else .ok (r, codeBadOption)

end Registrar

/-- The value of `option(number, int)` — src/coap/encoder.h:259-266, through `layer2::UInt<4>` (src/coap/uint.h:217-222,
262-270).  `sequence` is assigned to an `int` before (src/coap/observable.hpp:54).  `junk` is the content of the buffer. -/
def intValue (junk : List UInt8) (sequence : UInt32) : Except OFault (List UInt8) :=
  if sequence.toNat < 2 ^ 31 then
    match uintSet sequence.toNat junk with
    | none => .error (.enc .optionBufferOverflow)
    | some (buf, n) => .ok (buf.take n.toNat)
  else .error .hang

/-- The header of a notification — src/coap/observable.hpp:49-57. -/
def notifyHeader (mid : Nat) (token : List UInt8) : Header :=
  ((Header.mk2 Header.nonConfirmable codeContent).setMessageId (UInt16.ofNat mid)).setTokenLength (UInt8.ofNat token.length)

/-- The body of the loop of `for_each` — src/coap/observable.hpp:28-75: a new buffer of `room` bytes; results of the
encoder calls are not looked at.  `emit` is `emit_observe_fn`, which gets the session with its new sequence number. -/
def notifyOne {A : Type} (room fuel : Nat) (junk : List UInt8) (emit : Session A → NEnc → NEnc) (mid : Nat) (s : Session A) :
    Except OFault (Session A × Sent A) :=
  if mid + 1 ≥ 2 ^ 31 then .error .intOverflow
  else
    let s' : Session A := { s with sequence := s.sequence + 1 }
    let e := ((NEnc.init room).header (notifyHeader mid s.token)).1
    let e := (e.token s.token).1
    match intValue junk s'.sequence with
    | .error f => .error f
    | .ok v =>
      match e.option fuel 6 v with
      | .error f => .error (.enc f)
      | .ok (e, _) => .ok (s', ⟨s.addr, (emit s' e).out⟩)

/-- The loop of `for_each` — src/coap/observable.hpp:26-75. -/
def notifyAll {A : Type} (room fuel : Nat) (junk : List UInt8) (emit : Session A → NEnc → NEnc) :
    Nat → List (Session A) → Except OFault (List (Session A) × Nat × List (Sent A))
  | mid, [] => .ok ([], mid, [])
  | mid, s :: ss =>
    match notifyOne room fuel junk emit mid s with
    | .error f => .error f
    | .ok (s, m) =>
      match notifyAll room fuel junk emit (mid + 1) ss with
      | .error f => .error f
      | .ok (ss, mid, ms) => .ok (s :: ss, mid, m :: ms)

/-- What happens to a registrar: a request with an observe option, or a round of `for_each` —
src/coap/observable.h:187-205, src/coap/observable.hpp:12-75. -/
inductive Ev (A : Type)
  | observe (addr : A) (token : List UInt8) (code : UInt8)
  | round
deriving DecidableEq, Repr

/-- A history, giving what each round sends (`evaluate_observe_option`, src/coap/observable.h:187-205, and `for_each`,
src/coap/observable.hpp:12-75). -/
def run {A : Type} (cap room fuel : Nat) (junk : List UInt8) (emit : Session A → NEnc → NEnc) :
    Registrar A → List (Ev A) → Except OFault (Registrar A × List (List (Sent A)))
  | r, [] => .ok (r, [])
  | r, .observe addr token code :: es =>
    match r.evaluate cap addr token code with
    | .error f => .error f
    | .ok (r, _) => run cap room fuel junk emit r es
  | r, .round :: es =>
    match notifyAll room fuel junk emit r.mid r.sessions with
    | .error f => .error f
    | .ok (ss, mid, ms) =>
      match run cap room fuel junk emit ⟨ss, mid⟩ es with
      | .error f => .error f
      | .ok (r, outs) => .ok (r, ms :: outs)

end Verif.Model.Observable
