import Verif.Model.Examples
import Verif.Model.ObserveEmit

/-!
# Model of the observe example as a program — test/posix/observable-raw/main.cpp

Datagrams in and out; the sockets are the subject of `Model/Sockets`, the clock and the queues of the data pump belong to
libraries that are not part of the repository.
-/
namespace Verif.Model.Observable
open Verif.Model

/-- The sizes of the example: the text of the path (128, test/template/observable-raw-responder.hpp:79), the registrations (10,
test/posix/observable-raw/main.cpp:14) and a new netbuf; and the order of evaluation in `emit_observe`. -/
structure ObsCfg where
  sizeFirst : Bool
  uriCap : Nat
  regCap : Nat
  room : Nat
deriving DecidableEq, Repr

/-- `observable_registrar` and the static `last` — test/posix/observable-raw/main.cpp:14,
test/template/observable-raw-responder.hpp:54. -/
structure ObsSt (A : Type) where
  reg : Registrar A
  last : Int
deriving DecidableEq, Repr

/-- At the start — test/posix/observable-raw/main.cpp:14, test/template/observable-raw-responder.hpp:54. -/
def ObsSt.init {A : Type} : ObsSt A := ⟨Registrar.init, 0⟩

/-- What happens in the loop: `service` finds a datagram, `evaluate_emit_observe` is called at a time — test/posix/observable-raw/main.cpp:30-36.
What the memory of the decoder, the token, the header and the number held before is given.  A round of the loop without a datagram is
a `loop` alone. -/
inductive ObsEv (A : Type)
  | got (addr : A) (bytes : List UInt8) (junk : Dec) (junkToken : List UInt8) (junkHeader : Header)
  | loop (now : Int) (junk : List UInt8)

/-- One event — test/posix/observable-raw/main.cpp:30-36, test/template/observable-raw-responder.hpp:50-118: what is handed to the
data pump for sending.  The walk over the options gets as many steps as it can need (proved in C79).  A fault of `emit_observe` is left
to the theorems, as in `emitted`. -/
def obsStep {A : Type} (C : ObsCfg) (s : ObsSt A) : ObsEv A → Except XFault (ObsSt A × List (Sent A))
  | .got addr bytes junk jt jh =>
    match observeReply C.uriCap C.regCap C.room (11 * bytes.length + 65561) junk jt jh s.reg addr bytes with
    | .error e => .error e
    | .ok (reg, out) => .ok ({ s with reg := reg }, [⟨addr, out⟩])
  | .loop now junk =>
    match paceStep s.last now with
    | (false, last) => .ok ({ s with last := last }, [])
    | (true, last) =>
      match notifyAll C.room (C.room + 6) junk (emitted C.sizeFirst) s.reg.mid s.reg.sessions with
      | .error e => .error (.obs e)
      | .ok (ss, mid, ms) => .ok (⟨⟨ss, mid⟩, last⟩, ms)

/-- A history — test/posix/observable-raw/main.cpp:26-37: what is sent at each event. -/
def obsRun {A : Type} (C : ObsCfg) : ObsSt A → List (ObsEv A) → Except XFault (ObsSt A × List (List (Sent A)))
  | s, [] => .ok (s, [])
  | s, e :: es =>
    match obsStep C s e with
    | .error f => .error f
    | .ok (s, ms) =>
      match obsRun C s es with
      | .error f => .error f
      | .ok (s, outs) => .ok (s, ms :: outs)

end Verif.Model.Observable
