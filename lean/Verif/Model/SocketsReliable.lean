import Verif.Model.Sockets
import Verif.Model.Exchange
import Verif.Model.RetryLoop

/-!
# Model of `SocketsDatapumpHelper` (src/platform/posix/sockets-datapump.h) built with `FEATURE_MCCOAP_RELIABLE`

The pump is that of `Model/Sockets`, the retry manager that of `Model/Retry` over the bytes of messages (`Model/Exchange`).  A
tracked message carries its bytes beside its address.  `on_message_transmitted` of the pump's library decides only who deletes
the buffer.
-/
namespace Verif.Model

/-- Why there is no next state: the process has ended (`error`, src/platform/posix/sockets-datapump.cpp:32-36), or a decoder has touched memory
outside its buffers. -/
inductive RelStop
  | ended
  | memory
deriving DecidableEq, Repr

/-- Pump and retry manager — src/platform/posix/sockets-datapump.h:44-51. -/
structure Rel (A : Type) where
  pump : Sock A
  retry : Retry.St (List UInt8 × A)

namespace Rel
variable {A : Type}

/-- Nothing queued — src/platform/posix/sockets-datapump.h:58-61. -/
def empty : Rel A := ⟨Sock.empty, Retry.init⟩

/-- `retry.service_ack(datapump)` — src/platform/posix/sockets-datapump.h:77, src/exp/retry.h:498-539: the first message waiting is read and
left where it is. -/
def serviceAck (P : Retry.PQ (List UInt8 × A)) (same : A → A → Bool) (junk : Dec) (s : Rel A) : Except RelStop (Rel A) :=
  match s.pump.inq with
  | [] => .ok s
  | (bytes, addr) :: _ =>
    match Retry.readHead junk bytes with
    | none => .error .memory
    | some (h, t) => .ok { s with retry := (Retry.serviceAck P (fun a b => same a.2 b.2) s.retry (bytes, addr) h t).1 }

/-- `retry.service_retry(now, datapump)` — src/platform/posix/sockets-datapump.h:78, src/exp/retry.h:547-615. -/
def serviceRetry (P : Retry.PQ (List UInt8 × A)) (now : Nat) (s : Rel A) : Rel A :=
  let r := Retry.serviceRetry P s.retry now
  ⟨{ s.pump with outq := s.pump.outq ++ (Retry.handedOver s.retry.q r.2).map (·.addr) }, r.1⟩

/-- `SocketsDatapumpHelper::loop` — src/platform/posix/sockets-datapump.h:68-80. -/
def loop (P : Retry.PQ (List UInt8 × A)) (same : A → A → Bool) (junk : Dec) (s : Rel A) (sendOk : Bool) (i : SockIn A) (now : Nat) :
    Except RelStop (Rel A) :=
  match s.pump.loop sendOk i with
  | none => .error .ended
  | some p =>
    match serviceAck P same junk { s with pump := p } with
    | .error e => .error e
    | .ok s => .ok (serviceRetry P now s)

/-- `SocketsDatapumpHelper::enqueue` — src/platform/posix/sockets-datapump.h:117-129: whether the message is confirmable is found out and not
used; the line that would track it is commented out. -/
def enqueue (junk : Dec) (s : Rel A) (bytes : List UInt8) (to : A) : Except RelStop (Rel A) :=
  match (Pull.make junk bytes).header with
  | .error _ => .error .memory
  | .ok _ => .ok { s with pump := s.pump.enqueue bytes to }

/-- One action of the program; every turn of the loop has the time at which it is done — src/platform/posix/sockets-datapump.h:68-129. -/
def step (P : Retry.PQ (List UInt8 × A)) (same : A → A → Bool) (junk : Dec) (s : Rel A) : SockEv A × Nat → Except RelStop (Rel A)
  | (.loop ok i, now) => s.loop P same junk ok i now
  | (.enqueue b a, _) => s.enqueue junk b a
  | (.take, _) => .ok { s with pump := s.pump.take }

/-- A run of the program — src/platform/posix/sockets-datapump.h:68-129. -/
def run (P : Retry.PQ (List UInt8 × A)) (same : A → A → Bool) (junk : Dec) : Rel A → List (SockEv A × Nat) → Except RelStop (Rel A)
  | s, [] => .ok s
  | s, e :: es =>
    match s.step P same junk e with
    | .error e => .error e
    | .ok s => run P same junk s es

end Rel
end Verif.Model
