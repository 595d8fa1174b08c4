/-!
# Model of `src/platform/lwip/lwip-datapump.cpp` and `src/platform/arduino/arduino-eth-datapump.cpp`: two more data pumps

As for the sockets (`Model/Sockets`), the pump's library is not in the checkout; both its queues are taken to be first in, first out,
and unbounded.  The network is its answers.  Built with `FEATURE_MCCOAP_DATAPUMP_INLINE` off.  Addresses are any type.
-/
namespace Verif.Model

/-- A buffer on its way out: the room allocated, of which the first `written` bytes are the message (`length_total()`) —
src/platform/lwip/lwip-datapump.cpp:53-85. -/
structure LwipBuf where
  room : List UInt8
  written : Nat
deriving DecidableEq, Repr

/-- The pump's queues.  For observation only: `sent` is what the network took, `tried` everything it was asked to send, `freed` the number
of outgoing buffers deleted, `taken` what the program has removed from the incoming queue — src/platform/lwip/lwip-datapump.h:60-80. -/
structure Lwip (A : Type) where
  inq : List (List UInt8 × A) := []
  outq : List (LwipBuf × A) := []
  tried : List (List UInt8 × A) := []
  sent : List (List UInt8 × A) := []
  freed : Nat := 0
  taken : List (List UInt8 × A) := []
deriving DecidableEq, Repr

/-- What `netconn.recv` finds: nothing in time, an error, or a datagram — src/platform/lwip/lwip-datapump.cpp:87-114. -/
inductive LwipIn (A : Type) where
  | timeout
  | fails
  | datagram (bytes : List UInt8) (from_ : A)
deriving DecidableEq, Repr

namespace Lwip
variable {A : Type}

/-- The bytes that leave — src/platform/lwip/lwip-datapump.cpp:58,69: the length is kept in 16 bits and the buffer cut to it. -/
def cut (b : LwipBuf) : List UInt8 := b.room.take (b.written % 65536)

/-- First half of `nonblocking_datapump_loop` — src/platform/lwip/lwip-datapump.cpp:53-85.  `sendOk`: `sendTo` answered 0; the answer is only
printed. -/
def transmit (s : Lwip A) (sendOk : Bool) : Lwip A :=
  match s.outq with
  | [] => s
  | o :: os =>
    { s with
      outq := os
      tried := s.tried ++ [(cut o.1, o.2)]
      sent := if sendOk then s.sent ++ [(cut o.1, o.2)] else s.sent
      freed := s.freed + 1 }

/-- Second half — src/platform/lwip/lwip-datapump.cpp:87-114. -/
def receive (s : Lwip A) : LwipIn A → Lwip A
  | .timeout => s
  | .fails => s
  | .datagram bytes from_ => { s with inq := s.inq ++ [(bytes, from_)] }

/-- `nonblocking_datapump_loop` — src/platform/lwip/lwip-datapump.cpp:46-114. -/
def loop (s : Lwip A) (sendOk : Bool) (i : LwipIn A) : Lwip A := (s.transmit sendOk).receive i

/-- `LwipDatapumpHelper::enqueue` — src/platform/lwip/lwip-datapump.h:77-80. -/
def enqueue (s : Lwip A) (b : LwipBuf) (to : A) : Lwip A := { s with outq := s.outq ++ [(b, to)] }

/-- `LwipDatapumpHelper::front` and `pop`, if not `empty` — src/platform/lwip/lwip-datapump.h:60-74. -/
def take (s : Lwip A) : Lwip A :=
  match s.inq with
  | [] => s
  | i :: is => { s with inq := is, taken := s.taken ++ [i] }

end Lwip

/-- What the program does with the pump — src/platform/lwip/lwip-datapump.h:60-80, src/platform/lwip/lwip-datapump.cpp:46-114. -/
inductive LwipEv (A : Type) where
  | loop (sendOk : Bool) (i : LwipIn A)
  | enqueue (b : LwipBuf) (to : A)
  | take
deriving DecidableEq, Repr

namespace Lwip
variable {A : Type}

/-- One action — src/platform/lwip/lwip-datapump.h:60-80, src/platform/lwip/lwip-datapump.cpp:46-114. -/
def step (s : Lwip A) : LwipEv A → Lwip A
  | .loop ok i => s.loop ok i
  | .enqueue b a => s.enqueue b a
  | .take => s.take

/-- A run of the program — src/platform/lwip/lwip-datapump.h:60-80, src/platform/lwip/lwip-datapump.cpp:46-114. -/
def run (s : Lwip A) : List (LwipEv A) → Lwip A
  | [] => s
  | e :: es => (s.step e).run es

end Lwip

/-- The Arduino pump: its queues, and the packets that left (for observation) — src/platform/arduino/arduino-eth-datapump.cpp:9-25. -/
structure Arduino (A : Type) where
  inq : List (List UInt8 × A) := []
  outq : List (List UInt8 × A) := []
  sent : List (List UInt8 × A) := []
deriving DecidableEq, Repr

namespace Arduino
variable {A : Type}

/-- `arduino::nonblocking_datapump_loop` — src/platform/arduino/arduino-eth-datapump.cpp:9-25: a packet is begun and ended with nothing written
to it, the item stays, and a packet that arrived is not looked at. -/
def loop (s : Arduino A) (_arrived : Option (List UInt8 × A)) : Arduino A :=
  match s.outq with
  | [] => s
  | o :: _ => { s with sent := s.sent ++ [([], o.2)] }

/-- Queueing a datagram (the library's `enqueue_out`) — src/platform/arduino/arduino-eth-datapump.cpp:13. -/
def enqueue (s : Arduino A) (bytes : List UInt8) (to : A) : Arduino A := { s with outq := s.outq ++ [(bytes, to)] }

end Arduino

/-- What the program does with the Arduino pump — src/platform/arduino/arduino-eth-datapump.cpp:9-25. -/
inductive ArduinoEv (A : Type) where
  | loop (arrived : Option (List UInt8 × A))
  | enqueue (bytes : List UInt8) (to : A)
deriving DecidableEq, Repr

/-- A run of the program with the Arduino pump — src/platform/arduino/arduino-eth-datapump.cpp:9-25. -/
def Arduino.run {A : Type} (s : Arduino A) : List (ArduinoEv A) → Arduino A
  | [] => s
  | .loop i :: es => (s.loop i).run es
  | .enqueue b a :: es => (s.enqueue b a).run es

end Verif.Model
