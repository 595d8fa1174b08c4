/-!
# Model of `src/platform/posix/sockets-datapump.cpp`: the data pump over a UDP socket

The pump's library is not in the checkout; both its queues are taken to be first in, first out, and unbounded.  The
socket is its answers: whether a send succeeds, and what a receive finds.  Built as in the repository, that is with
`FEATURE_MCCOAP_RELIABLE` and `FEATURE_EMBR_DATAPUMP_INLINE` off.  Addresses are any type.
-/
namespace Verif.Model

/-- The room in a network buffer — src/platform/generic/malloc_netbuf.h:123-129: one chunk. -/
def sockRoom : Nat := 4096

/-- The pump's two queues, each item a datagram and its address; `sent` is what went out on the network and `taken`
what the program has removed from the incoming queue (both for observation only) — src/platform/posix/sockets-datapump.h:84-129. -/
structure Sock (A : Type) where
  inq : List (List UInt8 × A)
  outq : List (List UInt8 × A)
  sent : List (List UInt8 × A)
  taken : List (List UInt8 × A)
deriving DecidableEq, Repr

/-- What the socket has for one turn of the loop: nothing within the 50 ms, a failure of `poll`, a failure of
`recvfrom`, or a datagram — src/platform/posix/sockets-datapump.cpp:138-188. -/
inductive SockIn (A : Type) where
  | quiet
  | pollFails
  | recvFails
  | datagram (bytes : List UInt8) (from_ : A)
deriving DecidableEq, Repr

namespace Sock
variable {A : Type}

/-- First half of `nonblocking_datapump_loop` — src/platform/posix/sockets-datapump.cpp:86-136: the front of the
outgoing queue is sent and removed.  `none`: the process ends (line 108, `error` lines 32-36). -/
def transmit (s : Sock A) (sendOk : Bool) : Option (Sock A) :=
  match s.outq with
  | [] => some s
  | o :: os => if sendOk then some { s with outq := os, sent := s.sent ++ [o] } else none

/-- Second half of `nonblocking_datapump_loop` — src/platform/posix/sockets-datapump.cpp:138-188: `recvfrom` copies
what fits into the buffer and returns that length; only a positive one goes on. -/
def receive (s : Sock A) : SockIn A → Option (Sock A)
  | .quiet => some s
  | .pollFails => none
  | .recvFails => none
  | .datagram bytes from_ =>
    if (bytes.take sockRoom).length > 0 then some { s with inq := s.inq ++ [(bytes.take sockRoom, from_)] } else none

/-- `nonblocking_datapump_loop` — src/platform/posix/sockets-datapump.cpp:79-189. -/
def loop (s : Sock A) (sendOk : Bool) (i : SockIn A) : Option (Sock A) := (s.transmit sendOk).bind (·.receive i)

/-- `SocketsDatapumpHelper::enqueue` — src/platform/posix/sockets-datapump.h:117-129. -/
def enqueue (s : Sock A) (bytes : List UInt8) (to : A) : Sock A := { s with outq := s.outq ++ [(bytes, to)] }

/-- `SocketsDatapumpHelper::front` followed by `pop`, if not `empty` — src/platform/posix/sockets-datapump.h:84-99. -/
def take (s : Sock A) : Sock A :=
  match s.inq with
  | [] => s
  | i :: is => { s with inq := is, taken := s.taken ++ [i] }

end Sock

/-- What the program does with the pump — src/platform/posix/sockets-datapump.h:84-129, src/platform/posix/sockets-datapump.cpp:79-189. -/
inductive SockEv (A : Type) where
  | loop (sendOk : Bool) (i : SockIn A)
  | enqueue (bytes : List UInt8) (to : A)
  | take
deriving DecidableEq, Repr

namespace Sock
variable {A : Type}

/-- One action — src/platform/posix/sockets-datapump.h:84-129, src/platform/posix/sockets-datapump.cpp:79-189. -/
def step (s : Sock A) : SockEv A → Option (Sock A)
  | .loop ok i => s.loop ok i
  | .enqueue b a => some (s.enqueue b a)
  | .take => some s.take

/-- A run of the program; `none` once the process has ended —
src/platform/posix/sockets-datapump.h:84-129, src/platform/posix/sockets-datapump.cpp:79-189. -/
def run (s : Sock A) : List (SockEv A) → Option (Sock A)
  | [] => some s
  | e :: es => (s.step e).bind (·.run es)

/-- Nothing queued — src/platform/posix/sockets-datapump.h:84-99. -/
def empty : Sock A := ⟨[], [], [], []⟩

end Sock
end Verif.Model
