/-!
# Model of who allocates and deletes network buffers

Built with `FEATURE_EMBR_DATAPUMP_INLINE` and `FEATURE_MCCOAP_RELIABLE` off: the queues of the data pump hold pointers.  Only the buffers are
followed, not what is in them; the queues are first in, first out, as in `Model/Sockets`.
-/
namespace Verif.Model.Buf

/-- The heap: the buffers that are allocated, and the next address (an address is not used again, so that every use after a delete
shows) — the `new` and `delete` expressions cited below; src/platform/generic/datapump-messageobserver.hpp:84-85. -/
structure Heap where
  live : List Nat
  next : Nat
deriving DecidableEq, Repr

/-- `new netbuf_t` — src/platform/generic/datapump-messageobserver.hpp:85, src/platform/posix/sockets-datapump.cpp:159. -/
def Heap.new (h : Heap) : Heap × Nat := (⟨h.next :: h.live, h.next + 1⟩, h.next)

/-- `delete netbuf` — src/platform/generic/datapump-messageobserver.hpp:84, src/platform/posix/sockets-datapump.cpp:132; `none`: the buffer is not
allocated. -/
def Heap.delete (h : Heap) (b : Nat) : Option Heap := if b ∈ h.live then some { h with live := h.live.erase b } else none

/-- Heap and queues — src/platform/posix/sockets-datapump.h:84-129. -/
structure St where
  heap : Heap
  inq : List Nat
  outq : List Nat
deriving DecidableEq, Repr

/-- Nothing allocated, nothing queued — src/platform/posix/sockets-datapump.h:58-61. -/
def St.init : St := ⟨⟨[], 0⟩, [], []⟩

/-- What a program does: one turn of the socket or lwIP loop, in which a datagram arrives or not; a message for the observer by one of the two
functions; an answer as the example servers make it; a message of its own — src/platform/posix/sockets-datapump.cpp:79-189,
src/platform/generic/datapump-messageobserver.hpp:62-122, test/template/simple-ping-responder.hpp:23-95. -/
inductive Ev
  | turn (arrives : Bool)
  | observer
  | observer2
  | answer
  | send
deriving DecidableEq, Repr

/-- First half of the loop — src/platform/posix/sockets-datapump.cpp:86-136, src/platform/lwip/lwip-datapump.cpp:53-85: the buffer that was sent is
deleted.  The buffer is used in between: it has to be allocated. -/
def St.transmit (s : St) : Option St :=
  match s.outq with
  | [] => some s
  | b :: outq => (s.heap.delete b).map fun h => { s with heap := h, outq := outq }

/-- Second half — src/platform/posix/sockets-datapump.cpp:138-188, src/platform/lwip/lwip-datapump.cpp:87-114: a buffer is allocated for what
arrives (one that is allocated for nothing because receiving fails ends the process, line 187). -/
def St.receive (s : St) (arrives : Bool) : St :=
  if arrives then
    let (h, b) := s.heap.new
    { s with heap := h, inq := s.inq ++ [b] }
  else s

/-- `process_messageobserver` — src/platform/generic/datapump-messageobserver.hpp:62-93: the buffer is read and deleted, another one is allocated
and its address forgotten. -/
def St.observer (s : St) : Option St :=
  match s.inq with
  | [] => some s
  | b :: inq => (s.heap.delete b).map fun h => { s with heap := h.new.1, inq := inq }

/-- `process_messageobserver2` — src/platform/generic/datapump-messageobserver.hpp:98-122. -/
def St.observer2 (s : St) : Option St :=
  match s.inq with
  | [] => some s
  | b :: inq => (s.heap.delete b).map fun h => { s with heap := h, inq := inq }

/-- `simple_ping_responder` and the discovery example — test/template/simple-ping-responder.hpp:23-95, test/posix/discoverable/main.cpp:64-172: the
buffer read is deleted, one for the answer allocated and handed over. -/
def St.answer (s : St) : Option St :=
  match s.inq with
  | [] => some s
  | b :: inq => (s.heap.delete b).map fun h => { s with heap := h.new.1, inq := inq, outq := s.outq ++ [h.new.2] }

/-- A message of its own — src/coap/observable.hpp:42-73 (a notification), src/platform/posix/sockets-datapump.h:117-129. -/
def St.send (s : St) : St := { s with heap := s.heap.new.1, outq := s.outq ++ [s.heap.new.2] }

/-- One action — src/platform/posix/sockets-datapump.cpp:79-189, src/platform/generic/datapump-messageobserver.hpp:62-122. -/
def St.step (s : St) : Ev → Option St
  | .turn a => s.transmit.map (·.receive a)
  | .observer => s.observer
  | .observer2 => s.observer2
  | .answer => s.answer
  | .send => some s.send

/-- A run of the program — src/platform/posix/sockets-datapump.cpp:79-189, src/platform/generic/datapump-messageobserver.hpp:62-122. -/
def St.run (s : St) : List Ev → Option St
  | [] => some s
  | e :: es => (s.step e).bind (·.run es)

end Verif.Model.Buf
