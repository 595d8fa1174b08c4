import Verif.Model.Buffers
import Verif.Model.Retry

/-!
# Model of who holds and deletes the buffer of a message that is to be resent

Built with `FEATURE_EMBR_DATAPUMP_INLINE` and `FEATURE_MCCOAP_RETRY_INLINE` off: the queue of the data pump and the retry queue hold pointers to
the same buffer.  The heap is that of `Model/Buffers`, the retry queue that of `Model/Retry`, in which every tracked message carries the pointer
to its buffer beside its address.  Message id and token of a tracked message are kept beside the pointer; the code reads them from the buffer
whenever it compares them, so that the comparison needs the buffer.  Buffers of messages received are left out (`Model/Buffers`).
-/
namespace Verif.Model.RBuf
open Verif.Model.Buf Verif.Model.Retry

/-- Why there is no next state: a buffer was used or deleted that is not allocated; a tracked message had no room (the container of
src/exp/retry.h:304 holds ten, what a push does then is up to the library). -/
inductive Stop
  | freed
  | full
deriving DecidableEq, Repr

/-- Heap, outgoing queue of the pump and retry manager — src/platform/posix/sockets-datapump.h:44-51, src/exp/retry.h:224, 326. -/
structure St (A : Type) where
  heap : Heap
  outq : List (Nat × A)
  retry : Retry.St (A × Nat)

/-- Nothing allocated, queued or tracked — src/platform/posix/sockets-datapump.h:58-61, src/exp/retry.h:329. -/
def St.init {A : Type} : St A := ⟨⟨[], 0⟩, [], Retry.init⟩

/-- What a program does: it sends a message of its own, to be resent or not; the pump transmits, and is told (`keep`) whether someone else is to
delete the buffer; a message arrives and is looked at as a possible acknowledgement; `service_retry` is called —
src/exp/retry.h:347-362, 498-515, 547-615, src/platform/posix/sockets-datapump.cpp:86-136. -/
inductive Ev (A : Type)
  | send (addr : A) (track : Option (Nat × Nat × UInt16 × List UInt8))
  | transmit (keep : Bool)
  | ack (addr : A) (h : Header) (token : List UInt8)
  | service (now : Nat)

namespace St
variable {A : Type}

/-- A message is made, handed to the pump and, if it is to be resent, to the retry manager as well: time, random number, message id and token are
given — src/platform/posix/sockets-datapump.h:117-129, src/exp/retry.h:347-362; as in test/unit-tests/retry-test.cpp:118-144. -/
def send (P : PQ (A × Nat)) (s : St A) (addr : A) : Option (Nat × Nat × UInt16 × List UInt8) → Except Stop (St A)
  | none => .ok { s with heap := s.heap.new.1, outq := s.outq ++ [(s.heap.new.2, addr)] }
  | some (now, rnd, mid, token) =>
    match Retry.enqueue P s.retry now rnd (addr, s.heap.new.2) mid token with
    | none => .error .full
    | some (r, _) => .ok ⟨s.heap.new.1, s.outq ++ [(s.heap.new.2, addr)], r⟩

/-- First half of the pump's loop — src/platform/posix/sockets-datapump.cpp:86-136: the buffer is read (lines 96-106), then deleted unless
`on_message_transmitted` of the library says otherwise (lines 109-133; without `FEATURE_MCCOAP_RELIABLE` it is not asked: `keep` is `false`). -/
def transmit (s : St A) (keep : Bool) : Except Stop (St A) :=
  match s.outq with
  | [] => .ok s
  | (b, _) :: outq =>
    if b ∈ s.heap.live then
      if keep then .ok { s with outq := outq }
      else
        match s.heap.delete b with
        | none => .error .freed
        | some h => .ok { s with heap := h, outq := outq }
    else .error .freed

/-- The loop of `match` reads the buffers of the tracked messages up to the first hit — src/exp/retry.h:395-418 (`mid` and `token` lines 240-258). -/
def readable (live : List Nat) (hit : Item (A × Nat) → Bool) : List (Item (A × Nat)) → Bool
  | [] => true
  | v :: vs => decide (v.addr.2 ∈ live) && (hit v || readable live hit vs)

/-- `service_ack` of a message that has arrived — src/exp/retry.h:498-515, 472-485. -/
def ack (P : PQ (A × Nat)) (same : A → A → Bool) (s : St A) (addr : A) (h : Header) (token : List UInt8) : Except Stop (St A) :=
  let sameAddr := fun (a b : A × Nat) => same a.1 b.1
  if h.type == Header.acknowledgement then
    if readable s.heap.live (hits sameAddr (addr, 0) h.messageId token) s.retry.q then
      .ok { s with retry := (serviceAck P sameAddr s.retry (addr, 0) h token).1 }
    else .error .freed
  else .ok s

/-- `service_retry` — src/exp/retry.h:547-615: the pointer to the buffer is handed to the pump again. -/
def service (P : PQ (A × Nat)) (s : St A) (now : Nat) : St A :=
  let r := serviceRetry P s.retry now
  ⟨s.heap, s.outq ++ r.2.filterMap (fun | .sent _ _ a => some (a.2, a.1) | _ => none), r.1⟩

/-- One action — src/exp/retry.h:347-362, 498-515, 547-615, src/platform/posix/sockets-datapump.cpp:86-136. -/
def step (P : PQ (A × Nat)) (same : A → A → Bool) (s : St A) : Ev A → Except Stop (St A)
  | .send a t => s.send P a t
  | .transmit k => s.transmit k
  | .ack a h t => s.ack P same a h t
  | .service now => .ok (s.service P now)

/-- A run of the program — src/exp/retry.h:347-362, 498-515, 547-615, src/platform/posix/sockets-datapump.cpp:86-136. -/
def run (P : PQ (A × Nat)) (same : A → A → Bool) : St A → List (Ev A) → Except Stop (St A)
  | s, [] => .ok s
  | s, e :: es =>
    match s.step P same e with
    | .error f => .error f
    | .ok s => run P same s es

end St
end Verif.Model.RBuf
