import Verif.Model.Retry

/-!
# Model of `RetryObserver` (src/exp/retry.h) attached to the transport

The datapump and the dataport are in a library that is not in the checkout.  What is assumed of them is what
src/exp/retry.h:640-645 says: datagrams handed over with `enqueue_out` leave in the order they were handed over, and for
each datagram that leaves there is one `transport_sent` event, given at that time.  The build without
`FEATURE_MCCOAP_RETRY_INLINE` is modelled (it is disabled at src/exp/retry.h:78).
-/
namespace Verif.Model.Retry

/-- A datagram in the outgoing queue: where it goes, whether its header says confirmable, its message id and token —
src/exp/retry.h:333-336, 578, 602. -/
structure Gram (A : Type) where
  addr : A
  con : Bool
  mid : UInt16
  token : List UInt8
deriving DecidableEq, Repr

/-- The retry manager and the outgoing queue of the datapump — src/exp/retry.h:326, 640-656. -/
structure LoopSt (A : Type) where
  r : St A
  out : List (Gram A)
deriving Repr

/-- The application hands a datagram over; the transport sends the first datagram of the outgoing queue and reports it;
a message arrives; `service_retry` is called — src/exp/retry.h:498-539, 547-615, 640-656. -/
inductive LoopEv (A : Type)
  | app (g : Gram A)
  | transmit (now rnd : Nat)
  | recv (addr : A) (h : Header) (token : List UInt8)
  | service (now : Nat)
deriving Repr

variable {A : Type}

/-- `RetryObserver::on_notify` with `is_con` — src/exp/retry.h:333-336, 646-656 — for a datagram of the queue. -/
def notifySent (P : PQ A) (s : St A) (now rnd : Nat) (g : Gram A) : Option (St A) :=
  if g.con then (enqueue P s now rnd g.addr g.mid g.token).map (·.1) else some s

/-- The datagram of a tracked item: its netbuf and address — src/exp/retry.h:578, 602.  Only confirmable messages are
tracked. -/
def Item.gram (x : Item A) : Gram A := ⟨x.addr, true, x.mid, x.token⟩

/-- What `service_retry` hands to the datapump — src/exp/retry.h:578, 602: the datagram of the first item of the queue, if
there was a retransmission. -/
def handedOver (q : List (Item A)) (o : List (Out A)) : List (Gram A) :=
  match q, o with
  | f :: _, .sent _ _ _ :: _ => [f.gram]
  | _, _ => []

/-- One event; the second component tells what left and when — src/exp/retry.h:498-539, 547-615, 640-656. -/
def loopStep (P : PQ A) (sameAddr : A → A → Bool) (s : LoopSt A) : LoopEv A → Option (LoopSt A × List (Nat × Gram A))
  | .app g => some ({ s with out := s.out ++ [g] }, [])
  | .transmit now rnd =>
    match s.out with
    | [] => some (s, [])
    | g :: out => (notifySent P s.r now rnd g).map fun r => (⟨r, out⟩, [(now, g)])
  | .recv addr h token => some ({ s with r := (serviceAck P sameAddr s.r addr h token).1 }, [])
  | .service now =>
    let r := serviceRetry P s.r now
    some (⟨r.1, s.out ++ handedOver s.r.q r.2⟩, [])

/-- A history, with everything that left — src/exp/retry.h:498-539, 547-615, 640-656. -/
def loopRun (P : PQ A) (sameAddr : A → A → Bool) : LoopSt A → List (LoopEv A) → Option (LoopSt A × List (Nat × Gram A))
  | s, [] => some (s, [])
  | s, e :: es =>
    match loopStep P sameAddr s e with
    | none => none
    | some (s, o) => (loopRun P sameAddr s es).map fun r => (r.1, o ++ r.2)

/-- A new retry manager and an empty datapump — src/exp/retry.h:329. -/
def loopInit : LoopSt A := ⟨init, []⟩

/-- `service_ack` with a datapump — src/exp/retry.h:521-539: looks at the first message that has arrived and leaves it
where it is. -/
def serviceAckPump (P : PQ A) (sameAddr : A → A → Bool) (s : St A) (inQ : List (A × Header × List UInt8)) : St A × Bool :=
  match inQ with
  | [] => (s, false)
  | (addr, h, token) :: _ => let r := serviceAck P sameAddr s addr h token; (r.1, r.2.2)

end Verif.Model.Retry
