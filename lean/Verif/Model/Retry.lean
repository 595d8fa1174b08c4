import Verif.Model.Header

/-!
# Model of `src/exp/retry.h` (`Retry`, `RetryObserver`)

Time is a natural number of milliseconds without an upper end.  The priority queue, its vector and
`address_traits::equals_fromto` belong to libraries outside the repository.  They appear as parameters: `PQ`
is the contract of the standard heap operations, `sameAddr` is any comparison.  A tracked netbuf is
represented by its message id, token and a number `id` that tells tracked messages apart; its life time is
in `Model/RetryBuffers`.  The random policy is a parameter too (the default one, src/exp/retry.h:49-64, does not accept
the arguments given at lines 280-283, one of which is an `int` and the other a `double`).
-/
namespace Verif.Model.Retry

/-- `Item` and `Metadata` — src/exp/retry.h:160-192, 203-284.  `id` identifies the netbuf. -/
structure Item (A : Type) where
  id : Nat
  addr : A
  mid : UInt16
  token : List UInt8
  timeout : Nat
  counter : Nat
  due : Nat
deriving DecidableEq, Repr

/-- `Metadata::delta` — src/exp/retry.h:185-191.  At most 4095 · 128, so nothing wraps. -/
def Item.delta {A} (i : Item A) : Nat := i.timeout * 2 ^ i.counter

/-- What `estd::priority_queue` with `estd::greater<Item>` and `std::make_heap` guarantee about the container
— src/exp/retry.h:305-324.  `heap` is the heap property; the first element is the top. -/
structure PQ (A : Type) where
  heap : List (Item A) → Prop
  push : List (Item A) → Item A → List (Item A)
  pop : List (Item A) → List (Item A)
  make : List (Item A) → List (Item A)
  heap_nil : heap []
  heap_top : ∀ x l, heap (x :: l) → ∀ y ∈ l, x.due ≤ y.due
  push_heap : ∀ l x, heap l → heap (push l x)
  push_perm : ∀ l x, heap l → (push l x).Perm (x :: l)
  pop_heap : ∀ x l, heap (x :: l) → heap (pop (x :: l))
  pop_perm : ∀ x l, heap (x :: l) → (pop (x :: l)).Perm l
  make_heap : ∀ l, heap (make l)
  make_perm : ∀ l, (make l).Perm l

/-- The queue — src/exp/retry.h:326 — and the number of the next message to be tracked. -/
structure St (A : Type) where
  q : List (Item A)
  next : Nat
deriving Repr

/-- What can be observed: a message to some address is taken over at some time with some initial timeout,
retransmitted at some time to some address (`enqueue_out`), or dropped because of an acknowledgement —
src/exp/retry.h:347-362, 472-485, 547-615. -/
inductive Out (A : Type)
  | queued (now id timeout : Nat) (addr : A)
  | sent (now id : Nat) (addr : A)
  | acked (id : Nat)
deriving DecidableEq, Repr

/-- What happens to a `Retry`: the transport reports a message as sent; a message arrives; `service_retry`
is called — src/exp/retry.h:498-515, 547-615, 646-656. -/
inductive Ev (A : Type)
  | sent (now rnd : Nat) (addr : A) (h : Header) (token : List UInt8)
  | recv (addr : A) (h : Header) (token : List UInt8)
  | service (now : Nat)
deriving Repr

variable {A : Type}

/-- `enqueue` — src/exp/retry.h:347-362, constructor lines 264-284.  The container holds ten items (line
304); what a push into a full one does is up to the library and is modelled as `none`. -/
def enqueue (P : PQ A) (s : St A) (now rnd : Nat) (addr : A) (mid : UInt16) (token : List UInt8) : Option (St A × List (Out A)) :=
  if s.q.length < 10 then
    let i : Item A := ⟨s.next, addr, mid, token, rnd % 4096, 0, 0⟩
    some (⟨P.push s.q { i with due := now + i.delta }, s.next + 1⟩, [.queued now s.next (rnd % 4096) addr])
  else none

/-- `RetryObserver::on_notify` — src/exp/retry.h:646-656, `is_con` lines 333-336. -/
def onSent (P : PQ A) (s : St A) (now rnd : Nat) (addr : A) (h : Header) (token : List UInt8) : Option (St A × List (Out A)) :=
  if h.type == Header.confirmable then enqueue P s now rnd addr h.messageId token else some (s, [])

/-- The test in `match` — src/exp/retry.h:409-411. -/
def hits (sameAddr : A → A → Bool) (addr : A) (mid : UInt16) (token : List UInt8) (v : Item A) : Bool :=
  sameAddr addr v.addr && v.token == token && v.mid == mid

/-- `ack_received` — src/exp/retry.h:472-485 with `match` (387-423, the first hit in the container) and
`erase` (317-321). -/
def ackReceived (P : PQ A) (sameAddr : A → A → Bool) (s : St A) (addr : A) (mid : UInt16) (token : List UInt8) :
    St A × List (Out A) × Bool :=
  match s.q.find? (hits sameAddr addr mid token) with
  | some x => ({ s with q := P.make (s.q.eraseP (hits sameAddr addr mid token)) }, [.acked x.id], true)
  | none => (s, [], false)

/-- `service_ack` — src/exp/retry.h:498-515. -/
def serviceAck (P : PQ A) (sameAddr : A → A → Bool) (s : St A) (addr : A) (h : Header) (token : List UInt8) :
    St A × List (Out A) × Bool :=
  if h.type == Header.acknowledgement then ackReceived P sameAddr s addr h.messageId token else (s, [], false)

/-- `service_retry` — src/exp/retry.h:547-615, with `COAP_MAX_RETRANSMIT` = 4 (src/coap.h:39).
`retransmission_counter` has three bits. -/
def serviceRetry (P : PQ A) (s : St A) (now : Nat) : St A × List (Out A) :=
  match s.q with
  | [] => (s, [])
  | f :: _ =>
    if now ≥ f.due then
      if f.counter < 4 - 2 then
        let f := { f with counter := (f.counter + 1) % 8 }
        ({ s with q := P.push (P.pop s.q) { f with due := now + f.delta } }, [.sent now f.id f.addr])
      else if f.counter = 4 - 2 then ({ s with q := P.pop s.q }, [.sent now f.id f.addr])
      else ({ s with q := P.pop s.q }, [])
    else (s, [])

/-- One event — src/exp/retry.h:498-515, 547-615, 646-656. -/
def step (P : PQ A) (sameAddr : A → A → Bool) (s : St A) : Ev A → Option (St A × List (Out A))
  | .sent now rnd addr h token => onSent P s now rnd addr h token
  | .recv addr h token => let r := serviceAck P sameAddr s addr h token; some (r.1, r.2.1)
  | .service now => some (serviceRetry P s now)

/-- A history, with everything observed — src/exp/retry.h:498-515, 547-615, 646-656. -/
def run (P : PQ A) (sameAddr : A → A → Bool) : St A → List (Ev A) → Option (St A × List (Out A))
  | s, [] => some (s, [])
  | s, e :: es =>
    match step P sameAddr s e with
    | none => none
    | some (s, o) => (run P sameAddr s es).map fun r => (r.1, o ++ r.2)

/-- A new `Retry` — src/exp/retry.h:329. -/
def init : St A := ⟨[], 0⟩

end Verif.Model.Retry
