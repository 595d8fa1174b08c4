import Verif.Model.Retry

/-!
# Model of `src/exp/retry.h` (`Retry`) with a time type that wraps

`Retry` takes its time type from the policy (src/exp/retry.h:112-114).  `Model/Retry` lets it be unbounded.  Here it is an
unsigned integer of the C++ program with `M` values (65536 for the `uint16_t` of test/unit-tests/retry-test.cpp:26): the clock shows
the milliseconds that have passed modulo `M`, sums are reduced when they are stored in `due`, and comparisons are those of the
unsigned type.  Events and what is observed carry the time that has really passed.
-/
namespace Verif.Model.Retry

variable {A : Type}

/-- What `time_traits::now()` returns at some time — src/exp/retry.h:36. -/
def clock (M now : Nat) : Nat := now % M

/-- The addition of a delay to a time, stored as time — src/exp/retry.h:358, 589. -/
def clockAdd (M t d : Nat) : Nat := (t + d) % M

/-- `enqueue` — src/exp/retry.h:347-362; see `enqueue`. -/
def enqueueOn (M : Nat) (P : PQ A) (s : St A) (now rnd : Nat) (addr : A) (mid : UInt16) (token : List UInt8) : Option (St A × List (Out A)) :=
  if s.q.length < 10 then
    let i : Item A := ⟨s.next, addr, mid, token, rnd % 4096, 0, 0⟩
    some (⟨P.push s.q { i with due := clockAdd M (clock M now) i.delta }, s.next + 1⟩, [.queued now s.next (rnd % 4096) addr])
  else none

/-- `RetryObserver::on_notify` — src/exp/retry.h:646-656; see `onSent`. -/
def onSentOn (M : Nat) (P : PQ A) (s : St A) (now rnd : Nat) (addr : A) (h : Header) (token : List UInt8) : Option (St A × List (Out A)) :=
  if h.type == Header.confirmable then enqueueOn M P s now rnd addr h.messageId token else some (s, [])

/-- `service_retry` and `service` — src/exp/retry.h:547-623; see `serviceRetry`. -/
def serviceRetryOn (M : Nat) (P : PQ A) (s : St A) (now : Nat) : St A × List (Out A) :=
  match s.q with
  | [] => (s, [])
  | f :: _ =>
    if clock M now ≥ f.due then
      if f.counter < 4 - 2 then
        let f := { f with counter := (f.counter + 1) % 8 }
        ({ s with q := P.push (P.pop s.q) { f with due := clockAdd M (clock M now) f.delta } }, [.sent now f.id f.addr])
      else if f.counter = 4 - 2 then ({ s with q := P.pop s.q }, [.sent now f.id f.addr])
      else ({ s with q := P.pop s.q }, [])
    else (s, [])

/-- One event — src/exp/retry.h:498-515, 547-623, 646-656. -/
def stepOn (M : Nat) (P : PQ A) (sameAddr : A → A → Bool) (s : St A) : Ev A → Option (St A × List (Out A))
  | .sent now rnd addr h token => onSentOn M P s now rnd addr h token
  | .recv addr h token => let r := serviceAck P sameAddr s addr h token; some (r.1, r.2.1)
  | .service now => some (serviceRetryOn M P s now)

/-- A history, with everything observed — src/exp/retry.h:498-515, 547-623, 646-656. -/
def runOn (M : Nat) (P : PQ A) (sameAddr : A → A → Bool) : St A → List (Ev A) → Option (St A × List (Out A))
  | s, [] => some (s, [])
  | s, e :: es =>
    match stepOn M P sameAddr s e with
    | none => none
    | some (s, o) => (runOn M P sameAddr s es).map fun r => (r.1, o ++ r.2)

end Verif.Model.Retry
