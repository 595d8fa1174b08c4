import Verif.Model.Retry
import Verif.Model.PullDecoder

/-!
# `src/exp/retry.h` on the bytes of messages

`Model/Retry` takes header and token of each message as given.  Here they are read from the bytes with the
pull-style decoder, as the code does.  `junk` is what the memory of each decoder held.
-/
namespace Verif.Model.Retry

deriving instance DecidableEq for St

/-- `decoder.header()` and `decoder.token(&token)` on a network buffer — src/exp/retry.h:124-137, 236-257, 503-507, and
src/coap/decoder/netbuf.h:157-198.  An incomplete token leaves the empty one. -/
def readHead (junk : Dec) (bytes : List UInt8) : Option (Header × List UInt8) :=
  match (Pull.make junk bytes).header with
  | .error _ => none
  | .ok (h, p) =>
    match p.token with
    | .error _ => none
    | .ok (t, _, _) => some (h, t)

/-- What happens to a `Retry`, with messages as bytes: one was sent (src/exp/retry.h:646-656), one arrives (lines
498-515), `service_retry` is called (lines 547-615). -/
inductive WEv (A : Type)
  | sent (now rnd : Nat) (addr : A) (bytes : List UInt8)
  | recv (addr : A) (bytes : List UInt8)
  | service (now : Nat)
deriving Repr

/-- One event; `none` also stands for memory accesses of the decoder outside its buffers — src/exp/retry.h:498-515, 547-623, 646-656. -/
def wstep {A : Type} (P : PQ A) (sameAddr : A → A → Bool) (junk : Dec) (s : St A) : WEv A → Option (St A × List (Out A))
  | .sent now rnd addr bytes =>
    match readHead junk bytes with
    | none => none
    | some (h, t) => step P sameAddr s (.sent now rnd addr h t)
  | .recv addr bytes =>
    match readHead junk bytes with
    | none => none
    | some (h, t) => step P sameAddr s (.recv addr h t)
  | .service now => step P sameAddr s (.service now)

/-- A history, all calls in the order they are made, with everything observed — src/exp/retry.h:498-515, 547-623, 646-656. -/
def wrun {A : Type} (P : PQ A) (sameAddr : A → A → Bool) (junk : Dec) : St A → List (WEv A) → Option (St A × List (Out A))
  | s, [] => some (s, [])
  | s, e :: es =>
    match wstep P sameAddr junk s e with
    | none => none
    | some (s, o) => (wrun P sameAddr junk s es).map fun r => (r.1, o ++ r.2)

end Verif.Model.Retry
