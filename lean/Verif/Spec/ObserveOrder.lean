import Verif.Spec.Observe

/-!
# Specification: how a client puts notifications in order (RFC 7641)

The library has no code for this.  The rule about the time of arrival (128 seconds, RFC 7641 section 3.4) is left out: it
would let a client take a notification that the numbers alone call old.
-/
namespace Verif.Spec

/-- The number in the observe option of a notification: one option 6 of at most three bytes (RFC 7641 section 2; an
elective option of another length is ignored, RFC 7252 section 5.4.3). -/
def observeNumber (m : Msg) : Option Nat :=
  match m.opts.filter fun o => o.number == 6 with
  | [o] => if o.value.length ≤ 3 then some (beValue o.value) else none
  | _ => none

/-- A notification with number `b` is newer than one with number `a` (RFC 7641 section 3.4). -/
def newerNumber (a b : Nat) : Bool := (a < b && b - a < 2 ^ 23) || (b < a && 2 ^ 23 < a - b)

/-- A client that keeps the newest notification of what it gets, in the order it gets it. -/
def observeClient : Option (Nat × Msg) → List Msg → Option (Nat × Msg)
  | s, [] => s
  | s, m :: ms =>
    match observeNumber m, s with
    | none, s => observeClient s ms
    | some v, none => observeClient (some (v, m)) ms
    | some v, some (u, k) => observeClient (if newerNumber u v then some (v, m) else some (u, k)) ms

end Verif.Spec
