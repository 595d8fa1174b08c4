import Verif.Model.Observable
import Verif.Spec.Wire

/-!
# Specification of observation (RFC 7641), on histories of requests and rounds

Only the type of histories is taken from the model.
-/
namespace Verif.Spec
open Verif.Model.Observable

/-- Number of rounds. -/
def rounds {A : Type} : List (Ev A) → Nat
  | [] => 0
  | .round :: es => rounds es + 1
  | .observe _ _ _ :: es => rounds es

/-- The registrations of a history, in order, each with the number of rounds since. -/
def subs {A : Type} : List (Ev A) → List (A × List UInt8 × Nat)
  | [] => []
  | .round :: es => subs es
  | .observe a t c :: es => if c = 0 then (a, t, rounds es) :: subs es else subs es

/-- Number of messages due in a history: every registration gets one per later round. -/
def due {A : Type} (es : List (Ev A)) : Nat := ((subs es).map fun x => x.2.2).sum

/-- A notification: non-confirmable, 2.05, with an observe option. -/
def notification (mid : Nat) (token value : List UInt8) (payload : Option (List UInt8)) : Msg :=
  ⟨1, 1, 69, mid, token, [⟨6, value⟩], payload⟩

end Verif.Spec
