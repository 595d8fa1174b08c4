import Verif.Model.ObserveEmit
import Verif.Spec.Observe

/-!
# Specification of the notifications of the observe example

Only the type of histories and what happens to the registrar in one (`paced`) are taken from the model.
-/
namespace Verif.Spec
open Verif.Model.Observable

/-- The value of a decimal numeral. -/
def decValue (ds : List UInt8) : Nat := ds.foldl (fun a d => 10 * a + (d.toNat - 48)) 0

/-- `ds` is the decimal numeral of `n`: digits only, no leading zero, value `n`. -/
def IsDecimal (ds : List UInt8) (n : Nat) : Prop :=
  (∀ d ∈ ds, 48 ≤ d.toNat ∧ d.toNat ≤ 57) ∧ ds ≠ [] ∧ (ds.head? = some 48 → n = 0) ∧ decValue ds = n

/-- "Observed: ". -/
def observedWord : List UInt8 := [79, 98, 115, 101, 114, 118, 101, 100, 58, 32]

/-- The observers are notified by the call at time `now` after the history `pre`. -/
def Fires {A : Type} (pre : List (LoopEv A)) (now : Int) : Prop :=
  rounds (paced 0 (pre ++ [.loop now])) = rounds (paced 0 pre) + 1

/-- They are not. -/
def Silent {A : Type} (pre : List (LoopEv A)) (now : Int) : Prop :=
  paced 0 (pre ++ [.loop now]) = paced 0 pre

end Verif.Spec
