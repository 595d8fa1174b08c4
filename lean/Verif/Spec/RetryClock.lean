import Verif.Model.RetryClock

/-!
# Times with respect to a clock that wraps
-/
namespace Verif.Spec
open Verif.Model Verif.Model.Retry

variable {A : Type}

/-- An event that leaves room for every delay (at most 16380 ms, four times the longest initial timeout that can be stored)
before the clock wraps for the first time. -/
def BeforeWrap (M : Nat) : Ev A → Prop
  | .sent now _ _ _ _ => now + 16380 < M
  | .recv _ _ _ => True
  | .service now => now + 16380 < M

/-- A call of the retry manager when the clock shows less than `d`. -/
def ShowsLess (M d : Nat) : Ev A → Prop
  | .service now => now % M < d
  | _ => False

end Verif.Spec
