import Verif.Spec.Wire

/-!
# What a walk with the option iterator shows

`marker` says whether a payload follows the options.
-/
namespace Verif.Spec

/-- The options shown: of every three, the first without its value, the second not at all, the third in
full; a last first-of-three is shown only when a payload follows or its value is empty anyway. -/
def iteratorShows (marker : Bool) : List Opt → List Opt
  | [] => []
  | [o] => if marker = true ∨ o.value = [] then [⟨o.number, []⟩] else []
  | [o, _] => [⟨o.number, []⟩]
  | o :: _ :: o3 :: rest => ⟨o.number, []⟩ :: o3 :: iteratorShows marker rest

/-- Whether the walk ends where the payload begins or the message is over, as it should, and not one step
before. -/
def iteratorArrives (marker : Bool) : List Opt → Bool
  | [] => true
  | [o] => marker || o.value.isEmpty
  | [_, o] => !marker && !o.value.isEmpty
  | _ :: _ :: _ :: rest => iteratorArrives marker rest

end Verif.Spec
