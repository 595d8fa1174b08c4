import Verif.Spec.Wire
import Verif.Model.Dispatch

/-!
# Which handler of an aggregate a message is for, and what it is told

Only the vocabulary (`Call`) comes from the model.
-/
namespace Verif.Spec
open Verif.Model.Dispatch

/-- The first name that is a prefix of the segment. -/
def FirstPrefix (names : List (List UInt8)) (seg : List UInt8) (i : Nat) : Prop :=
  ∃ n, names[i]? = some n ∧ n <+: seg ∧ ∀ j n', j < i → names[j]? = some n' → ¬n' <+: seg

/-- A path segment (not empty) that begins with one of the names. -/
def Named (names : List (List UInt8)) (o : Opt) : Prop := o.number = 11 ∧ o.value ≠ [] ∧ ∃ n ∈ names, n <+: o.value

/-- `Served names os i rest`: `rest` are the options from the first path segment on that begins with a name, and `i` is
the first such name. -/
inductive Served (names : List (List UInt8)) : List Opt → Nat → List Opt → Prop
  | here {o os i} : Named names o → FirstPrefix names o.value i → Served names (o :: os) i (o :: os)
  | later {o os i rest} : ¬Named names o → Served names os i rest → Served names (o :: os) i rest

/-- Option values, payload and end. -/
def told (os : List Opt) (payload : Option (List UInt8)) : List Call :=
  (os.filter fun o => o.value ≠ []).map (fun o => .option (UInt16.ofNat o.number) o.value true) ++
    (match payload with | none => [] | some p => [.payload p true, .complete])

end Verif.Spec
