import Verif.Spec.Wire

/-!
# Specification: options a server does not know (RFC 7252 section 5.4.1)
-/
namespace Verif.Spec

/-- The option numbers of RFC 7252 section 12.2, RFC 7641 and RFC 7959. -/
def registeredOptions : List Nat := [1, 3, 4, 5, 6, 7, 8, 11, 12, 14, 15, 17, 20, 23, 27, 28, 35, 39, 60]

/-- An elective option: even number. -/
def Elective (o : Opt) : Prop := o.number % 2 = 0
/-- A critical option: odd number. -/
def Critical (o : Opt) : Prop := o.number % 2 = 1
/-- An option outside the list. -/
def UnknownOpt (o : Opt) : Prop := o.number ∉ registeredOptions

instance (o : Opt) : Decidable (Elective o) := inferInstanceAs (Decidable (_ = _))
instance (o : Opt) : Decidable (Critical o) := inferInstanceAs (Decidable (_ = _))
instance (o : Opt) : Decidable (UnknownOpt o) := inferInstanceAs (Decidable (¬_))

/-- `ElectiveAdded os os'`: `os'` is `os` with unknown elective options in between, before or behind. -/
inductive ElectiveAdded : List Opt → List Opt → Prop
  | nil : ElectiveAdded [] []
  | keep {o os os'} : ElectiveAdded os os' → ElectiveAdded (o :: os) (o :: os')
  | add {o os os'} : UnknownOpt o → Elective o → ElectiveAdded os os' → ElectiveAdded os (o :: os')

end Verif.Spec
