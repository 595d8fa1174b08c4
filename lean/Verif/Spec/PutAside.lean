import Verif.Spec.Wire

/-!
# Specification: messages that are put aside before their content is looked at (RFC 7252 sections 3, 4.1, 4.2, 4.3)
-/
namespace Verif.Spec

/-- An empty message: code 0.00, nothing behind the message id (RFC 7252 section 4.1). -/
def EmptyMsg (m : Msg) : Prop := m.code = 0 ∧ m.token = [] ∧ m.opts = [] ∧ m.payload = none

instance (m : Msg) : Decidable (EmptyMsg m) := inferInstanceAs (Decidable (_ ∧ _ ∧ _ ∧ _))

/-- A message to be put aside: of another version, or empty. -/
def PutAside (m : Msg) : Prop := m.version ≠ 1 ∨ EmptyMsg m

instance (m : Msg) : Decidable (PutAside m) := inferInstanceAs (Decidable (_ ∨ _))

/-- The reset for a message id. -/
def resetFor (mid : Nat) : Msg := ⟨1, 3, 0, mid, [], [], none⟩

/-- What RFC 7252 has a receiver send for a message to be put aside: nothing for another version; a reset for an empty
confirmable message; nothing for the other empty ones. -/
def asideReplies (m : Msg) : List Msg :=
  if m.version ≠ 1 then [] else if m.type = 0 then [resetFor m.mid] else []

end Verif.Spec
