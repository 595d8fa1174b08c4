import Verif.Model.Codes

/-! # The code registries of RFC 7252, section 12.1 -/
namespace Verif.Spec
open Verif.Model

/-- The class and the detail registered for what a name says (RFC 7252, 4.1, 12.1.1 and 12.1.2). -/
def rfcCode : CodeName → Nat × Nat
  | .empty => (0, 0)
  | .get => (0, 1)
  | .post => (0, 2)
  | .put => (0, 3)
  | .delete => (0, 4)
  | .created => (2, 1)
  | .deleted => (2, 2)
  | .valid => (2, 3)
  | .changed => (2, 4)
  | .content => (2, 5)
  | .badRequest => (4, 0)
  | .unauthorized => (4, 1)
  | .badOption => (4, 2)
  | .forbidden => (4, 3)
  | .notFound => (4, 4)
  | .methodNotAllowed => (4, 5)
  | .notAcceptable => (4, 6)
  | .preConditionFailed => (4, 12)
  | .requestEntityTooLarge => (4, 13)
  | .unsupportedContentFormat => (4, 15)
  | .internalServerError => (5, 0)
  | .notImplemented => (5, 1)
  | .serviceUnavailable => (5, 3)
  | .gatewayTimeout => (5, 4)
  | .proxyingNotSupported => (5, 5)

/-- All codes registered: 0.00, the methods, and the response codes. -/
def rfcRegistry : List (Nat × Nat) :=
  [(0, 0), (0, 1), (0, 2), (0, 3), (0, 4), (2, 1), (2, 2), (2, 3), (2, 4), (2, 5),
   (4, 0), (4, 1), (4, 2), (4, 3), (4, 4), (4, 5), (4, 6), (4, 12), (4, 13), (4, 15),
   (5, 0), (5, 1), (5, 2), (5, 3), (5, 4), (5, 5)]

/-- The methods among them (12.1.1). -/
def rfcMethod : MethodName → Nat × Nat
  | .get => (0, 1)
  | .post => (0, 2)
  | .put => (0, 3)
  | .delete => (0, 4)

end Verif.Spec
