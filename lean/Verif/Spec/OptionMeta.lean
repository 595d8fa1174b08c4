/-!
# Specification: the option definitions of RFC 7252 (table 4), RFC 7641 (Observe) and RFC 7959 (Block1, Block2)
-/
namespace Verif.Spec

/-- Value formats of RFC 7252 section 3.2. -/
inductive VFormat
  | empty | opaque | uint | string
deriving DecidableEq, Repr

/-- Number, format, shortest and longest value. -/
def optionTable : List (Nat × VFormat × Nat × Nat) :=
  [(1, .opaque, 0, 8), (3, .string, 1, 255), (4, .opaque, 1, 8), (5, .empty, 0, 0), (6, .uint, 0, 3), (7, .uint, 0, 2),
   (8, .string, 0, 255), (11, .string, 0, 255), (12, .uint, 0, 2), (14, .uint, 0, 4), (15, .string, 0, 255),
   (17, .uint, 0, 2), (20, .string, 0, 255), (23, .uint, 0, 3), (27, .uint, 0, 3), (35, .string, 1, 1034),
   (39, .string, 1, 255), (60, .uint, 0, 4)]

end Verif.Spec
