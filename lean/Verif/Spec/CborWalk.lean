import Verif.Model.CborWalk
import Verif.Spec.Cbor

/-! # What a program that goes through a CBOR document should print, item by item -/
namespace Verif.Spec
open Verif.Model.Cbor

/-- The lines for one item: the major type, then the value, the content, or that a container is entered. -/
def cborLines : CborAtom → List WLine
  | .int v => [.type (if v < 0 then 1 else 0), .int v]
  | .text s => [.type 3, .text s, .skip s.length]
  | .bytes s => [.type 2, .skip s.length]
  | .array _ => [.type 4, .enter]
  | .map _ => [.type 5, .enter]
  | .bool b => [.type 7, .int (if b then 21 else 20)]
  | .null => [.type 7, .int 22]

/-- Items small enough for the 16 bits of the example, without the integers -1 to -24. -/
def Fits16 : CborAtom → Prop
  | .int v => 0 ≤ v ∧ v < 2 ^ 15 ∨ -(2 : Int) ^ 15 ≤ v ∧ v < -24
  | .text s => s.length < 2 ^ 16
  | .bytes s => s.length < 2 ^ 16
  | _ => True

/-- An item without bytes of its own behind its head that is no container. -/
def isNumber : CborAtom → Bool
  | .int _ => true
  | .bool _ => true
  | .null => true
  | _ => false

/-- The document ends with a number, a truth value or null. -/
def endsWithNumber (xs : List CborAtom) : Bool := xs.getLast?.any isNumber

end Verif.Spec
