import Verif.Spec.Read
import Verif.Spec.ExamplesAny

/-! # What a server with automatic replies makes of any datagram, read off its bytes -/
namespace Verif.Spec

/-- The first four bytes of an acknowledgement with code `code`: version, token length and message id are those of the
datagram, the type is 2. -/
def ackHead (bytes : List UInt8) (code : UInt8) : List UInt8 :=
  [UInt8.ofNat (64 * ((bytes.getD 0 0).toNat / 64) + 32 + (bytes.getD 0 0).toNat % 16), code, bytes.getD 2 0, bytes.getD 3 0]

/-- What stands behind the token. -/
def behindToken (bytes : List UInt8) : List UInt8 := bytes.drop (4 + tokenClaim bytes)

/-- The path as the server reads it: the values, as far as they are there, of all options whose number is that of Uri-Path
(11) modulo 65536. -/
def pathIn (bytes : List UInt8) : List (List Char) :=
  ((readRest 0 0 (behindToken bytes)).1.filter fun i => i.number % 65536 = 11).map fun i =>
    i.value.map fun b => Char.ofNat b.toNat

end Verif.Spec
