/-! # What a server may put in front of its answer to a datagram, read off the bytes of the datagram -/
namespace Verif.Spec

/-- The first four bytes of an answer with code `code`: version, message id and token length are those of the datagram,
and so is the type, except that a confirmable message (type 0) is acknowledged (type 2). -/
def replyHead (bytes : List UInt8) (code : UInt8) : List UInt8 :=
  [if (bytes.getD 0 0).toNat / 16 % 4 = 0 then UInt8.ofNat ((bytes.getD 0 0).toNat + 32) else bytes.getD 0 0,
   code, bytes.getD 2 0, bytes.getD 3 0]

/-- The token length announced by the first byte. -/
def tokenClaim (bytes : List UInt8) : Nat := (bytes.getD 0 0).toNat % 16

/-- The datagram has a whole header and all of the token it announces, which is no longer than RFC 7252 allows. -/
def HasToken (bytes : List UInt8) : Prop := 4 + tokenClaim bytes ≤ bytes.length ∧ tokenClaim bytes ≤ 8

/-- The token. -/
def tokenOf (bytes : List UInt8) : List UInt8 := (bytes.drop 4).take (tokenClaim bytes)

end Verif.Spec
