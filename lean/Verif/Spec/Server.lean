import Verif.Spec.Wire

/-! # What a server answers -/
namespace Verif.Spec

/-- The URI path of a message (RFC 7252 section 5.10.1): the values of its Uri-Path options (number 11), in order. -/
def uriPath (m : Msg) : List (List Char) :=
  (m.opts.filter fun o => o.number = 11).map fun o => o.value.map fun b => Char.ofNat b.toNat

/-- An acknowledgement with a response code: same version, message id and token, no options, no payload. -/
def replyTo (m : Msg) (code : Nat) : Msg := { m with type := 2, code := code, opts := [], payload := none }

/-- An acknowledgement with 2.05 Content: same version, message id and token, Content-Format 0 (text/plain, written as
the empty value, RFC 7252 sections 3.2 and 5.10.3), and the text as payload. -/
def textReply (m : Msg) (text : List UInt8) : Msg :=
  { m with type := 2, code := 0x45, opts := [⟨12, []⟩], payload := some text }

end Verif.Spec
