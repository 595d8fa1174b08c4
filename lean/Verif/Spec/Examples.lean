import Verif.Spec.Wire

/-! # What the example servers are to answer -/
namespace Verif.Spec

/-- A response to a message: same version, message id and token, an acknowledgement if the message was confirmable and
of the same type otherwise, no options. -/
def response (m : Msg) (code : Nat) (payload : Option (List UInt8)) : Msg :=
  { m with type := if m.type = 0 then 2 else m.type, code := code, opts := [], payload := payload }

/-- The values of the Uri-Path options (number 11). -/
def segments (os : List Opt) : List (List UInt8) := (os.filter fun o => o.number = 11).map fun o => o.value

/-- The path as text, every segment followed by a slash (byte 47). -/
def slashText (os : List Opt) : List UInt8 := ((segments os).map fun s => s ++ [47]).flatten

/-- The values of the Observe options (number 6). -/
def observeValues (os : List Opt) : List (List UInt8) := (os.filter fun o => o.number = 6).map fun o => o.value

/-- The code of the answer after the registration requests `cs` have been looked at: 2.03 after registering (0) or
deregistering (1), 4.02 after anything else. -/
def lastCode (k : Nat) : List UInt8 → Nat
  | [] => k
  | c :: cs => lastCode (if c = 0 ∨ c = 1 then 0x43 else 0x82) cs

/-- Bytes that are no CoAP message. -/
def Malformed (bytes : List UInt8) : Prop := ∀ m : Msg, m.Ok → encMsg m ≠ bytes

end Verif.Spec
