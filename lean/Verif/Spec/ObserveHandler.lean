import Verif.Spec.Wire

/-! # What a request says about observation (RFC 7641 section 2) -/
namespace Verif.Spec

/-- The values of the Observe options of a message. -/
def observeOptions (m : Msg) : List (List UInt8) := (m.opts.filter fun o => o.number = 6).map (·.value)

/-- What should become of the registrations: a value of 0, which a client sends as no bytes at all or as bytes 0,
registers, once however often it is asked for; a value of 1 takes back; anything else, and no Observe option, leaves them. -/
def observeWanted (m : Msg) (token : List UInt8) (sessions : List (List UInt8)) : List (List UInt8) :=
  match observeOptions m with
  | [v] => if beValue v = 0 then token :: sessions.filter (· ≠ token) else if beValue v = 1 then sessions.filter (· ≠ token) else sessions
  | _ => sessions

/-- The first byte of the last Observe option that has one. -/
def lastObserve (m : Msg) : Option UInt8 := ((observeOptions m).filterMap (·.head?)).getLast?

end Verif.Spec
