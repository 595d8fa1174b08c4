import Verif.Model.Dtls

/-!
# What can be seen of a DTLS server in the calls it makes
-/
namespace Verif.Spec
open Verif.Model

/-- What the TLS library promises about reads and writes: a positive answer to a read is the number of bytes delivered, no more than
there was room for; no write takes more than it was offered. -/
def TlsConforms (L : TlsLib) : Prop :=
  (∀ tr len, 0 < (L tr (.read len)).code → (L tr (.read len)).code = (L tr (.read len)).data.length ∧ (L tr (.read len)).data.length ≤ len) ∧
  (∀ tr d, (L tr (.write d)).code ≤ d.length)

/-- The library takes what it is offered whole, unless it fails. -/
def TlsWritesWhole (L : TlsLib) : Prop := ∀ tr d, 0 ≤ (L tr (.write d)).code → (L tr (.write d)).code = d.length

/-- The messages the peer's data arrived in. -/
def delivered (tr : TlsTrace) : List (List UInt8) := tr.filterMap fun
  | (.read _, a) => if 0 < a.code then some a.data else none
  | _ => none

/-- What the library was asked to send. -/
def offered (tr : TlsTrace) : List (List UInt8) := tr.filterMap fun
  | (.write d, _) => some d
  | _ => none

/-- What of it was taken. -/
def taken (tr : TlsTrace) : List (List UInt8) := tr.filterMap fun
  | (.write d, a) => if 0 ≤ a.code then some (d.take a.code.toNat) else none
  | _ => none

/-- The server is set up: the last step of the setup succeeded, and nothing was shut down since. -/
def isSetUp : TlsTrace → Bool
  | tr => tr.foldl (fun up p => match p.1 with
      | .sslSetup => p.2.code == 0
      | .shutdown => false
      | _ => up) false

/-- The calls of a setup, in the order in which they depend on each other. -/
def setupCalls : List TlsCall :=
  [.crtServer, .crtAuthority, .crtAuthority, .keyParse, .bind, .seed, .configDefaults, .ownCert, .cookieSetup, .sslSetup]

/-- Every client in `tr` is waited for while the server is set up. -/
def AcceptsSetUp (tr : TlsTrace) : Prop := ∀ before a after, tr = before ++ (.accept, a) :: after → isSetUp before = true

/-- The library asks for the call to be made again: a handshake, a read or a write that waits for the network, a closing that waits to
be sent. -/
def asksAgain : TlsCall × TlsAnswer → Prop
  | (.handshake, a) | (.read _, a) | (.write _, a) => a.code = sslWantRead ∨ a.code = sslWantWrite
  | (.closeNotify, a) => a.code = sslWantWrite
  | _ => False

/-- Directly behind every call that was asked to be made again it is made again, with the same data, and behind no other. -/
def Persistent : TlsTrace → Prop
  | [] => True
  | p :: l => (asksAgain p ↔ ∃ a l', l = (p.1, a) :: l') ∧ Persistent l

end Verif.Spec
