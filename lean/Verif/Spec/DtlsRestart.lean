import Verif.Spec.Dtls

/-! # When a DTLS server that serves clients for ever has to start anew -/
namespace Verif.Spec
open Verif.Model

/-- The call has failed for good: it is not one of those whose answer does not matter (forgetting a client, closing), the answer does not
ask for the call to be made again, and it is neither the request for a cookie nor the end of a connection by the peer. -/
def failedForGood : TlsCall × TlsAnswer → Prop
  | (.freeClient, _) | (.sessionReset, _) | (.closeNotify, _) | (.shutdown, _) => False
  | (.handshake, a) => a.code ≠ 0 ∧ a.code ≠ sslWantRead ∧ a.code ≠ sslWantWrite ∧ a.code ≠ sslHelloVerify
  | (.read _, a) => a.code < 0 ∧ a.code ≠ sslWantRead ∧ a.code ≠ sslWantWrite ∧ a.code ≠ sslPeerClose
  | (.write _, a) => a.code < 0 ∧ a.code ≠ sslWantRead ∧ a.code ≠ sslWantWrite
  | (_, a) => a.code ≠ 0

/-- The server is shut down directly after a call that failed for good, and only then. -/
def ShutDownRight (tr : TlsTrace) : Prop :=
  ∀ before x y after, tr = before ++ x :: y :: after → (y.1 = .shutdown ↔ failedForGood x)

end Verif.Spec
