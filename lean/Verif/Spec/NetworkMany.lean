import Verif.Model.NetworkMany
import Verif.Spec.Network

/-! # What one of many clients has to do with -/
namespace Verif.Spec
open Verif.Model Verif.Model.Retry

/-- Of a list with addresses, what belongs to the address `b`. -/
def ofClient {B X : Type} [DecidableEq B] (b : B) (l : List (B × X)) : List X := l.filterMap fun p => if p.1 = b then some p.2 else none

/-- The network as the client `b` knows it: itself, what it sent, and what was sent to it. -/
def partOf {A B : Type} [DecidableEq B] (b : B) (s : ManySt A B) : NetSt A :=
  ⟨(s.clients b).retry, (s.clients b).kept, ofClient b s.up, ofClient b s.down, (s.clients b).told⟩

/-- The events that have to do with the client `b`: what it does, its datagrams at the server, and the answers to it. -/
def shareOf {A B : Type} [DecidableEq B] (b : B) (s : ManySt A B) : ManyEv B → List NetEv
  | .request b' now rnd bytes => if b' = b then [.request now rnd bytes] else []
  | .service b' now => if b' = b then [.service now] else []
  | .serverGets i junk jt jv =>
    if s.up[i]?.map (·.1) = some b then [.serverGets (ofClient b (s.up.take i)).length junk jt jv] else []
  | .clientGets i junk =>
    if s.down[i]?.map (·.1) = some b then [.clientGets (ofClient b (s.down.take i)).length junk] else []

/-- The history as the client `b` knows it. -/
def share {A B : Type} [DecidableEq B] (C : NetCfg A) (b : B) : ManySt A B → List (ManyEv B) → List NetEv
  | _, [] => []
  | s, e :: es => shareOf b s e ++ match manyStep C s e with | none => [] | some r => share C b r.1 es

/-- What is assumed of events, as with one client. -/
def ManyEvOk {A B : Type} (C : NetCfg A) : ManyEv B → Prop
  | .request _ _ _ bytes => Proper C bytes
  | .service _ _ => True
  | .serverGets _ junk jt _ => junk.tbuf.length = 8 ∧ jt.length = 8
  | .clientGets _ junk => junk.tbuf.length = 8

end Verif.Spec
