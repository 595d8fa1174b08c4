import Verif.Model.Network

/-!
# Any number of clients and a server over a network

As in `Model/Network`, but with any number of clients, each with an address of its own.  The server knows the sender of each datagram and
answers to it; it keeps nothing between two datagrams (src/coap/platform/lwip/context.h:60-73).  The network delivers to a client only what was
sent to its address.
-/
namespace Verif.Model.Retry

/-- What a client consists of: `Retry` (src/exp/retry.h:305-329), the network buffers of the tracked messages by their number
(src/exp/retry.h:220-226, 356), and what it was told (src/coap/decoder/subject.hpp:6-64). -/
structure Client (A : Type) where
  retry : St A
  kept : List (Nat × List UInt8)
  told : List (List Event)

/-- The clients by their addresses, everything sent to the server with its sender, and everything sent by the server with its
addressee — src/coap/platform/lwip/context.h:60-73. -/
structure ManySt (A B : Type) where
  clients : B → Client A
  up : List (B × List UInt8)
  down : List (B × List UInt8)

/-- A client sends a request and its `Retry` is told (src/exp/retry.h:646-656); its `service_retry` is called (lines 547-615); the `i`th
datagram sent to the server arrives there; the `i`th datagram sent by the server arrives at its addressee. -/
inductive ManyEv (B : Type)
  | request (b : B) (now rnd : Nat) (bytes : List UInt8)
  | service (b : B) (now : Nat)
  | serverGets (i : Nat) (junk : Dec) (junkToken junkVec : List UInt8)
  | clientGets (i : Nat) (junk : Dec)

/-- One client changes (there is no such function in the code: each client is a program of its own, src/exp/retry.h:305-329). -/
def Client.set {A B : Type} [DecidableEq B] (f : B → Client A) (b : B) (c : Client A) : B → Client A := fun x => if x = b then c else f x

/-- One event, and what the `Retry` of which client put out — src/exp/retry.h:498-515, 547-615, 646-656;
src/coap/platform/lwip/context.h:60-73; `none`: a fault. -/
def manyStep {A B : Type} [DecidableEq B] (C : NetCfg A) (s : ManySt A B) : ManyEv B → Option (ManySt A B × List (B × Out A))
  | .request b now rnd bytes =>
    (wstep C.P C.same C.retryJunk (s.clients b).retry (.sent now rnd C.server bytes)).map fun r =>
      (⟨Client.set s.clients b ⟨r.1, (s.clients b).kept ++ r.2.filterMap (takenOver bytes), (s.clients b).told⟩,
        s.up ++ [(b, bytes)], s.down⟩, r.2.map (b, ·))
  | .service b now =>
    (wstep C.P C.same C.retryJunk (s.clients b).retry (.service now)).map fun r =>
      (⟨Client.set s.clients b ⟨r.1, (s.clients b).kept, (s.clients b).told⟩,
        s.up ++ (r.2.filterMap (sentAgain (s.clients b).kept)).map (b, ·), s.down⟩, r.2.map (b, ·))
  | .serverGets i junk jt jv =>
    match s.up[i]? with
    | none => some (s, [])
    | some (b, bytes) =>
      match serveVersion C.cap C.paths C.node C.text junk jt jv (decodeSteps bytes) bytes with
      | .error _ => none
      | .ok rs => some (⟨s.clients, s.up, s.down ++ rs.map (b, ·)⟩, [])
  | .clientGets i junk =>
    match s.down[i]? with
    | none => some (s, [])
    | some (b, bytes) =>
      match Dec.processToDone (decodeSteps bytes) (Dec.fresh junk) ⟨bytes, 0, true⟩ with
      | .error _ => none
      | .ok (_, _, evs) =>
        (wstep C.P C.same C.retryJunk (s.clients b).retry (.recv C.server bytes)).map fun r =>
          (⟨Client.set s.clients b ⟨r.1, (s.clients b).kept, (s.clients b).told ++ [evs]⟩, s.up, s.down⟩, r.2.map (b, ·))

/-- A history — src/exp/retry.h:498-515, 547-615, 646-656; src/coap/platform/lwip/context.h:60-73. -/
def manyRun {A B : Type} [DecidableEq B] (C : NetCfg A) : ManySt A B → List (ManyEv B) → Option (ManySt A B × List (B × Out A))
  | s, [] => some (s, [])
  | s, e :: es =>
    match manyStep C s e with
    | none => none
    | some (s, o) => (manyRun C s es).map fun r => (r.1, o ++ r.2)

/-- Before anything happened — src/exp/retry.h:329. -/
def manyInit {A B : Type} : ManySt A B := ⟨fun _ => ⟨init, [], []⟩, [], []⟩

end Verif.Model.Retry
