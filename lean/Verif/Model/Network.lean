import Verif.Model.Exchange
import Verif.Model.Responder

/-!
# A client and a server over a network

The client sends requests, has confirmable ones tracked by `Retry` (src/exp/retry.h) and decodes what arrives
(src/coap/decoder.cpp); the server is the one of `Model/Responder`.  The network is not part of the code: it may lose, repeat,
delay and reorder datagrams, so every datagram sent so far may arrive at any time, any number of times or never; it makes up no
datagrams and changes none.
-/
namespace Verif.Model.Retry

/-- What client and server are made of: `Retry` with its container and comparison of addresses (src/exp/retry.h:305-329), the
address of the server, what the memory of the decoders in `Retry` held, and the server: the size of its output buffer, its paths, the
node of the version resource and its text (src/coap/platform/lwip/context.h:60-73, src/coap/platform/esp-idf/observer.h:27-77). -/
structure NetCfg (A : Type) where
  P : PQ A
  same : A → A → Bool
  server : A
  retryJunk : Dec
  cap : Nat
  paths : List Uri.Entry
  node : Int
  text : List UInt8

/-- `Retry`, the network buffers of the tracked messages by their number (src/exp/retry.h:220-226, 356), everything sent to the
server, everything sent to the client, and what the client was told of each datagram that arrived
(src/coap/decoder/subject.hpp:6-64). -/
structure NetSt (A : Type) where
  retry : St A
  kept : List (Nat × List UInt8)
  up : List (List UInt8)
  down : List (List UInt8)
  told : List (List Event)
deriving Repr

/-- The client sends a request and `Retry` is told (src/exp/retry.h:646-656); `service_retry` is called (lines 547-615); a datagram
arrives at the server, the `i`th of those sent; one arrives at the client.  The memory that decoders and buffers find is given. -/
inductive NetEv
  | request (now rnd : Nat) (bytes : List UInt8)
  | service (now : Nat)
  | serverGets (i : Nat) (junk : Dec) (junkToken junkVec : List UInt8)
  | clientGets (i : Nat) (junk : Dec)
deriving Repr

/-- The network buffer of a tracked message — src/exp/retry.h:220-226. -/
def keptOf (kept : List (Nat × List UInt8)) (id : Nat) : Option (List UInt8) := (kept.find? fun p => p.1 == id).map (·.2)

/-- What `service_retry` sends again — src/exp/retry.h:578, 602: the network buffer of the message. -/
def sentAgain {A : Type} (kept : List (Nat × List UInt8)) : Out A → Option (List UInt8)
  | .sent _ id _ => keptOf kept id
  | _ => none

/-- `enqueue` takes the network buffer over — src/exp/retry.h:347-362. -/
def takenOver {A : Type} (bytes : List UInt8) : Out A → Option (Nat × List UInt8)
  | .queued _ id _ _ => some (id, bytes)
  | _ => none

/-- Steps enough for the decoders on a datagram (src/coap/platform/lwip/context.h:66-72 has no bound; that it is enough is proved). -/
def decodeSteps (bytes : List UInt8) : Nat := 11 * bytes.length + 65561

/-- One event — src/exp/retry.h:498-515, 547-615, 646-656; src/coap/platform/lwip/context.h:60-73; `none`: a fault. -/
def netStep {A : Type} (C : NetCfg A) (s : NetSt A) : NetEv → Option (NetSt A × List (Out A))
  | .request now rnd bytes =>
    (wstep C.P C.same C.retryJunk s.retry (.sent now rnd C.server bytes)).map fun r =>
      ({ s with retry := r.1, kept := s.kept ++ r.2.filterMap (takenOver bytes), up := s.up ++ [bytes] }, r.2)
  | .service now =>
    (wstep C.P C.same C.retryJunk s.retry (.service now)).map fun r =>
      ({ s with retry := r.1, up := s.up ++ r.2.filterMap (sentAgain s.kept) }, r.2)
  | .serverGets i junk jt jv =>
    match s.up[i]? with
    | none => some (s, [])
    | some bytes =>
      match serveVersion C.cap C.paths C.node C.text junk jt jv (decodeSteps bytes) bytes with
      | .error _ => none
      | .ok rs => some ({ s with down := s.down ++ rs }, [])
  | .clientGets i junk =>
    match s.down[i]? with
    | none => some (s, [])
    | some bytes =>
      match Dec.processToDone (decodeSteps bytes) (Dec.fresh junk) ⟨bytes, 0, true⟩ with
      | .error _ => none
      | .ok (_, _, evs) =>
        (wstep C.P C.same C.retryJunk s.retry (.recv C.server bytes)).map fun r =>
          ({ s with retry := r.1, told := s.told ++ [evs] }, r.2)

/-- A history — src/exp/retry.h:498-515, 547-615, 646-656; src/coap/platform/lwip/context.h:60-73. -/
def netRun {A : Type} (C : NetCfg A) : NetSt A → List NetEv → Option (NetSt A × List (Out A))
  | s, [] => some (s, [])
  | s, e :: es =>
    match netStep C s e with
    | none => none
    | some (s, o) => (netRun C s es).map fun r => (r.1, o ++ r.2)

/-- Before anything happened — src/exp/retry.h:329. -/
def netInit {A : Type} : NetSt A := ⟨init, [], [], [], []⟩

end Verif.Model.Retry
