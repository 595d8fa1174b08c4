import Verif.Model.OtherPumps

/-!
# What went into a pump: the messages queued, and the datagrams the network had for it
-/
namespace Verif.Spec
open Verif.Model

/-- The messages the program asked to send, with their addresses. -/
def lwipAsked {A : Type} : List (LwipEv A) → List (List UInt8 × A)
  | [] => []
  | .enqueue b a :: es => (b.room.take b.written, a) :: lwipAsked es
  | _ :: es => lwipAsked es

/-- The datagrams that arrived. -/
def lwipArrived {A : Type} : List (LwipEv A) → List (List UInt8 × A)
  | [] => []
  | .loop _ (.datagram d a) :: es => (d, a) :: lwipArrived es
  | _ :: es => lwipArrived es

/-- Every message fits a 16-bit length. -/
def LwipShort {A : Type} (es : List (LwipEv A)) : Prop := ∀ b a, .enqueue b a ∈ es → b.written < 65536

/-- No send fails. -/
def LwipSends {A : Type} (es : List (LwipEv A)) : Prop := ∀ i, .loop false i ∉ es

/-- How often the loop is called. -/
def lwipTurns {A : Type} : List (LwipEv A) → Nat
  | [] => 0
  | .loop _ _ :: es => lwipTurns es + 1
  | _ :: es => lwipTurns es

end Verif.Spec
