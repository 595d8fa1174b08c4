import Verif.Model.RetryLoop

/-!
# What is expected of retransmission with a transport that reports what it sends
-/
namespace Verif.Spec
open Verif.Model Verif.Model.Retry

variable {A : Type}

/-- The number of confirmable messages the application handed over. -/
def askedCon : List (LoopEv A) → Nat
  | [] => 0
  | .app g :: es => askedCon es + if g.con then 1 else 0
  | _ :: es => askedCon es

/-- The number of messages that arrived. -/
def arrivals : List (LoopEv A) → Nat
  | [] => 0
  | .recv _ _ _ :: es => arrivals es + 1
  | _ :: es => arrivals es

/-- How often a confirmable message left. -/
def conSends : List (Nat × Gram A) → Nat
  | [] => 0
  | (_, g) :: l => conSends l + if g.con then 1 else 0

/-- A message arrives that acknowledges `k`. -/
def Acknowledges (same : A → A → Bool) (k : Gram A) : LoopEv A → Prop
  | .recv addr h token => h.type = Header.acknowledgement ∧ same addr k.addr = true ∧ token = k.token ∧ h.messageId = k.mid
  | _ => False

/-- Only `k` is handed over by the application. -/
def OnlyAsks (k : Gram A) (es : List (LoopEv A)) : Prop := ∀ g, .app g ∈ es → g = k

/-- `k` is waiting to be sent, or may be sent again. -/
def Waiting (s : LoopSt A) (k : Gram A) : Prop := k ∈ s.out ∨ ∃ x ∈ s.r.q, x.addr = k.addr ∧ x.mid = k.mid ∧ x.token = k.token

/-- Calls of the retry manager, each followed by the transport sending one datagram; each call comes 16380 ms (four times
the longest initial timeout that can be stored) or more after what was before. -/
def Rounds : Nat → List (LoopEv A) → Nat → Prop
  | _, [], n => n = 0
  | t, .service a :: .transmit b _ :: es, n + 1 => t + 16380 ≤ a ∧ a ≤ b ∧ Rounds b es n
  | _, _, _ => False

end Verif.Spec
