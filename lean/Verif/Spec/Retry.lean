import Verif.Model.Retry

/-! # What RFC 7252 section 4.2 asks of retransmissions, in terms of what is observed -/
namespace Verif.Spec.Retry
open Verif.Model.Retry

variable {A : Type}

/-- The times at which message `id` was retransmitted. -/
def sendsOf (id : Nat) : List (Out A) → List Nat
  | [] => []
  | .sent t i _ :: r => if i = id then t :: sendsOf id r else sendsOf id r
  | .queued .. :: r => sendsOf id r
  | .acked _ :: r => sendsOf id r

/-- The times `ts` are spaced by at least `T`·2^k, `T`·2^(k+1), …, counting from `last`. -/
def Spaced (T : Nat) : Nat → Nat → List Nat → Prop
  | _, _, [] => True
  | k, last, t :: ts => last + T * 2 ^ k ≤ t ∧ Spaced T (k + 1) t ts

end Verif.Spec.Retry
