import Verif.Props.RetryLoop

/-! # C72: exactly how long a message stays within the bound -/
namespace Verif.Props
open Verif.Model Verif.Model.Retry Verif.Spec Verif.Spec.Retry Verif.Proofs Verif.Proofs.Retry

variable {A : Type}

/-- C72, exactly when the bound holds: one confirmable message that is not acknowledged leaves at most 1 + `COAP_MAX_RETRANSMIT` times, and
without the container overflowing, if and only if the retry manager is called at most four times. -/
theorem loop_within_bound_iff (P : PQ A) (same : A → A → Bool) (k : Gram A) (hk : k.con = true) (T rnd n : Nat) (es : List (LoopEv A))
    (hr : Rounds T es n) :
    (∃ s tx, loopRun P same loopInit (.app k :: .transmit T rnd :: es) = some (s, tx) ∧ conSends tx ≤ 1 + 4) ↔ n ≤ 4 := by
  constructor
  · rintro ⟨s', tx, h, hc⟩
    obtain ⟨s, h1, h2, h3, h4, h5⟩ := loop_start (P := P) (same := same) hk T rnd
    rw [loopRun_two, h1] at h
    simp only [Option.bind_some] at h
    rcases loop_rounds_aux (same := same) hk n es T s _ _ _ (loopRun_inv (LoopInv.init P) h1) h2
      (fun h => by rw [h] at h3; exact absurd h3 (by simp)) h4 h5 hr with ⟨g1, g2⟩ | ⟨s'', tx', g1, g2, g3⟩
    · rw [g2] at h; simp at h
    · rw [g1] at h
      simp only [Option.map_some, Option.some.injEq, Prod.mk.injEq] at h
      rw [← h.2] at hc
      have : conSends ((T, k) :: tx') = n + 1 := by simp only [conSends, hk, if_true, g3]
      have h' : conSends ([(T, k)] ++ tx') = n + 1 := this
      omega
  · intro hn
    obtain ⟨s, tx, h, hc⟩ := loop_sends_every_round P same k hk T rnd n es hr (by omega)
    exact ⟨s, tx, h, by omega⟩

/-- Five calls of the retry manager, far enough apart. -/
example : Rounds (A := Nat) 0 [.service 20000, .transmit 20000 3000, .service 40000, .transmit 40001 3000, .service 60000, .transmit 60001 3000,
    .service 80000, .transmit 80001 3000, .service 100000, .transmit 100001 3000] 5 := by simp [Rounds]

end Verif.Props
