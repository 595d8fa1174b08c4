import Verif.Props.Sockets
import Verif.Props.LegacyAny

/-! # From the network to the observer, for arbitrary bytes (C59) -/
namespace Verif.Props
open Verif.Model Verif.Proofs Verif.Spec Header Dec OptDec

variable {A : Type}

/-- C59, for a first datagram of arbitrary bytes behind header and token, at most 4096 in all: exactly what the pump's
observer is told first, among whatever else comes and goes. -/
theorem socket_to_observer_any (junk : Dec) (hj : junk.tbuf.length = 8) (b0 b1 b2 b3 : UInt8) (tok rest : List UInt8)
    (ht : tok.length = (b0 &&& 0x0F).toNat) (h8 : tok.length ≤ 8) (a : A) (hl : 4 + tok.length + rest.length ≤ 4096)
    (es : List (SockEv A)) (hes : ∀ e ∈ es, Usual e) (hq : ∃ e ∈ es, e = .take) :
    ∃ s N d', Sock.empty.run (.loop true (.datagram (b0 :: b1 :: b2 :: b3 :: (tok ++ rest)) a) :: es) = some s ∧
      s.taken.head? = some (b0 :: b1 :: b2 :: b3 :: (tok ++ rest), a) ∧
      ∀ fuel, N ≤ fuel → pump fuel (fresh junk) ((s.taken.take 1).map (fun p => [p.1])) =
        .ok (d', [toldAny b0 b1 b2 b3 tok rest]) := by
  obtain ⟨s, e1, h1⟩ := socket_first_taken (b0 :: b1 :: b2 :: b3 :: (tok ++ rest)) a (by simp)
    (by simp only [List.length_cons, List.length_append]; omega) es hes hq
  obtain ⟨N, d', hN⟩ := pump_first_any junk hj b0 b1 b2 b3 tok rest ht h8 []
  refine ⟨s, N, d', e1, ?_, fun fuel hf => by rw [h1]; exact hN fuel hf⟩
  cases hs : s.taken with
  | nil => rw [hs] at h1; cases h1
  | cons x xs => rw [hs] at h1; simpa using h1

/-- C59 for a first datagram longer than 4096 bytes, of which the socket passes on 4096: the observer is told exactly
what those say, as if the datagram had ended there. -/
theorem socket_long_to_observer (junk : Dec) (hj : junk.tbuf.length = 8) (b0 b1 b2 b3 : UInt8) (tok rest : List UInt8)
    (ht : tok.length = (b0 &&& 0x0F).toNat) (h8 : tok.length ≤ 8) (a : A) (hl : 4096 ≤ 4 + tok.length + rest.length) :
    ∃ s N d', Sock.empty.run [.loop true (.datagram (b0 :: b1 :: b2 :: b3 :: (tok ++ rest)) a), .take] = some s ∧
      ∀ fuel, N ≤ fuel → pump fuel (fresh junk) (s.taken.map (fun p => [p.1])) =
        .ok (d', [toldAny b0 b1 b2 b3 tok (rest.take (4092 - tok.length))]) := by
  obtain ⟨N, d', hN⟩ := pump_first_any junk hj b0 b1 b2 b3 tok (rest.take (4092 - tok.length)) ht h8 []
  have ht : List.take 4096 (b0 :: b1 :: b2 :: b3 :: (tok ++ rest)) =
      b0 :: b1 :: b2 :: b3 :: (tok ++ rest.take (4092 - tok.length)) := by
    simp only [List.take_succ_cons, List.take_append]
    rw [List.take_of_length_le (by omega)]
  refine ⟨⟨[], [], [], [(b0 :: b1 :: b2 :: b3 :: (tok ++ rest.take (4092 - tok.length)), a)]⟩, N, d', ?_, hN⟩
  have hp : (List.take sockRoom (b0 :: b1 :: b2 :: b3 :: (tok ++ rest))).length > 0 := by
    rw [sockRoom, ht]; simp
  simp only [Sock.run, Sock.step, Sock.loop, Sock.empty, Sock.transmit, Option.bind_some, Sock.receive]
  rw [if_pos hp]
  simp only [sockRoom, ht, Option.bind_some, Sock.take]
  rfl

/-- An option whose value is cut off, then nothing: the observer is told header, token and what there is of the option. -/
example : (∀ e ∈ [SockEv.loop true (.datagram [0x41, 1, 0, 7, 9, 0xB3, 0x61] 3), .take], Usual e) ∧
    toldAny 0x41 1 0 7 [9] [0xB3, 0x61] = [.header ⟨0x41, 1, 0, 7⟩, .token [9] true, .option 11 3, .value 11 [0x61] false] := by
  refine ⟨fun e he => ?_, ?_⟩
  · simp only [List.mem_cons, List.not_mem_nil, or_false] at he
    rcases he with rfl | rfl <;> simp [Usual]
  · simp [toldAny, toldOpts, toldPayload, readRest, readExt]

end Verif.Props
