import Verif.Conformance.InstancesTail
import Verif.Props.CborHeads
import Verif.Props.CborDoc
import Verif.Props.RetryLoop
import Verif.Props.Retry
import Verif.Props.PullPieces
import Verif.Props.ObserveEmit
import Verif.Props.ObserveHandlerAny
import Verif.Props.AggregateMessage
import Verif.Props.Core
import Verif.Props.RetryBuffers

/-!
# Further theorems applied

As `Conformance/Instances`.
-/
namespace Verif.Conformance
open Verif.Model Verif.Model.Header Verif.Model.Retry Verif.Model.Pull Verif.Model.Dispatch Verif.Model.Uri Verif.Spec Verif.Spec.Retry Verif.Proofs Verif.Proofs.Route Verif.Props Dec

/-! ## Any datagram -/

example := uri_any_text_partial [0x41, 1, 0, 7, 9, 0xB1, 0x61] (by unfold HasToken; decide) usedDec rfl (List.replicate 8 0xEE) rfl ⟨1, 2, 3, 4⟩ 64 40 (by decide) 100
  [0x61, 0x84, 0, 7, 9, 0xFF] (by decide +kernel)
example := observe_any_text_partial (A := Nat) [0x41, 1, 0, 7, 9, 0xB1, 0x61] (by unfold HasToken; decide) usedDec rfl (List.replicate 8 0xEE) rfl ⟨1, 2, 3, 4⟩ 64 4 40 (by decide)
  ⟨[], 0⟩ ⟨[], 0⟩ 3 100
example := observe_any_echo_partial (A := Nat) [0x41, 1, 0, 7, 9, 0xB5, 0x61] (by unfold HasToken; decide) usedDec rfl (List.replicate 8 0xEE) rfl ⟨1, 2, 3, 4⟩ 64 4 40 (by decide)
  ⟨[], 0⟩ 3
example := discover_any_echo_partial [0x41, 1, 0, 7, 9, 0xB5, 0x61] (by unfold HasToken; decide) usedDec rfl (List.replicate 8 0xEE) rfl ⟨1, 2, 3, 4⟩ 40 (by decide)
  uriSample coreSample titleSample 7
example := observe_handler_any usedDec rfl 0x41 1 0 7 [9] [0x60, 0x51, 0x61, 0xFF, 3] rfl (by decide) [9] ⟨.currently, true, [[5]]⟩
example := observe_handler_idle_right_iff (observePut [1]) observePut1 _ (observePut_opts _ observePut1) usedDec rfl (by decide) [7, 8] .currently [[7, 8], [5]]
example := aggregate_loses_payload putTwo putTwo_ok _ rfl _ putTwo_opts usedDec rfl [1] 0
example := aggregate_serves_partial true abNames abNames_plain getTwo getTwo_ok _ getTwo_opts 1 _ abNames_served Agg.init rfl
example := aggregate_serves_nobody true [[0x7A]] (by simp [Props.Plain]) getTwo getTwo_ok _ getTwo_opts
  (fun o ho ⟨_, _, n, hn, hp⟩ => by
    simp only [List.mem_singleton] at hn
    subst hn
    simp only [getTwo, List.mem_cons, List.not_mem_nil, or_false] at ho
    rcases ho with rfl | rfl <;> revert hp <;> decide) Agg.init rfl
example := routes_deliver true [.node [0x61] [.leaf [0x63] 4], .leaf [0x7A] 5] putTwo putTwo_ok (by decide) _ putTwo_opts usedDec rfl
example := cut_path_first_part true [.leaf [0x61] 4, .leaf [0x7A] 5] getTwo (by decide) [] _ _ _ _ _ _ getTwo_cut (by simp) usedDec rfl
example := cut_path_other_observer true getTwo (by decide) [] _ _ _ [0x7A] _ _ _ getTwo_cut (by simp) (by simp [Props.Plain])
  (fun h => absurd (h 1 0x62 0x7A rfl rfl).1 (by decide)) 1 2 usedDec rfl
example := pull_token_once usedDec 0x42 1 0 7 [8, 9] [0xB1, 0x61] rfl (by decide) (by decide) rfl
example := ping_never_rests putTwo putTwo_ok usedDec rfl (List.replicate 8 0xEE) rfl ⟨1, 2, 3, 4⟩ 20 (by decide)

/-! ## CBOR and numbers -/

example := heads_overflow_iff (2 ^ 40) (by decide) (by decide) (by decide) [1, 2, 3, 4, 5] rfl
example := heads_negative_wrong (-500) (by decide) (by decide) (by decide) [1, 2, 3, 4, 5, 6] (by decide)
example := cbor_document_round_trip_partial [.string [97, 98], .integer 500, .boolean true] (by simp [Writable]) (by simp) (List.replicate 20 7)
example := observed_text_negative true (2 ^ 31 + 5) (by decide) (by decide) (NEnc.init 64) rfl (by decide)
example := listed_path_leads_back coreSample titleSample uriForest (by decide +kernel) (by decide +kernel) (by decide +kernel) (by decide +kernel)
example := discovery_read_partial coreSample titleSample uriForest (by decide +kernel) (by decide +kernel) (by decide +kernel) (by decide +kernel)
example := heads_integer_iff 70000 (by decide) (by decide) [1, 2, 3, 4, 5] (by decide)

/-! ## Retransmission -/

example := loop_never_given_up sortedPQ (fun a b => a == b) (loopHistory.take 5)
example := ack_drops_one sortedPQ (fun a b => a == b) ⟨[⟨3, 5, 7, [1], 2000, 0, 2700⟩], 9⟩ 5 ackHdr [1] rfl ⟨3, 5, 7, [1], 2000, 0, 2700⟩ (by simp) (by decide)

end Verif.Conformance
