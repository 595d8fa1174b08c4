import Verif.Conformance.InstancesCbor
import Verif.Props.DtlsTimer
import Verif.Props.Dtls
import Verif.Props.StoredUInt
import Verif.Props.PullAny
import Verif.Props.ExamplesAny
import Verif.Props.ExamplesAnyIff
import Verif.Props.UriTables
import Verif.Props.SocketsAny
import Verif.Props.SocketsReliable
import Verif.Props.AggregateUri
import Verif.Props.AggregateAny
import Verif.Props.Route
import Verif.Props.DispatchContext
import Verif.Props.Pump
import Verif.Props.WriteResult
import Verif.Props.ObserveTicks
import Verif.Props.Dispatch

/-!
# The theorems about timers, sockets, routes, the example programs and any datagram, applied

As `Conformance/Instances`.
-/
namespace Verif.Conformance
open Verif.Model Verif.Model.Header Verif.Model.Retry Verif.Model.Pull Verif.Model.Dispatch Verif.Spec Verif.Spec.Retry Verif.Proofs Verif.Proofs.Route Verif.Props Dec

/-! ## Timers and stored numbers -/

example := timer_exact_partial 10 1000 1457 200 400 (by decide) (by decide) (by decide)
example := timer_not_early 10 1000 1457 200 400 (by decide) (by decide) (by decide)
example := timer_not_late 10 1000 1457 200 400 (by decide) (by decide) (by decide) (by decide)
example := stored_byte ⟨[1, 2], 2⟩ 200 (by decide) (by decide) (by decide)
example := stored_zero_stale ⟨[1, 2], 2⟩ 200 (by decide) (by decide) (by decide)
example := stored_byte_highest ⟨[1, 2], 2⟩ 700 (by decide) (by decide) (by decide)

/-! ## Any datagram -/

example := pull_long_token_overflow usedDec rfl (0x4D :: List.replicate 12 1) (by decide) (by decide)
example := ping_any_echo_partial [0x41, 1, 0, 7, 9, 0xB5, 0x61] (by unfold HasToken; decide) usedDec rfl (List.replicate 8 0xEE) rfl ⟨1, 2, 3, 4⟩ 20 (by decide)
example := uri_any_echo_partial [0x41, 1, 0, 7, 9, 0xB5, 0x61] (by unfold HasToken; decide) usedDec rfl (List.replicate 8 0xEE) rfl ⟨1, 2, 3, 4⟩ 64 20 (by decide)
example := ping_long_token_faults (0x4D :: List.replicate 9 1) (by decide) (by decide) usedDec rfl (List.replicate 8 0xEE) rfl ⟨1, 2, 3, 4⟩ 20 9
example := cut_datagram_hangs [0x48, 1, 0, 7, 9] (by decide) (by decide) 64 uriSample 4 [0x31] (List.replicate 8 0) [] usedDec rfl 9 (by decide)
example := long_token_datagram_overflows (0x4D :: List.replicate 12 1) (by decide) (by decide) 64 uriSample 4 [0x31] (List.replicate 8 0) [] usedDec rfl 9 (by decide)
example := stream_server_same_partial ⟨true, false⟩ rfl [0x41, 1, 0, 7, 9, 0xB1, 0x61, 0xFF, 1] (by decide) 64 uriSample 4 [0x31] (List.replicate 8 0) [] usedDec rfl
example := stream_survived_iff (k := ⟨false, false⟩) rfl rfl [0x41, 1] 64 uriSample usedDec rfl (List.replicate 8 0) rfl
example := server_sees_partial ⟨true, true⟩ [0x41, 0xFF, 1, 0, 7, 0xFF, 9, 0xB1, 0x61, 0xFF, 5] [0x41, 1, 0, 7, 9, 0xB1, 0x61, 0xFF, 5] (by decide +kernel) (by decide +kernel)
  (.inr (by decide +kernel)) 64 uriSample 4 [0x31] (List.replicate 8 0) [] usedDec rfl
example := message_read_back putTwo putTwo_ok _ putTwo_opts usedDec rfl (.inr rfl)
example := legacy_one_buffer putTwo putTwo_ok _ putTwo_opts usedDec rfl
example := legacy_any_one usedDec rfl 0x41 1 0 7 [9] [0xB3, 0x61] rfl (by decide)
example := echo_wrong_id true ⟨0x40, 1, 0, 7⟩ rfl (by decide) 32 usedDec rfl
example := echo_reads_past_end_iff true ⟨0x40, 1, 0, 7⟩ rfl [0xB0] (by decide) 32 usedDec rfl
example := ping_answered_partial putTwo putTwo_ok (encOpts 0 putTwo.opts) usedDec rfl (List.replicate 8 0xEE) rfl ⟨1, 2, 3, 4⟩ 20 (by decide)

/-! ## Pumps and sockets -/

example := pump_first_partial putTwo putTwo_ok _ putTwo_opts usedDec rfl (by decide)
example := pump_second_lost putTwo putTwo_ok _ putTwo_opts usedDec rfl (by decide) [encMsg putTwo]
example := pump_second_header_untold putTwo putTwo_ok _ putTwo_opts usedDec rfl [encMsg getTwo]
example := pump_first_any usedDec rfl 0x41 1 0 7 [9] [0xB3, 0x61] rfl (by decide) [[0xFF]]
example := socket_first_taken (A := Nat) (encMsg putTwo) 3 (by decide +kernel) (by decide +kernel) [.take] (by simp [Usual]) ⟨.take, by simp, rfl⟩
example := socket_long_to_observer (A := Nat) usedDec rfl 0x41 1 0 7 [9] (0xFF :: List.replicate 5000 7) rfl (by decide) 3 (by decide +kernel)

/-! ## Routes, handlers, aggregates -/

example := routes_ignore_responses true [.leaf [0x61] 1] { putTwo with code := 0x45 } (by decide) (by decide) _ putTwo_opts usedDec rfl
example := storing_handler_stores true putTwo putTwo_ok (by decide)
example := aggregate_any (χ := Nat) usedDec rfl 0x41 1 0 7 [9] [0xB3, 0x61] rfl (by decide)
example := aggregate_any_memory (χ := Nat) usedDec rfl 0x41 1 0 7 [9] [0xB3, 0x61] rfl (by decide)
example := aggregate_forgets putTwo putTwo_ok (by decide) _ putTwo_opts usedDec rfl 0
example := aggregate_memory (χ := Nat) putTwo putTwo_ok (by decide) _ putTwo_opts usedDec rfl
example := uri_short_segment_accepted true [0x76] [0x76, 0x31] (by simp [Props.Plain]) (by decide) (by decide)
example := uri_handler_rejected_partial true [0x76, 0x31] [.option 3 [0x61] true] (by decide) [0x77] true [.option 12 [0x62] true] (by decide) (by decide)

/-! ## Numbers by themselves, results of writing -/

example := alone_bytes_iff 0 ⟨11, [0x61]⟩ (by decide) (by decide) (by decide) OptEnc.init rfl
example := alone_steps_iff 0 ⟨11, []⟩ (by decide) (by decide) (by decide) OptEnc.init rfl
example := buffer_option_result_partial (NEnc.init 4) (.inl rfl) 11 [0x61, 0x62, 0x63, 0x64] (by decide) 10 (by decide)
example := interrupted_header_resumes 20 300 14 [1, 1, 3] (NEnc.init 0) (.inl rfl) (by decide) (by decide)

end Verif.Conformance
