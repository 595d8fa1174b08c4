import Verif.Conformance.InstancesMore
import Verif.Props.Cbor
import Verif.Props.CborDoc
import Verif.Props.CborOld
import Verif.Props.CborWalk
import Verif.Props.CborHeads
import Verif.Props.ManagedBuffer
import Verif.Props.Core
import Verif.Props.CoreExact

/-!
# The theorems about CBOR, managed buffers and resource discovery, applied

As `Conformance/Instances`.
-/
namespace Verif.Conformance
open Verif.Model Verif.Model.Cbor Verif.Spec Verif.Proofs Verif.Proofs.Cbor Verif.Props

/-- A decoder that decoded something before. -/
def usedCbor : CDec := ⟨[9, 8, 7, 6], 0x61, 2, .itemDone⟩
/-- A decoder that has decoded the head of a text of three bytes. -/
def atText : CDec := ⟨[9, 8, 7, 6], 0x63, 0, .longStart⟩
/-- The head of the number 500. -/
theorem head500 : CborHead [0x19, 1, 0xF4] 0 500 := .ext (m := 0) (i := 1) (bs := [1, 0xF4]) (by decide) (by decide) rfl
/-- The head of a text of three bytes. -/
theorem headText3 : CborHead [0x63] 3 3 := .tiny (m := 3) (a := 3) (by decide) (by decide)
/-- `[500, "abc"]` without the array around it. -/
theorem seqSample : CborSeq [0x19, 1, 0xF4, 0x63, 97, 98, 99] [.int 500, .text [97, 98, 99]] :=
  .cons (head := [0x19, 1, 0xF4]) (content := []) (.int head500 (by decide)) (by decide)
    (.cons (head := [0x63]) (content := [97, 98, 99]) (bs := []) (.text headText3) (by decide) .nil)

example := cbor_integer_written_partial 70000 (by decide) (by decide) (by decide) (by decide)
example := cbor_small_negative_fails (-7) (by decide) 0xFF 1 [2, 3] usedCbor (.inr rfl) (by decide)
example := cbor_base_negative_off_by_one (-500) (by decide) (by decide) (by decide)
example := cbor_head_decoded_partial 0xFF [1, 2] _ [0x05] 0 500 head500 (by decide) usedCbor (.inr rfl) (by decide)
example := cbor_string_skipped_partial 0xFF [0x63] [97, 98, 99] _ [0x05] 0 500 head500 (by decide) atText (.inr rfl) (by decide) (by decide) (by decide)
example := cbor_container_entered_partial 0xFF [0x82] _ [0x05] 0 500 head500 (by decide) ⟨[9, 8, 7, 6], 0x82, 0, .longStart⟩ (.inl rfl) (by decide)
example := cbor_decoder_in_bounds_partial 0x05 [0x19, 1, 0xF4] (by decide) (by decide) 11 (CDec.fresh usedCbor) 0 (cborOk_fresh _ (by decide))
example := cbor_long_argument_overflow 0xFF 0x1B 0 0 0 1 0 [0, 0, 0] (by decide) { usedCbor with st := .headerStart } rfl rfl
example := cbor_reads_past_end [0x63, 97, 98, 99] 0x81 atText (.inr rfl) 1 (by decide) (by decide)
example := process_overflow 0xFF [1] [0, 0, 0, 1, 0] 0x1B (by decide) (by decide) usedCbor (.inr rfl) rfl
example := cbor_truncated_ends 0xFF [1] _ [97] 3 3 (.inr rfl) headText3 (by decide) usedCbor (.inr rfl) (by decide) (by decide) (by decide)
example := cbor_length_turns_back 0xFF [1, 2] [0x7A, 0xFF, 0xFF, 0xFF, 0xFE] [97] 3 2 (.inr rfl) (by decide) (by decide)
  (.ext (m := 3) (i := 2) (bs := [0xFF, 0xFF, 0xFF, 0xFE]) (by decide) (by decide) rfl) (by decide) usedCbor (.inr rfl) (by decide) (by decide)
example := cbor_position_overflows 0xFF [1, 2] [0x7A, 0x7F, 0xFF, 0xFF, 0xFE] [97] 3 0x7FFFFFFE (.inr rfl)
  (.ext (m := 3) (i := 2) (bs := [0x7F, 0xFF, 0xFF, 0xFE]) (by decide) (by decide) rfl) (by decide) usedCbor (.inr rfl) (by decide) (by decide) (by decide)
example := cbor_document_read_partial 0xFF _ _ seqSample (by simp [Readable]) usedCbor (by decide) (by decide) 11 (by decide)
example := cbor_simple_seen_partial 0xFF [1] [0xF5] [2] 7 21 (.inr rfl) (.tiny (m := 7) (a := 21) (by decide) (by decide)) (by decide) usedCbor (.inr rfl) (by decide)
example := cbor_walk_reads_behind _ _ seqSample (by simp [Fits16]) (fun _ => none) rfl usedCbor (by decide) 100 (by decide)

/-! ## The old decoder -/

/-- An old decoder that is ready. -/
def oldReady : CborOld.ODec := ⟨[5, 4, 3, 2, 1], 3, .done⟩
theorem oldReady_ready : OReady oldReady := ⟨rfl, .inr (.inr rfl)⟩
theorem head40 : CborHead [0x18, 40] 0 40 := .ext (m := 0) (i := 0) (bs := [40]) (by decide) (by decide) rfl

example := old_int_partial _ [7] 500 (.int head500 (by decide)) (by decide) (by decide) (by decide) (by decide) oldReady oldReady_ready
example := old_string_partial [0x63] [97, 98, 99] [7] (.text headText3) (by decide) (by decide) 2 oldReady oldReady_ready
example := old_map_partial [0xA3] [7] 3 (.tiny (m := 5) (a := 3) (by decide) (by decide)) (by decide) (by decide) oldReady oldReady_ready
example := old_wrong_type _ [7] _ _ headText3 (by decide) 9 oldReady oldReady_ready
example := old_int_two_bytes_wrong _ [7] 40 (.int head40 (by decide)) rfl oldReady oldReady_ready
example := old_string_two_bytes_wrong [0x78, 30] (List.replicate 30 97) [7] (.text (.ext (m := 3) (i := 0) (bs := [30]) (by decide) (by decide) rfl)) rfl (by decide)
  64 (by decide) oldReady oldReady_ready
example := old_reads_past_end [0x19, 1] [0xF4] _ _ head500 (by decide) 9 oldReady oldReady_ready (by decide)
example := old_string_past_end_iff _ [97, 98] 3 headText3 (by decide) (by decide) 9 oldReady oldReady_ready
example := old_string_two_bytes_past_end_iff [0x78, 30] [97, 98] 30 (.ext (m := 3) (i := 0) (bs := [30]) (by decide) (by decide) rfl) rfl 9 oldReady oldReady_ready

/-! ## Managed buffers -/

example := managed_first_two_partial (List.replicate 20 0) 1 2 [1, 2, 3] [4, 5] [(3, [6, 7])] (by decide) (by decide) (by decide) true
example := managed_third_wrong (List.replicate 20 0) 1 2 3 [1, 2, 3] [4, 5] [6, 7] [(4, [8])] (by decide) (by decide) (by decide) true
example := managed_reread (List.replicate 20 0) [(1, [1, 2, 3]), (2, [4, 5]), (3, [6])] (by decide) (by decide) 2 (by decide) (by decide) true false

/-! ## Resource discovery -/

example := core_listing [⟨4, "t".toList, []⟩] uriForest (by decide) (by decide) (by decide)
example := discovery_nothing [] (fun _ => none) uriForest (by decide) (by decide) (by decide) (by decide)
example := core_observer_never_read [⟨4, "t".toList, []⟩] uriForest (by decide) (by decide) (by decide) (by decide)

end Verif.Conformance
