import Verif.Props.DecoderCuts
import Verif.Props.DecoderAnyCuts
import Verif.Props.DecoderAnyEmpty
import Verif.Props.DecoderAny
import Verif.Props.ReadBackCuts
import Verif.Props.StreamExtent
import Verif.Props.NetBufExtent
import Verif.Props.StreamAny
import Verif.Props.StreamChars

/-!
# The theorems with many hypotheses, applied: decoders and encoders

Every example applies one theorem to one concrete case, all hypotheses discharged: no theorem here speaks about nothing.
-/
namespace Verif.Conformance
open Verif.Model Verif.Model.Dec Verif.Spec Verif.Proofs Verif.Props

/-- The sample message on the wire, cut in an option value, behind an option header and in the payload. -/
def cutsA : List (List UInt8) := [[0x42, 1, 0x12, 0x34, 7, 8, 0xB3, 1, 2], [3, 0xE1, 0, 20], [4, 0xFF, 9]]

/-- The same, cut before the payload. -/
def cutsB : List (List UInt8) := [[0x42, 1], [0x12, 0x34, 7], [8, 0xB3, 1], [2, 3, 0xE1, 0], [20, 4, 0xFF]]

theorem sample_opts : IsOpts 0 splitSample.opts (encOpts 0 splitSample.opts) := isOpts_encOpts 0 splitSample.opts (by decide)

example := every_cut_exact splitSample (by decide) _ sample_opts Dec.zero rfl (.inr (.inl (by decide))) cutsA [10] (by decide)
example := every_cut_reported splitSample (by decide) _ sample_opts Dec.zero rfl (.inr (.inl (by decide))) cutsA [10] (by decide)
example := cut_effect splitSample (by decide) _ sample_opts Dec.zero rfl (.inr (.inl (by decide))) cutsA [10] (by decide)
example := nonempty_cut_iff splitSample (by decide) _ sample_opts Dec.zero rfl (.inr (.inl (by decide))) cutsB [9, 10] (by decide) (by decide)
  (by decide)
example := split_delivered_partial splitSample (by decide) Dec.zero rfl (.inr (.inl (by decide))) cutsB [9, 10] (by decide) (by decide)
  (by decide) (by decide)
example := split_independent_partial splitSample (by decide) Dec.zero Dec.zero rfl rfl (.inr (.inl (by decide))) (.inr (.inl (by decide)))
  cutsB [[0x42]] [9, 10] [1, 0x12, 0x34, 7, 8, 0xB3, 1, 2, 3, 0xE1, 0, 20, 4, 0xFF, 9, 10] (by decide) (by decide) (by decide) (by decide)
  (by decide) (by decide) (by decide) (by decide)
example := any_cut_exact Dec.zero rfl 0x40 1 0 1 [] [0xB2, 0x61, 0x62, 0x1C, 5, 6] (by decide) (by decide) (.inr (.inr (by decide)))
  [[0x40, 1, 0], [1, 0xB2, 0x61], []] [0x62, 0x1C, 5, 6] (by decide) (.inl (by decide))
example := any_buffers_exact Dec.zero rfl 0x40 1 0 1 [] [0xB2, 0x61, 0x62, 0x1C, 5, 6] (by decide) (by decide) (.inr (.inr (by decide)))
  [[0x40, 1, 0], [1, 0xB2, 0x61], [], [0x62, 0x1C, 5, 6]] [] (by decide)
example := any_cut_numbers Dec.zero rfl 0x40 1 0 1 [] [0xB2, 0x61, 0x62, 0x1C, 5, 6] (by decide) (by decide) (.inr (.inr (by decide)))
  [[0x40, 1, 0], [1, 0xB2, 0x61], []] [0x62, 0x1C, 5, 6] (by decide) (by decide)
example := cut_read_back splitSample (by decide) _ sample_opts Dec.zero rfl (.inr (.inl (by decide))) cutsA [10] (by decide)
example := cut_read_back_sound splitSample (by decide) _ sample_opts Dec.zero rfl (.inr (.inl (by decide))) cutsA [10] (by decide)
  (.inr (by decide))
example := cut_read_back_phantom ⟨1, 0, 1, 7, [], [⟨11, [0x61]⟩], none⟩ (by decide) _ (isOpts_encOpts 0 [⟨11, [0x61]⟩] (by decide)) Dec.zero rfl rfl
  ⟨11, [0x61]⟩ rfl (by decide)
example := cut_value_flagged_partial ⟨1, 0, 1, 7, [], [⟨4, [1]⟩, ⟨11, [0x61, 0x62]⟩], none⟩ (by decide) rfl Dec.zero rfl [⟨4, [1]⟩]
  ⟨11, [0x61, 0x62]⟩ rfl [0x61] [0x62] [0x40, 1, 0, 7, 0x41, 1, 0x72, 0x61] rfl (by decide) (by decide) (by decide)
example := option_header_exact_partial 11 300 5 (by decide) (by decide) (by decide) (by decide) ⟨{ (SEnc.init 40).oe with current := 11 }, [], 40⟩
  (by decide) (by decide)


/-- What both encoders make of the sample message. -/
def streamWritten : SEnc := match writeMsg (SEnc.init 40) ⟨0x42, 1, 0x12, 0x34⟩ [7, 8] splitSample.opts splitSample.payload with
  | .ok (s, _) => s
  | .error _ => SEnc.init 0

example := stream_round_trip_iff_partial splitSample (by decide) ⟨0x42, 1, 0x12, 0x34⟩ (by decide) 40 streamWritten (by rfl) (by decide +kernel)
  Dec.zero rfl (.inr (.inl (by decide)))

def netbufWritten : NEnc := match writeMsgN 60 (NEnc.init 40) ⟨0x42, 1, 0x12, 0x34⟩ [7, 8] splitSample.opts splitSample.payload with
  | .ok (s, _) => s
  | .error _ => NEnc.init 0

example := netbuf_round_trip_iff_partial splitSample (by decide) ⟨0x42, 1, 0x12, 0x34⟩ (by decide) 40 60 (by decide) netbufWritten (by rfl)
  Dec.zero rfl (.inr (.inl (by decide)))

example := stream_segments_exact_partial ⟨true, true⟩ splitSample (by decide) (by decide) _ sample_opts Dec.zero rfl (.inr (.inl (by decide)))
  (by decide) [0x42, 1] [[0x12, 0x34, 7], [8, 0xB3, 1], [], [2, 3, 0xE1, 0], [20, 4, 0xFF, 9], [10]] (by decide)
example := stream_message_delivered_partial ⟨true, true⟩ splitSample (by decide) (by decide) Dec.zero rfl (.inr (.inl (by decide))) (by decide)
example := stream_segments_delivered_partial ⟨true, true⟩ splitSample (by decide) (by decide) Dec.zero rfl (.inr (.inl (by decide)))
  (by decide) [0x42, 1] [[0x12, 0x34, 7], [8, 0xB3, 1], [], [2, 3, 0xE1, 0], [20, 4, 0xFF, 9], [10]] (by decide)
example := stream_end_overread ⟨true, true⟩ rfl ⟨1, 0, 1, 1, [], [⟨12, []⟩], none⟩ (by decide) _ (isOpts_encOpts 0 [⟨12, []⟩] (by decide))
  Dec.zero rfl (by decide) [0x40, 1, 0] [[1, 0xC0]] (by decide) rfl ⟨⟨12, []⟩, rfl, rfl⟩
example := stream_any_delivered_partial ⟨true, false⟩ Dec.zero rfl 0x41 1 0 1 [0xAA] [0xB1, 0x61, 0x43, 5] (by decide) (by decide)
  (.inr (.inl (by decide))) (by decide) (.inl rfl) [0x41, 1, 0] [[1, 0xAA, 0xB1, 0x61], [0x43, 5]] (by decide)
example := stream_any_overreads ⟨true, true⟩ rfl Dec.zero rfl 0x41 1 0 1 [0xAA] [0xB1, 0x61, 0x43, 5] (by decide) (by decide)
  (by decide) (by simp [endsOpen, readExt]) [0x41, 1, 0] [[1, 0xAA, 0xB1, 0x61], [0x43, 5]] (by decide)
example := stream_bytes_reported_partial ⟨true, false⟩ Dec.zero rfl 0x42 1 0 1 [0xAA, 0xBB] [0x42, 0xFF, 1, 0xFF, 0, 1, 0xAA, 0xFF, 0xBB, 0xB1, 0x61]
  [0xAA, 0xFF, 0xBB, 0xB1, 0x61] [0xB1, 0x61] (by decide) (by decide) (by decide) (.inr (.inl (by decide))) (.inl rfl)
  [0x42, 0xFF] [[1, 0xFF, 0, 1, 0xAA], [0xFF, 0xBB, 0xB1, 0x61]] (by decide)
example := stream_bytes_overread ⟨true, true⟩ rfl Dec.zero rfl 0x42 1 0 1 [0xAA, 0xBB]
  [0x42, 0xFF, 1, 0xFF, 0, 1, 0xAA, 0xFF, 0xBB, 0xB1, 0x61, 0x43, 5] [0xAA, 0xFF, 0xBB, 0xB1, 0x61, 0x43, 5] [0xB1, 0x61, 0x43, 5]
  (by decide) (by decide) (by decide) (by simp [endsOpen, readExt]) [0x42, 0xFF] [[1, 0xFF, 0, 1, 0xAA], [0xFF, 0xBB, 0xB1, 0x61, 0x43, 5]]
  (by decide)

end Verif.Conformance
