import Verif.Conformance.InstancesServers

/-!
# The theorems about headers, integers, the decoder, applied

As `Conformance/Instances`.
-/
namespace Verif.Conformance
open Verif.Model Verif.Model.Retry Verif.Spec Verif.Spec.Retry Verif.Proofs Verif.Props Dec

/-! ## Headers and integers -/

example := header_set_type ⟨0x5A, 0x45, 0x12, 0x34⟩ 2 (by decide)
example := header_set_token_length ⟨0x5A, 0x45, 0x12, 0x34⟩ 15 (by decide)
example := uint_roundtrip 70000 32 (by decide) (by decide) (by decide) (List.replicate 9 0xEE) (by decide)
example := uint_roundtrip8 200 (by decide) [0xEE] (by decide)
example := uint_shortest 70000 (by decide) (List.replicate 9 0xEE) (by decide)
example := uint_set_padded 4 70000 (by decide) (by decide) (by decide) (List.replicate 5 0xEE) (by decide)
example := uint_writers_agree 4 70000 (by decide) (by decide) (by decide) (List.replicate 5 0xEE) (by decide)
example := uint_set_padded_too_large 2 70000 (by decide) (by decide) (List.replicate 5 0xEE) (by decide)
example := block_encode_partial 70000 true 6 (List.replicate 5 0xEE) (by decide) (by decide) (by decide) (by decide)
example := block_decode [0x12, 0x3E] (by decide) (by decide) 0x123 6 true (by decide) (by decide)
example := block_roundtrip_partial 70000 true 6 (List.replicate 5 0xEE) (by decide) (by decide) (by decide) (by decide)
example := block_roundtrip_iff 0 true 6 (List.replicate 5 0xEE) (by decide) (by decide)

/-! ## The decoder -/

/-- A decoder whose memory was used before: it ended in a payload. -/
def usedDec : Dec := { Dec.zero with st := .done, tpos := 5, tbuf := List.replicate 8 0xEE, opt := { Dec.zero.opt with st := .payload } }

example := option_header_decoded { Dec.zero.opt with st := .optionValueDone } ⟨11, 3⟩ 300 14 0x61 [0x62] false (.inr rfl) (by decide) (by decide)
example := message_delivered_partial splitSample (by decide) usedDec rfl (.inr (.inr (.inl (by decide))))
example := message_delivered_reuse_partial splitSample (by decide) usedDec rfl rfl (.inr (.inr (.inl (by decide))))
example := stale_option_state_phantom_payload ⟨1, 2, 0, 7, [], [], none⟩ (by decide) rfl rfl rfl usedDec rfl
example := message_delivered_iff ⟨1, 2, 0, 7, [], [], none⟩ (by decide) usedDec rfl 50 (by decide)
example := decoder_token_overflow usedDec rfl 0x4D 1 0 7 (by decide) (List.replicate 9 1) [0xFF, 2] rfl true
example := truncated_never_completes usedDec [0x44, 1, 0, 7, 1, 2, 3] true (.inr ⟨0x44, rfl, by decide⟩)
example := any_bytes_reported usedDec rfl 0x42 1 0 7 [1, 2] [0xB5, 0x61, 0x62] rfl (by decide) (.inr (.inl (by decide)))
example := told_apart_iff 0x42 1 0 7 [1, 2] [0xB5, 0x61, 0x62] rfl (by decide) (by decide +kernel)
example := option_numbers_sorted usedDec rfl 0x42 1 0 7 [1, 2] [0x61, 0x61, 0x51, 0x62] rfl (by decide) (by decide +kernel)
example := reported_numbers usedDec rfl 0x42 1 0 7 [1, 2] [0x61, 0x61, 0xE1, 0xFF, 0xFF, 0x62] rfl (by decide)

example : ∃ r, Dec.process 40 (fresh usedDec) ⟨[0x41, 1, 0, 7, 9, 0xB1, 0x61], 0, true⟩ = .ok r ∧ (r.1.st ≠ .done ∧ .completed ∉ r.2.2) ∧
    atEnd r.2.1 = true := by
  have h : (Dec.process 40 (fresh usedDec) ⟨[0x41, 1, 0, 7, 9, 0xB1, 0x61], 0, true⟩).toOption.isSome = true := by decide +kernel
  cases hr : Dec.process 40 (fresh usedDec) ⟨[0x41, 1, 0, 7, 9, 0xB1, 0x61], 0, true⟩ with
  | error e => rw [hr] at h; cases h
  | ok r => exact ⟨r, rfl, process_never_completes usedDec rfl _ true 40 hr, (process_is_prefix usedDec rfl _ true 40 hr).1⟩
example := process_delivers_payload_message_partial streamSample (by decide) usedDec rfl (by decide)
example := process_delivers_exactly_partial streamSample (by decide) _ (isOpts_encOpts 0 _ (by decide)) usedDec rfl (.inr (.inl (by decide)))

/-! ## The encoders -/

example := option_header_exact_iff 11 300 14 (by decide) (by decide) (by decide) ⟨{ OptEnc.init with current := 11 }, [1, 2, 3], 8⟩ rfl (by decide)
example := stream_round_trip_partial streamSample (by decide) (by decide) ⟨0x42, 1, 0x12, 0x34⟩ (by decide)
example := option_header_room (SEnc.init 2) 300 14 (by decide)
example := options_encoded_partial streamSample.opts (by decide) (by decide)
example := netbuf_round_trip_partial streamSample (by decide) (by decide) ⟨0x42, 1, 0x12, 0x34⟩ (by decide)
example := empty_option_lost { NEnc.init 20 with oe := { OptEnc.init with st := .optionValueDone } } rfl 11 9 (by decide)
example := option_after_empty_hangs { NEnc.init 20 with oe := { OptEnc.init with st := .optionValueDone } } rfl (by decide) 11 [0x61] (by decide) (by decide)

/-! ## The decoder behind a stream -/

example := stream_agrees_partial ⟨true, false⟩ rfl [0x41, 1, 0, 7, 9, 0xB2, 0x61, 0xFF] usedDec rfl (by decide +kernel)
example := stream_drops_ff 0x40 1 0 7 [0xB1, 0x61] (by decide) (by decide) (by decide) (by decide) true usedDec
example := stream_header_lost 0x40 1 0 (by decide) (by decide) (by decide) true usedDec
example := stream_completes_iff ⟨true, true⟩ streamSample (by decide) _ (isOpts_encOpts 0 _ (by decide))
  usedDec rfl (.inr (.inl (by decide)))
example := stream_agrees_or_overreads_partial ⟨true, true⟩ [0x41, 1, 0, 7, 9, 0xB2, 0x61, 0xFF] usedDec rfl (by decide +kernel)
example := stream_any_same ⟨true, true⟩ usedDec rfl 0x41 1 0 7 [9] [0xB2, 0x61, 0xFF, 0xFF] rfl (by decide) (by decide) (by decide +kernel)
  [0x41, 1] [[0, 7, 9], [0xB2, 0x61, 0xFF, 0xFF]] rfl
example := stream_any_completes_iff ⟨true, true⟩ usedDec rfl 0x41 1 0 7 [9] [0xB2, 0x61, 0xFF, 0xFF] rfl (by decide) (.inr (.inl (by decide))) (by decide)
  [0x41, 1] [[0, 7, 9], [0xB2, 0x61, 0xFF, 0xFF]] rfl
example := stream_sees ⟨true, true⟩ usedDec rfl 0x41 1 0 7 [9] [0x41, 0xFF, 1, 0, 7, 0xFF, 9, 0xB1, 0xFF] [0xFF, 9, 0xB1, 0xFF] [0xB1, 0xFF]
  (by decide +kernel) (by decide +kernel) (by decide) ⟨[0x41, 0xFF], [[1, 0, 7, 0xFF, 9], [0xB1, 0xFF]]⟩ rfl
example := stream_waits ⟨true, true⟩ usedDec rfl [0x41, 0xFF, 0, 7] ⟨[0x41], [[0xFF, 0, 7]]⟩ rfl (.inl (by decide +kernel))
example := stream_overflows ⟨true, true⟩ usedDec rfl 0x4F 1 0 7 ([0x4F, 1, 0xFF, 0, 7] ++ List.replicate 9 3) (List.replicate 9 3) (by decide +kernel) (by decide)
  (by decide +kernel) ⟨[0x4F, 1, 0xFF, 0, 7], [List.replicate 9 3]⟩ rfl
example := decoder_sees_partial ⟨true, true⟩ [0x41, 0xFF, 1, 0, 7, 0xFF, 9, 0xB1, 0x61, 0xFF, 5] [0x41, 1, 0, 7, 9, 0xB1, 0x61, 0xFF, 5] (by decide +kernel) (by decide +kernel)
  (.inr (by decide +kernel)) usedDec rfl
example := stream_any_exact_partial ⟨true, true⟩ usedDec rfl 0x41 1 0 7 [9] [0xB2, 0x61, 0x62, 0xFF, 5] rfl (by decide) (.inr (.inl (by decide))) (by decide)
  (.inr (by decide +kernel)) [0x41, 1] [[0, 7, 9], [0xB2, 0x61, 0x62, 0xFF, 5]] rfl

end Verif.Conformance
