import Verif.Conformance.InstancesCore
import Verif.Props.LegacyPrompt
import Verif.Props.TypedOptions
import Verif.Props.Memory
import Verif.Props.StreamOps
import Verif.Props.OptionGenerate
import Verif.Props.PullCut
import Verif.Props.NetBuf
import Verif.Props.Diagnostic
import Verif.Props.DiagnosticCuts
import Verif.Props.DiagnosticAny

/-!
# More theorems with many hypotheses, applied: the old decoder interface, the pull decoder, the diagnostic programs, the examples

As `Conformance/Instances`.
-/
namespace Verif.Conformance
open Verif.Model Verif.Model.Header Verif.Model.Retry Verif.Model.Pull Verif.Spec Verif.Spec.Retry Verif.Proofs Verif.Props Dec

/-- `GET /ab/c` without a payload. -/
def getTwo : Msg := ⟨1, 0, 1, 0x0102, [7, 8], [⟨11, [0x61, 0x62]⟩, ⟨11, [0x63]⟩], none⟩
theorem getTwo_ok : getTwo.Ok := by decide
theorem getTwo_opts : IsOpts 0 getTwo.opts (encOpts 0 getTwo.opts) := isOpts_encOpts 0 _ (by decide)
/-- The same with a payload. -/
def putTwo : Msg := { getTwo with code := 3, payload := some [1, 0xFF, 3] }
theorem putTwo_ok : putTwo.Ok := by decide
theorem putTwo_opts : IsOpts 0 putTwo.opts (encOpts 0 putTwo.opts) := isOpts_encOpts 0 _ (by decide)
/-- One option. -/
def getOne : Msg := ⟨1, 0, 1, 0x0102, [7, 8], [⟨11, [0x61, 0x62, 0x63]⟩], none⟩
theorem getOne_ok : getOne.Ok := by decide
theorem getOne_opts : IsOpts 0 getOne.opts (encOpts 0 getOne.opts) := isOpts_encOpts 0 _ (by decide)

/-! ## The old decoder interface -/

example := legacy_payload_message_partial putTwo putTwo_ok _ putTwo_opts usedDec rfl (by decide)
  [(encMsg putTwo).take 5, ((encMsg putTwo).drop 5).take 3] ((encMsg putTwo).drop 8) (by decide +kernel)
example := legacy_no_payload_incomplete getTwo getTwo_ok _ getTwo_opts usedDec rfl rfl
  [(encMsg getTwo).take 5] ((encMsg getTwo).drop 5) (by decide +kernel) (by decide +kernel)
example := legacy_header_only_unnoticed ⟨1, 2, 0, 7, [], [], none⟩ (by decide) usedDec rfl rfl rfl rfl [[0x60]] [0, 0, 7] (by decide +kernel) (by decide)
example := legacy_next_message_stuck putTwo putTwo_ok _ putTwo_opts usedDec rfl (by decide)
  [(encMsg putTwo).take 5] ((encMsg putTwo).drop 5) (by decide +kernel) (encMsg getTwo) true
example := legacy_any_exact usedDec rfl 0x41 1 0 7 [9] [0xB3, 0x61] rfl (by decide) [[0x41, 1, 0]] [7, 9, 0xB3, 0x61] rfl (by decide)
example := legacy_prompt usedDec rfl 0x41 1 0 7 [9] [0xB3, 0x61] rfl (by decide) [[0x41, 1, 0], [7, 9, 0xB3, 0x61]] (by decide) rfl
example := legacy_prompt_prefix usedDec rfl 0x41 1 0 7 [9] [0xB3, 0x61] rfl (by decide) [[0x41, 1, 0], [7, 9, 0xB3, 0x61]] (by decide) rfl

/-! ## The pull decoder -/

example := pull_reads_message_partial putTwo putTwo_ok _ putTwo_opts usedDec rfl (.inr (.inl (by decide))) 5 (by decide)
example := iterator_shows_partial putTwo putTwo_ok _ putTwo_opts usedDec rfl (.inr (.inl (by decide))) 5 (by decide)
example := iterator_right_iff putTwo putTwo_ok _ putTwo_opts usedDec rfl (.inr (.inl (by decide))) 5 (by decide)
example := iterator_misses_single_option getOne getOne_ok _ rfl (by decide) rfl _ getOne_opts usedDec rfl 5 (by decide)
example := iterator_skips_second putTwo putTwo_ok _ _ _ rfl _ putTwo_opts usedDec rfl 5 (by decide)
example := iterator_hides_payload putTwo putTwo_ok _ _ rfl _ rfl _ putTwo_opts usedDec rfl 5 (by decide)
example := cut_option_made_up getTwo getTwo_ok [⟨11, [0x61, 0x62]⟩] ⟨11, [0x63]⟩ rfl rfl _ getTwo_opts 1 (by decide) (by decide) usedDec rfl 9 (by decide)
example := iterator_cut_made_up getOne getOne_ok _ rfl rfl _ getOne_opts 2 (by decide) (by decide) usedDec rfl 9 (by decide)

/-! ## A message sent on with another token -/

example := reissue_same_length_partial putTwo putTwo_ok (encOpts 0 putTwo.opts) usedDec ⟨(encMsg putTwo).take 7, [(encMsg putTwo).drop 7]⟩ [5, 6] rfl
  9 (by decide) [30] 9 (by decide +kernel) (by decide +kernel) (by decide +kernel) (by decide +kernel)

/-! ## The diagnostic programs -/

example := diagnostic_any_inside_iff usedDec rfl 0x41 1 0 7 [9] [0xB3, 0x61] rfl (by decide) (.inr (.inl (by decide))) [[0x41, 1, 0]] [7, 9, 0xB3, 0x61] rfl
example := diagnostic_cut_wrong getTwo getTwo_ok [⟨11, [0x63]⟩] 11 [0x61] [0x62] _ _ (by decide) rfl (hdrOf_optHeader _ _ (by decide) (by decide))
  (isOpts_encOpts 11 [⟨11, [0x63]⟩] (by decide)) usedDec rfl
example := uri_text_every_cut getTwo getTwo_ok _ getTwo_opts (by decide +kernel) usedDec rfl (.inr (.inl (by decide)))
  [(encMsg getTwo).take 8] ((encMsg getTwo).drop 8) (by decide +kernel) (.inr (by decide +kernel)) none
example := uri_text_cut_exact_partial getTwo getTwo_ok _ getTwo_opts usedDec rfl (.inr (.inl (by decide)))
  [(encMsg getTwo).take 8] ((encMsg getTwo).drop 8) (by decide +kernel) (by decide +kernel) none
example := uri_text_right_iff getTwo getTwo_ok _ getTwo_opts (by decide +kernel) usedDec rfl (.inr (.inl (by decide)))
  [(encMsg getTwo).take 8] ((encMsg getTwo).drop 8) (by decide +kernel) (.inr (by decide +kernel)) none
example := uri_text_cut_wrong getTwo getTwo_ok [⟨11, [0x63]⟩] [0x61] [0x62] _ _ (by decide) (by decide) rfl (hdrOf_optHeader _ _ (by decide) (by decide))
  (isOpts_encOpts 11 [⟨11, [0x63]⟩] (by decide)) (by decide +kernel) usedDec rfl none
example := uri_text_made_up getTwo getTwo_ok _ getTwo_opts rfl ⟨11, [0x63]⟩ rfl rfl (by decide) (by decide +kernel) usedDec rfl none
example := uri_text_any_exact usedDec rfl 0x41 1 0 7 [9] [0xB3, 0x61] rfl (by decide) (.inr (.inl (by decide))) [[0x41, 1, 0]] [7, 9, 0xB3, 0x61] rfl none

/-! ## Integers as options -/

example := option_int_written_partial 6 12 (by decide) (by decide) (by decide) 70000 (by decide) (by decide) [1, 2, 3, 4] rfl 9 (by decide)
example := option_int_returns_iff 6 12 (by decide) (by decide) (by decide) (-5) (by decide) [1, 2, 3, 4] rfl ⟨{ OptEnc.init with current := 6 }, [1], 40⟩ rfl (by decide)

/-! ## The example programs -/

example := ping_walking_answered_partial putTwo putTwo_ok _ putTwo_opts usedDec rfl (.inr (.inl (by decide))) (List.replicate 8 0xEE) rfl
  ⟨1, 2, 3, 4⟩ 20 (by decide) 5 (by decide)
example := ping_answers_everything { putTwo with type := 2 } (by decide) (.inl rfl) (encOpts 0 putTwo.opts) usedDec rfl (List.replicate 8 0xEE) rfl
  ⟨1, 2, 3, 4⟩ 20 (by decide)

/-! ## Echo servers that were sent something cut -/

example := echo_discloses true ⟨0x48, 1, 0, 7⟩ [1, 2, 3] (by decide) (by decide) (by decide) 32 usedDec rfl [0x48, 1] [[0, 7, 1, 2, 3]] rfl
example := echo_from_memory true [0x42, 1] (by decide) (by decide) 32 usedDec rfl _ rfl
example := echo_overflows ⟨true, true⟩ ⟨0x4C, 1, 0, 7⟩ [1, 2, 3, 4, 5, 6, 7, 8] [10] 9 (by decide) rfl (by decide) 32 usedDec rfl
  [0x4C, 1] [[0, 7, 1, 2, 3, 4, 5, 6, 7, 8, 9, 10]] rfl
example := echo_message_past_end true ⟨1, 0, 1, 7, [], [⟨11, []⟩], none⟩ (by decide) rfl _ (isOpts_encOpts 0 _ (by decide)) (by decide) 32 usedDec rfl

/-! ## Options as numbers -/

example := numbers_read_partial 32 (by decide) putTwo putTwo_ok _ putTwo_opts usedDec rfl (.inr (.inl (by decide))) 5 (by decide)
example := numbers_read8_partial putTwo putTwo_ok _ putTwo_opts usedDec rfl (.inr (.inl (by decide))) 5 (by decide)
example := iterator_numbers 16 (by decide) putTwo putTwo_ok _ putTwo_opts usedDec rfl (.inr (.inl (by decide))) 5 (by decide)
example := iterator_first_zero 32 putTwo putTwo_ok _ _ rfl (.inl (by decide)) _ putTwo_opts usedDec rfl 5 (by decide)
example := numbers_read8_iff putTwo putTwo_ok _ putTwo_opts usedDec rfl (.inr (.inl (by decide))) 5 (by decide)
example := iterator_numbers_iff 32 (by decide) putTwo putTwo_ok _ putTwo_opts usedDec rfl (.inr (.inl (by decide))) 5 (by decide)

/-! ## Servers and any datagram -/

example := any_datagram_served_partial [0x41, 1, 0, 7, 9, 0xB2, 0x76] (by unfold HasToken; decide) (cap := 64) (by decide) uriSample_ordered usedDec rfl
  (List.replicate 8 0) rfl 66000 (by decide)
example := stream_long_token_datagram (k := ⟨false, false⟩) rfl rfl [0x4D, 1, 0, 7] (.inr (by decide +kernel)) 64 uriSample (List.replicate 8 0) usedDec rfl
  9 (by decide)
example := stream_empty_option_overreads ⟨true, true⟩ rfl (m := ⟨1, 0, 1, 7, [9], [⟨11, [0x61]⟩, ⟨11, []⟩], none⟩) (by decide) (by decide) rfl
  ⟨⟨11, []⟩, by decide, rfl⟩ 64 uriSample 4 [0x31] (List.replicate 8 0) [0, 0, 0, 0] usedDec rfl
theorem twoNames_te : Denotes twoNames (-1) ["te".toList] 2 :=
  .step (e := ⟨"te".toList, 2, -1⟩) ⟨twoNames.take 1, [], rfl, rfl, rfl, by decide⟩ (.here 2)
example := cut_path_answered ⟨1, 0, 1, 0x0203, [9], [⟨11, [0x74, 0x65, 0x6D, 0x70]⟩], none⟩ (by decide) [] [0x74, 0x65] [0x6D, 0x70] rfl rfl (by decide)
  [0x41, 1, 2, 3, 9, 0xB4, 0x74, 0x65] (by decide +kernel) (text := [0x76]) (cap := 64) (by decide) (paths := twoNames) (parentsFirst_cons (by decide) (by decide) <| parentsFirst_cons (by decide) (by decide) parentsFirst_nil) (id := 2)
  (by decide) twoNames_te usedDec rfl (List.replicate 8 0) rfl [] 66000 (by decide)
example := seven_bytes_many_options 3000 (by decide) (by decide) 1 7 (by decide) (by decide) usedDec rfl

/-! ## What the memory held -/

example := memory_unseen_token { usedDec with st := .headerDone, hdr := ⟨0x42, 1, 0, 7⟩ } { Dec.zero with st := .headerDone, hdr := ⟨0x42, 1, 0, 7⟩ } rfl rfl rfl
  (by decide) rfl rfl ⟨[0x42, 1, 0, 7, 1, 2, 0xB1], 4, true⟩

/-! ## The stream encoder, call by call -/

example := stream_ops_round_trip_partial putTwo putTwo_ok (by decide) ⟨0x42, 3, 1, 2⟩ (by decide) [⟨11, [[0x61], [], [0x62]]⟩, ⟨11, [[0x63]]⟩] (by decide)
  (some [[1], [0xFF, 3]]) (by decide)

/-! ## The option generator by itself -/

example := alone_long_repeats 0 ⟨11, List.replicate 282 7⟩ (by decide) (by decide) (by decide +kernel) (by decide +kernel) (by decide +kernel) OptEnc.init rfl 600

/-! ## Observers and ticks -/

example := uri_handler_selected true [0x76, 0x31] ⟨0x40, 1, 0, 7⟩ rfl [.option 3 [0x61] true] (by decide) [0x76, 0x31] true [.option 11 [0x62] true, .payload [1] true]
  (by decide) (by decide)

end Verif.Conformance
