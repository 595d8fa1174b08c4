import Verif.Props.UnknownOptions
import Verif.Conformance.InstancesExamples

/-! # The theorems about options a server does not know, applied -/
namespace Verif.Conformance
open Verif.Model Verif.Spec Verif.Proofs Verif.Props Verif.Model.Header Pull Observable

/-- The options of the sample request with three that nobody registered: 2 in front, 10 before the path, 9000 at the end. -/
def moreOptions : List Opt :=
  [⟨2, [7]⟩, ⟨3, [0x68]⟩, ⟨10, []⟩, ⟨11, [0x76, 0x31]⟩, ⟨11, [0x74, 0x65, 0x6D, 0x70]⟩, ⟨12, []⟩, ⟨9000, [1, 2]⟩]

theorem moreOptions_added : ElectiveAdded serverSample.opts moreOptions :=
  .add (by decide) (by decide) <| .keep <| .add (by decide) (by decide) <| .keep <| .keep <| .keep <| .add (by decide) (by decide) .nil

/-- The sample request with the critical option 9. -/
def criticalSample : Msg :=
  { serverSample with opts := [⟨3, [0x68]⟩, ⟨9, [1]⟩, ⟨11, [0x76, 0x31]⟩, ⟨11, [0x74, 0x65, 0x6D, 0x70]⟩, ⟨12, []⟩] }

theorem critical_denotes : Denotes uriSample (-1) (uriPath criticalSample) 4 := sample_denotes

example := elective_ignored_partial (m := serverSample) (by decide) moreOptions_added (by decide) (cap := 64) (by decide) uriSample_ordered
  Dec.zero rfl (List.replicate 8 0) rfl 600 (by decide) (by decide)
example := elective_ignored_partial (m := serverSample) (by decide) moreOptions_added (by decide) (cap := 64) (by decide) none_first
  Dec.zero rfl (List.replicate 8 0) rfl 600 (by decide) (by decide)
example := elective_ignored_stream_partial ⟨false, true⟩ serverSample (by decide) (by decide) _ moreOptions_added (by decide) (by decide) Dec.zero rfl
  (.inr (.inl (by decide))) (by decide) [0x31] 64 (by decide) uriSample_ordered (id := 4) (by decide) (List.replicate 8 0) rfl [0, 0, 0, 0]
example := critical_answered (m := criticalSample) (by decide) ⟨⟨9, [1]⟩, by decide, by decide, by decide⟩ (text := [0x31, 0x2E, 0x30]) (by decide)
  (cap := 64) (by decide) uriSample_ordered (by decide) critical_denotes Dec.zero rfl (List.replicate 8 0) rfl [0, 0, 0, 0] 400 (by decide)
example := elective_changes_path getTestHost (by decide) [⟨3, [104]⟩, ⟨7, [1]⟩] [] [116, 101, 115, 116] (by decide) rfl (by decide) (by decide)
  ⟨10, [5]⟩ (by decide) (by decide) (by decide) Dec.zero rfl (List.replicate 8 0) rfl ⟨0, 0, 0, 0⟩ 127 140 9 (by decide) (by decide) (by decide)
  ((path_place_iff getTestHost (by decide) [⟨3, [104]⟩, ⟨7, [1]⟩] [] [116, 101, 115, 116] (by decide) rfl (by decide) (by decide) _
    testHost_opts Dec.zero rfl (List.replicate 8 0) rfl ⟨0, 0, 0, 0⟩ 127 140 9 (by decide) (by decide) (by decide)).mpr rfl)

-- the answer to the request with the critical option: 2.05 with the text, where 4.02 is due
example : serveVersion 64 uriSample 4 [0x31, 0x2E, 0x30] Dec.zero (List.replicate 8 0) [0, 0, 0, 0] 400 (encMsg criticalSample) =
    .ok [encMsg (textReply criticalSample [0x31, 0x2E, 0x30])] := by decide +kernel

end Verif.Conformance
