import Verif.Props.PutAside
import Verif.Conformance.InstancesExamples

/-! # The theorems about empty messages and other versions, applied -/
namespace Verif.Conformance
open Verif.Model Verif.Spec Verif.Proofs Verif.Props Verif.Model.Header Pull Observable

/-- The sample request with version 2. -/
def versionTwo : Msg := { serverSample with version := 2 }
/-- The ping of RFC 7252 section 4.3. -/
def coapPing : Msg := ⟨1, 0, 0, 0x1234, [], [], none⟩

theorem versionTwo_denotes : Denotes uriSample (-1) (uriPath versionTwo) 4 := sample_denotes

example := other_version_silent_partial (m := versionTwo) (by decide) (by decide) (cap := 64) (by decide) uriSample_ordered (by decide)
  versionTwo_denotes Dec.zero rfl (List.replicate 8 0) rfl 300 (by decide)
example := (put_aside_right_iff (m := versionTwo) (by decide) (by decide) (cap := 64) (by decide) uriSample_ordered
  Dec.zero rfl (List.replicate 8 0) rfl 300 (by decide)).mpr ⟨by decide, 4, by decide, versionTwo_denotes⟩
example := put_aside_right_iff (m := coapPing) (by decide) (by decide) (cap := 64) (by decide) uriSample_ordered
  Dec.zero rfl (List.replicate 8 0) rfl 300 (by decide)
example := empty_message_404 (m := coapPing) (by decide) (by decide) (cap := 64) (by decide) uriSample_ordered
  Dec.zero rfl (List.replicate 8 0) rfl 300 (by decide)
example := put_aside_answered ⟨false, true⟩ versionTwo (by decide) (by decide) (by decide) Dec.zero rfl (.inr (.inl (by decide))) (by decide) [0x31] 64
  (by decide) uriSample_ordered (id := 4) (by decide) (List.replicate 8 0) rfl [0, 0, 0, 0]
example := ping_example_put_aside coapPing (by decide) (by decide) Dec.zero rfl (List.replicate 8 0) rfl ⟨0, 0, 0, 0⟩ 64 (by decide)

example := other_version_datagram_iff 0x90 [1, 0, 7, 0xB2, 0x76, 0x31, 0x1F] (by decide) (by unfold HasToken; decide) (cap := 64) (by decide) uriSample_ordered
  Dec.zero rfl (List.replicate 8 0) rfl 70000 (by decide)
example := echo_put_aside ⟨false, true⟩ coapPing (by decide) (by decide) (by decide) (.inr (.inr (.inr (by simp [coapPing])))) 64 (by decide) Dec.zero rfl
  [0x40, 0] [[0x12, 0x34]] (by decide)

-- the ping of RFC 7252 and what it gets: 4.04, where 70 00 12 34 is due
example : serve 64 uriSample Dec.zero (List.replicate 8 0) 300 [0x40, 0, 0x12, 0x34] = .ok [[0x60, 0x84, 0x12, 0x34]] := by decide +kernel
example : (asideReplies coapPing).map encMsg = [[0x70, 0, 0x12, 0x34]] := by decide +kernel

end Verif.Conformance
