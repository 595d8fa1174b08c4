import Verif.Props.Amplify
import Verif.Conformance.InstancesAside

/-! # The theorems about the length of answers, applied -/
namespace Verif.Conformance
open Verif.Model Verif.Spec Verif.Proofs Verif.Props Verif.Model.Header Pull Observable

/-- A datagram with a token of two bytes and two options behind it, the second cut off. -/
def cutOption : List UInt8 := [0x42, 1, 0, 7, 0xAA, 0xFF, 0xB2, 0x78, 0x79, 0x14]

theorem serverSample_any : pathIn (encMsg serverSample) = uriPath serverSample :=
  (path_of_message serverSample (by decide) _ (isOpts_encOpts 0 _ (by decide))).2

example := auto_replies_not_longer 64 (by decide) uriSample_ordered Dec.zero rfl (List.replicate 8 0) rfl 400 cutOption
  [[0x62, 0x84, 0, 7, 0xAA, 0xFF]] (by decide +kernel)
example := ping_not_longer_partial cutOption (by unfold HasToken; decide) Dec.zero rfl (List.replicate 8 0) rfl ⟨0, 0, 0, 0⟩ 64 (by decide) _
  (ping_any_echo_partial cutOption (by unfold HasToken; decide) Dec.zero rfl (List.replicate 8 0) rfl ⟨0, 0, 0, 0⟩ 64 (by decide)).1
example := (ping_longer_iff [0x48, 1, 0, 7] (by decide) (by decide) Dec.zero rfl (List.replicate 8 0) rfl ⟨0, 0, 0, 0⟩ 64 (by decide)).mpr
  (by unfold HasToken; decide)
example := echo_not_longer_partial ⟨false, true⟩ ⟨0x42, 1, 0, 7⟩ [0xAA, 0xFF] [0xB2, 0x78, 0x79, 0x14] (by decide) (by decide) (by decide)
  (.inr (.inl (by decide))) 64 Dec.zero rfl [0x42, 1, 0] [[7, 0xAA, 0xFF, 0xB2, 0x78], [0x79, 0x14]] (by decide) _
  (echo_bytes_partial ⟨false, true⟩ ⟨0x42, 1, 0, 7⟩ [0xAA, 0xFF] [0xB2, 0x78, 0x79, 0x14] (by decide) (by decide) (by decide)
    (.inr (.inl (by decide))) 64 Dec.zero rfl [0x42, 1, 0] [[7, 0xAA, 0xFF, 0xB2, 0x78], [0x79, 0x14]] (by decide))
example := echo_short_longer true [0x40, 1] (by decide) (by decide) 64 (by decide) Dec.zero rfl _
  ((echo_from_memory true [0x40, 1] (by decide) (by decide) 64 Dec.zero rfl _ rfl).trans (if_pos (by decide)))
example := version_longer_iff (encMsg serverSample) (by unfold HasToken; decide) (text := [0x31, 0x2E, 0x30]) (cap := 64) (by decide)
  uriSample_ordered (id := 4) (by decide) (by rw [serverSample_any]; exact sample_denotes) Dec.zero rfl (List.replicate 8 0) rfl [0, 0, 0, 0] 70000
  (by decide)

example := path_not_longer_partial getTestHost (by decide) _ testHost_opts Dec.zero rfl (.inr (.inl (by decide))) (List.replicate 8 0) rfl
  ⟨0, 0, 0, 0⟩ 127 140 9 (by decide) (by decide) (by decide) _
  (path_echoed_partial getTestHost (by decide) _ testHost_opts Dec.zero rfl (.inr (.inl (by decide))) (List.replicate 8 0) rfl
    ⟨0, 0, 0, 0⟩ 127 140 9 (by decide) (by decide) (by decide))
example := path_bare_longer ⟨1, 0, 1, 7, [0x77], [], none⟩ (by decide) rfl rfl Dec.zero rfl (.inr (by decide)) (List.replicate 8 0) rfl
  ⟨0, 0, 0, 0⟩ 127 140 9 (by decide) (by decide)
example := observe_not_longer_partial endObserve (by decide) _ endObserve_opts Dec.zero rfl (.inr (.inl (by decide))) (List.replicate 8 0) rfl
  ⟨0, 0, 0, 0⟩ 127 5 140 9 (⟨[], 0⟩ : Registrar Nat) 3 (by decide) (by decide) (by decide) (by decide) _ _
  (observe_answered_partial endObserve (by decide) _ endObserve_opts Dec.zero rfl (.inr (.inl (by decide))) (List.replicate 8 0) rfl
    ⟨0, 0, 0, 0⟩ 127 5 140 9 (⟨[], 0⟩ : Registrar Nat) 3 (by decide) (by decide) (by decide) (by decide))

example := discovery_length getListed (by decide) _ listed_opts Dec.zero rfl (.inl (by decide)) (List.replicate 8 0) rfl ⟨0, 0, 0, 0⟩
  listedTable _ _ 5 (by decide) _ listed_text 300 9 (by decide) (by decide)

end Verif.Conformance
