import Verif.Props.NoLeak
import Verif.Props.PullMemory
import Verif.Conformance.InstancesLengths

/-! # The theorems about memory in answers, applied -/
namespace Verif.Conformance
open Verif.Model Verif.Spec Verif.Proofs Verif.Props Verif.Model.Header Pull Observable

/-- A decoder in memory full of other bytes. -/
def staleDec : Dec := { Dec.zero with tbuf := [1, 2, 3, 4, 5, 6, 7, 8], hdr := ⟨0x48, 9, 9, 9⟩ }

example := auto_replies_no_leak 64 (by decide) uriSample_ordered cutOption Dec.zero staleDec rfl rfl (List.replicate 8 0) [9, 8, 7, 6, 5, 4, 3, 2] rfl rfl 400
  [[0x62, 0x84, 0, 7, 0xAA, 0xFF]] (by decide +kernel)
example := version_no_leak_partial cutOption (by unfold HasToken; decide) (text := [0x31]) (cap := 64) (by decide) uriSample_ordered (id := 4) (by decide)
  Dec.zero staleDec rfl rfl (List.replicate 8 0) [9, 8, 7, 6, 5, 4, 3, 2] rfl rfl [] [1, 2] 70000 (by decide)
example := (ping_leak_iff [0x44, 1, 0, 7, 0xAA] (by decide) (by decide) staleDec rfl ⟨0, 0, 0, 0⟩ 64 (by decide)).mpr (by unfold HasToken; decide)
example := echo_no_leak_partial ⟨false, true⟩ ⟨0x42, 1, 0, 7⟩ [0xAA, 0xFF] [0xB2, 0x78, 0x79, 0x14] (by decide) (by decide) (by decide)
  (.inr (.inl (by decide))) 64 Dec.zero staleDec rfl rfl [0x42, 1, 0] [[7, 0xAA, 0xFF, 0xB2, 0x78], [0x79, 0x14]] (by decide)
example := echo_leaks true ⟨0x44, 1, 0, 7⟩ [0xAA] (by decide) (by decide) (by decide) 64 (by decide) staleDec [0x44, 1] [[0, 7, 0xAA]] (by decide)

-- five bytes asked for, three bytes of memory among the answer
example : echoReply ⟨true, true⟩ 64 staleDec ⟨[0x44, 1, 0, 7, 0xAA], []⟩ = .ok [0x64, 0x43, 0, 7, 0xAA, 2, 3, 4] := by decide +kernel

example := pull_no_leak_partial cutOption (by decide) Dec.zero staleDec rfl rfl (by decide) 70000 (by decide)
example := pull_options_no_leak [0x40, 1, 0, 7] (by decide) (by decide) Dec.zero { staleDec with opt := { staleDec.opt with st := .payload } } rfl rfl 70000 (by decide)
example := examples_no_leak_partial cutOption (by unfold HasToken; decide) Dec.zero staleDec rfl rfl (List.replicate 8 0)
  [9, 8, 7, 6, 5, 4, 3, 2] rfl rfl ⟨0, 0, 0, 0⟩ ⟨1, 2, 3, 4⟩ 64 128 70000 (by decide) (by decide)

example := (examples_leak_iff (A := Nat) [0x44, 1, 0, 7, 0xAA] (by decide) ⟨0, 0, 0, 0⟩ 64 4 128 70000 (by decide) (by decide) ⟨[], 0⟩ 5 [] [] (fun _ => none) 4
  (by decide)).1.mpr (by unfold HasToken; decide)
example := (examples_leak_iff (A := Nat) [0x40, 1] (by decide) ⟨0, 0, 0, 0⟩ 64 4 128 70000 (by decide) (by decide) ⟨[], 0⟩ 5 [] [] (fun _ => none) 4
  (by decide)).2.1.mpr (by unfold HasToken; decide)
example := (ping_walking_leak_iff [0x40, 1] (by decide) ⟨0, 0, 0, 0⟩ 128 70000 (by decide) (by decide)).mpr (by unfold HasToken; decide)
example := echo_short_leaks false [0x42, 1, 7] (by decide) (by decide) (by decide) 64 (by decide)
example := (examples_leak_exact (A := Nat) [0x44, 1, 0, 7, 0xAA] ⟨0, 0, 0, 0⟩ 64 4 128 70000 (by decide) (by decide) ⟨[], 0⟩ 5 [] []
  (fun _ => none) 4 (by decide)).2.2.mpr (by decide)
example := examples_short_long_token (A := Nat) [0x4C, 1] (by decide) (by decide) staleDec (List.replicate 8 0) rfl ⟨0, 0, 0, 0⟩ 128 64 4 20 ⟨[], 0⟩ 5 [] []
  (fun _ => none) 4
example := version_no_leak (text := [0x31]) (cap := 64) (by decide) uriSample_ordered (id := 4) (by decide) cutOption Dec.zero staleDec rfl rfl
  (List.replicate 8 0) [9, 8, 7, 6, 5, 4, 3, 2] rfl rfl [] [1, 2] 400 [[0x62, 0x84, 0, 7, 0xAA, 0xFF]] (by decide +kernel)
example := stream_no_leak_partial ⟨true, false⟩ rfl [0x42, 1, 0, 7, 0xAA, 0xBB, 0xED] (by decide) (text := [0x31]) (cap := 64) (by decide) uriSample_ordered (id := 4) (by decide)
  Dec.zero staleDec rfl rfl (List.replicate 8 0) [9, 8, 7, 6, 5, 4, 3, 2] rfl rfl [] [1, 2]
example := examples_cut_longer (A := Nat) [0x44, 1, 0, 7, 0xAA] (by decide) (by decide) staleDec rfl (.inl (by decide)) (List.replicate 8 0) rfl
  ⟨0, 0, 0, 0⟩ 128 (by decide) 64 4 20 ⟨[], 0⟩ 5 [] [] (fun _ => none) 4 (by decide)

end Verif.Conformance
