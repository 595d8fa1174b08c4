import Verif.Props.ExamplesPlace
import Verif.Props.Blockwise
import Verif.Props.Route
import Verif.Conformance.InstancesRetry
import Verif.Props.ServerAny
import Verif.Props.Responder

/-!
# The theorems with many hypotheses, applied: the example programs, the version resource, blocks

As `Conformance/Instances`.
-/
namespace Verif.Conformance
open Verif.Model Verif.Spec Verif.Proofs Verif.Props Verif.Model.Header Pull Observable

theorem testHost_opts : IsOpts 0 getTestHost.opts (encOpts 0 getTestHost.opts) := isOpts_encOpts 0 _ (by decide)
theorem test_opts : IsOpts 0 getTest.opts (encOpts 0 getTest.opts) := isOpts_encOpts 0 _ (by decide)
theorem deep_opts : IsOpts 0 getDeep.opts (encOpts 0 getDeep.opts) := isOpts_encOpts 0 _ (by decide)
theorem endObserve_opts : IsOpts 0 endObserve.opts (encOpts 0 endObserve.opts) := isOpts_encOpts 0 _ (by decide)
theorem core_opts : IsOpts 0 getCore.opts (encOpts 0 getCore.opts) := isOpts_encOpts 0 _ (by decide)

/-- `GET /o` for host `h`, with Observe 0 behind the host. -/
def hostObserve : Msg := ⟨1, 0, 1, 7, [0x77], [⟨3, [104]⟩, ⟨6, [0]⟩, ⟨11, [111]⟩], none⟩
theorem hostObserve_opts : IsOpts 0 hostObserve.opts (encOpts 0 hostObserve.opts) := isOpts_encOpts 0 _ (by decide)

/-- `GET /l` for host `h` and port 1. -/
def getListed : Msg := ⟨1, 0, 1, 7, [], [⟨3, [104]⟩, ⟨7, [1]⟩, ⟨11, [108]⟩], none⟩
theorem listed_opts : IsOpts 0 getListed.opts (encOpts 0 getListed.opts) := isOpts_encOpts 0 _ (by decide)

def listedTable : List Uri.Entry := [⟨"l".toList, 5, -1⟩]
theorem listed_ordered : ParentsFirst listedTable := parentsFirst_cons (by decide) (by decide) parentsFirst_nil
theorem listed_denotes : Denotes listedTable (-1) (uriPath getListed) 5 :=
  .step (e := ⟨"l".toList, 5, -1⟩) ⟨[], [], rfl, rfl, rfl, by decide⟩ (.here 5)
theorem listed_text : Uri.discover [⟨5, [], []⟩] (fun _ => none) listedTable = some "</l>".toList := by decide +kernel

theorem discover_ordered : ParentsFirst discoverPaths :=
  parentsFirst_cons (by decide) (by decide) <| parentsFirst_cons (by decide) (by decide) <|
    parentsFirst_cons (by decide) (by decide) <| parentsFirst_cons (by decide) (by decide) <|
    parentsFirst_cons (by decide) (by decide) <| parentsFirst_cons (by decide) (by decide) parentsFirst_nil
theorem discover_denotes : Denotes discoverPaths (-1) (uriPath getCore) 5 :=
  .step (e := ⟨".well-known".toList, 4, -1⟩) ⟨discoverPaths.take 4, discoverPaths.drop 5, rfl, rfl, rfl, by decide⟩ <|
    .step (e := ⟨"core".toList, 5, 4⟩) ⟨discoverPaths.take 5, [], rfl, rfl, rfl, by decide⟩ (.here 5)

/-- The listing of the table of the discovery example. -/
def discoverText : List Char := (Uri.discover discoverData discoverTitle discoverPaths).getD []
theorem discover_text : Uri.discover discoverData discoverTitle discoverPaths = some discoverText := by decide +kernel
theorem discover_fits : 14 + discoverText.length ≤ 300 := by decide +kernel

/-! ## The path example -/

example := path_place_iff getTestHost (by decide) [⟨3, [104]⟩, ⟨7, [1]⟩] [] [116, 101, 115, 116] (by decide) rfl (by decide) (by decide) _
  testHost_opts Dec.zero rfl (List.replicate 8 0) rfl ⟨0, 0, 0, 0⟩ 127 140 9 (by decide) (by decide) (by decide)
example := path_short_never_valid getTest (by decide) (by decide) _ test_opts Dec.zero rfl (.inr (.inl (by decide))) (List.replicate 8 0) rfl
  ⟨0, 0, 0, 0⟩ 127 140 9 (by decide) (by decide) (by decide)
example := path_deep_wrong getDeep (by decide) (by decide) (by decide) _ deep_opts Dec.zero rfl (List.replicate 8 0) rfl
  ⟨0, 0, 0, 0⟩ 127 140 9 (by decide) (by decide) (by decide)
example := path_echoed_partial getTestHost (by decide) _ testHost_opts Dec.zero rfl (.inr (.inl (by decide))) (List.replicate 8 0) rfl
  ⟨0, 0, 0, 0⟩ 127 140 9 (by decide) (by decide) (by decide)
example := (path_echoed_right_iff getTestHost (by decide) _ testHost_opts Dec.zero rfl (.inr (.inl (by decide))) (List.replicate 8 0) rfl
  ⟨0, 0, 0, 0⟩ 127 140 9 (by decide) (by decide) (by decide)).2 (by decide)
example := path_test_missed getTest (by decide) rfl rfl _ test_opts Dec.zero rfl (List.replicate 8 0) rfl ⟨0, 0, 0, 0⟩ 127 140 9 (by decide)
  (by decide)

/-! ## The observe example -/

example := observe_second_overlooked hostObserve (by decide) ⟨3, [104]⟩ [0] [⟨11, [111]⟩] rfl (by decide) (by decide) _ hostObserve_opts
  Dec.zero rfl (List.replicate 8 0) rfl ⟨0, 0, 0, 0⟩ 127 5 140 9 (⟨[], 0⟩ : Registrar Nat) 3 (by decide) (by decide) (by decide) (by decide)
example := observe_end_registers endObserve (by decide) [1] ⟨11, [111]⟩ [] rfl (by decide) _ endObserve_opts
  Dec.zero rfl (List.replicate 8 0) rfl ⟨0, 0, 0, 0⟩ 127 5 140 9 (⟨[], 0⟩ : Registrar Nat) 3 (by decide) (by decide) (by decide) (by decide)
example := observe_place endObserve (by decide) [] [⟨11, [111]⟩] [1] rfl (by decide) (by decide) _ endObserve_opts
  Dec.zero rfl (List.replicate 8 0) rfl ⟨0, 0, 0, 0⟩ 127 5 140 9 (⟨[], 0⟩ : Registrar Nat) 3 (by decide) (by decide) (by decide) (by decide)
example := observe_place_right_iff hostObserve (by decide) [⟨3, [104]⟩] [⟨11, [111]⟩] [0] rfl (by decide) (by decide) _ hostObserve_opts
  Dec.zero rfl (List.replicate 8 0) rfl ⟨0, 0, 0, 0⟩ 127 5 140 9 (⟨[], 0⟩ : Registrar Nat) 3 (by decide) (by decide) (by decide) (by decide)
example := observe_answered_partial endObserve (by decide) _ endObserve_opts Dec.zero rfl (.inr (.inl (by decide))) (List.replicate 8 0) rfl
  ⟨0, 0, 0, 0⟩ 127 5 140 9 (⟨[], 0⟩ : Registrar Nat) 3 (by decide) (by decide) (by decide) (by decide)

/-! ## The discovery example -/

example := (discovery_place_iff getListed (by decide) [⟨3, [104]⟩, ⟨7, [1]⟩] [] [108] (by decide) rfl (by decide) (by decide) _ listed_opts
  Dec.zero rfl (List.replicate 8 0) rfl ⟨0, 0, 0, 0⟩ listedTable listed_ordered (by decide) _ _ 5 (by decide) listed_denotes _ listed_text
  300 9 (by decide) (by decide)).2 rfl
example := discovery_never_listed getCore (by decide) (by decide) (by decide) _ core_opts Dec.zero rfl (List.replicate 8 0) rfl ⟨0, 0, 0, 0⟩
  discoverPaths discover_ordered _ _ 5 (by decide) (by decide) discover_denotes _ discover_text 300 9 discover_fits (by decide)
example := discovery_path_first_refused getCore (by decide) _ _ rfl rfl _ core_opts Dec.zero rfl (List.replicate 8 0) rfl ⟨0, 0, 0, 0⟩
  discoverPaths (by decide) _ _ 5 (by decide) _ discover_text 300 9 discover_fits (by decide)
example := discovery_others_malformed getCore (by decide) _ core_opts Dec.zero rfl (.inl (by decide)) (List.replicate 8 0) rfl ⟨0, 0, 0, 0⟩
  discoverPaths _ _ 5 (by decide) _ discover_text 300 9 discover_fits (by decide) (by decide +kernel)
example := discovery_room getListed (by decide) _ listed_opts Dec.zero rfl (.inl (by decide)) (List.replicate 8 0) rfl ⟨0, 0, 0, 0⟩
  listedTable _ _ 5 (by decide) _ listed_text 9 9 (by decide) (by decide) (by decide +kernel)
example := discovery_answered_partial getListed (by decide) _ listed_opts Dec.zero rfl (.inl (by decide)) (List.replicate 8 0) rfl ⟨0, 0, 0, 0⟩
  listedTable _ _ 5 (by decide) _ listed_text 300 9 (by decide) (by decide)

/-! ## The version resource -/

example := version_answered (m := serverSample) (by decide) (text := [0x31, 0x2E, 0x30]) (by decide) (cap := 64) (by decide) uriSample_ordered
  (by decide) sample_denotes Dec.zero rfl (List.replicate 8 0) rfl [0, 0, 0, 0] 300 (by decide)
example := version_any_method (m := serverSample) (by decide) 4 2 (by decide) (by decide) (text := [0x31, 0x2E, 0x30]) (cap := 64)
  uriSample_ordered (by decide) sample_denotes Dec.zero rfl (List.replicate 8 0) rfl [0, 0, 0, 0] 300 (by decide)
example := (stream_version_partial ⟨false, true⟩ (m := serverSample) (by decide) (by decide) (text := [0x31, 0x2E, 0x30]) (cap := 64) (by decide)
  uriSample_ordered (id := 4) (by decide) Dec.zero rfl (.inr (.inl (by decide))) (by decide) (List.replicate 8 0) rfl [0, 0, 0, 0] 300
  (by decide)).1 sample_denotes

/-! ## Blocks -/

/-- A body of three blocks of sixteen bytes, the last one shorter. -/
def blockBody : List UInt8 := List.replicate 40 0x61

example := block_sent_partial 1 0 1 7 [1, 2] [⟨11, [97]⟩] [⟨60, [40]⟩] 23 ⟨0x42, 1, 0, 7⟩ (by decide) (by decide) (by decide) (by decide) (by decide)
  0 (by decide) blockBody (by decide) 2 (by decide) (by decide) (by decide) [0, 0, 0, 0] (by decide) 100 (by decide)
example := block_transfer_partial 1 0 1 7 [1, 2] [⟨11, [97]⟩] [⟨60, [40]⟩] 23 ⟨0x42, 1, 0, 7⟩ (by decide) (by decide) (by decide) (by decide)
  (by decide) 0 (by decide) blockBody (by decide) 100 (by decide) [(2, Dec.zero, [0, 0, 0, 0]), (1, Dec.zero, [0, 0, 0, 0])] (by decide)
example := block_received_iff ⟨1, 0, 1, 7, [1, 2], [⟨11, [97]⟩, ⟨23, [0x28]⟩], some [1, 2, 3]⟩ (by decide) _ (isOpts_encOpts 0 _ (by decide))
  [⟨11, [97]⟩] [] 23 [0x28] [1, 2, 3] rfl (by decide) rfl 2 0 true (by decide) (by decide) (by decide) Dec.zero rfl

/-! ## Routing -/

example := unregistered_path_served false [118, 49] [118] 3 (by simp [Props.Plain]) (by decide) (by decide) (.inr (by decide))
  ⟨1, 0, 1, 7, [], [⟨11, [118]⟩], none⟩ (by decide) (by decide) [] rfl _ (isOpts_encOpts 0 _ (by decide)) Dec.zero rfl

end Verif.Conformance
