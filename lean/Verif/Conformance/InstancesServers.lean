import Verif.Conformance.InstancesExamples
import Verif.Props.NetworkMany
import Verif.Props.EchoAnyCuts
import Verif.Props.ServerStream
import Verif.Props.ObserveHandlerAny

/-!
# The theorems with many hypotheses, applied: echo servers, the observe handler, a client and a server

As `Conformance/Instances`.
-/
namespace Verif.Conformance
open Verif.Model Verif.Model.Retry Verif.Spec Verif.Spec.Retry Verif.Proofs Verif.Props Dec ObserveHandler

/-! ## Echo servers -/

example := echo_bytes_partial ⟨true, true⟩ ⟨0x42, 1, 0x12, 0x34⟩ [7, 8] [0xB1, 0x61] rfl (by decide) (by decide) (.inr (.inl (by decide))) 32
  Dec.zero rfl [0x42, 1, 0x12] [[0x34, 7], [8, 0xB1, 0x61]] rfl
example := echo_message_partial ⟨true, true⟩ splitSample (by decide) _ (isOpts_encOpts 0 _ (by decide)) (by decide) (.inr (.inl (by decide))) 32
  (by decide) Dec.zero rfl [] [wire splitSample (encOpts 0 splitSample.opts)] (by simp)
example := echo_never_rests (m := ⟨1, 2, 0x43, 7, [1], [], none⟩) (by decide) (by decide) rfl rfl rfl rfl (fun _ => ⟨true, true⟩)
  (fun _ => Dec.zero) (fun _ => rfl) 9
example := echo_subject_partial ⟨false, true⟩ serverSample (by decide) (by decide) Dec.zero rfl (.inr (.inl (by decide))) (by decide) 64 (by decide)
  uriSample (List.replicate 8 0) rfl [] [encMsg serverSample] (by simp)
example := echo_subject_answers_acks ⟨true, true⟩ ⟨1, 2, 0x43, 7, [1], [], none⟩ (by decide) Dec.zero rfl (.inr (by decide)) (by decide) rfl rfl rfl rfl
  64 (by decide) uriSample (List.replicate 8 0) rfl
example := boilerplate_partial ⟨false, true⟩ serverSample (by decide) (by decide) Dec.zero rfl (.inr (.inl (by decide))) (by decide) [0x31] 64
  (by decide) uriSample_ordered (id := 4) (by decide) (List.replicate 8 0) rfl [0, 0, 0, 0]
example := boilerplate_segments_partial ⟨false, true⟩ serverSample (by decide) (by decide) _ (isOpts_encOpts 0 _ (by decide)) Dec.zero rfl
  (.inr (.inl (by decide))) (by decide) [0x31] 64 (by decide) uriSample_ordered (id := 4) (by decide) (List.replicate 8 0) rfl [0, 0, 0, 0]
  ((wire serverSample (encOpts 0 serverSample.opts)).take 9) [(wire serverSample (encOpts 0 serverSample.opts)).drop 9] (by decide +kernel)
example := boilerplate_any_segments_partial ⟨true, true⟩ [0x40, 1, 0, 7, 0xB2, 0x76] [[0x77, 0x1F, 0, 0xFF, 1]] _ rfl (by unfold HasToken; decide) (by decide)
  (.inr (by decide +kernel)) Dec.zero rfl (.inr (by decide)) [0x31] 64 (by decide) uriSample_ordered (id := 4) (by decide) (List.replicate 8 0) rfl
  [0, 0, 0, 0]

/-! ## The observe handler -/

/-- `GET /a` with Observe 0 and a payload, for which the handler registers. -/
def askObserve : Msg := ⟨1, 0, 1, 7, [0xAA], [⟨6, [0]⟩, ⟨11, [0x61]⟩], some [1]⟩
theorem askObserve_opts : IsOpts 0 askObserve.opts (encOpts 0 askObserve.opts) := isOpts_encOpts 0 _ (by decide)

example := observe_handler_registers_partial askObserve (by decide) _ askObserve_opts Dec.zero rfl (by decide) [0xAA] .currently (by decide)
  [[0xBB]] (by decide) (.inl (by decide))
example := observe_handler_stays_awake askObserve ⟨1, 0, 1, 8, [0xBB], [⟨11, [0x61]⟩], some [1]⟩ (by decide) (by decide) _ _ askObserve_opts
  (isOpts_encOpts 0 _ (by decide)) Dec.zero Dec.zero rfl rfl (by decide) (by decide) [0xAA] [0xBB] .currently [] (by decide) (by decide)
example := observe_handler_empty_unseen ⟨1, 0, 1, 7, [0xAA], [⟨6, []⟩, ⟨11, [0x61]⟩], some [1]⟩ (by decide) _ (isOpts_encOpts 0 _ (by decide))
  Dec.zero rfl (by decide) [0xAA] ⟨.currently, true, []⟩ (by decide) (by decide)
example := observe_handler_get_ignored getTestHost (by decide) _ testHost_opts Dec.zero rfl rfl [[]]
  (wire getTestHost (encOpts 0 getTestHost.opts)) (by simp) (by decide) [0xAA] ⟨.currently, true, []⟩

/-- The same with the value 512 of Observe. -/
def askObserve512 : Msg := ⟨1, 0, 1, 7, [0xAA], [⟨6, [2, 0]⟩, ⟨11, [0x61]⟩], some [1]⟩

theorem header62 : HdrOf [0x62] 6 2 := ⟨0x62, [], [], rfl, by decide, fun _ => ⟨6, rfl, rfl⟩, fun _ => ⟨2, rfl, rfl⟩⟩
theorem header51 : HdrOf [0x51] 5 1 := ⟨0x51, [], [], rfl, by decide, fun _ => ⟨5, rfl, rfl⟩, fun _ => ⟨1, rfl, rfl⟩⟩
theorem path_a : IsOpts 6 [⟨11, [0x61]⟩] [0x51, 0x61] :=
  IsOpts.cons (prev := 6) (o := ⟨11, [0x61]⟩) (by decide) (by decide) (by decide) header51 .nil

example := observe_handler_cut_value askObserve512 (by decide) [] [⟨11, [0x61]⟩] [] [] 2 0 rfl [] [0x62] [0x51, 0x61] .nil (by decide) (by decide)
  header62 path_a (by decide) (by decide) Dec.zero rfl [0xAA] .currently []
example := observe_handler_cut_wrong askObserve512 (by decide) [] [⟨11, [0x61]⟩] 2 0 (by decide) (by decide) rfl [] [0x62] [0x51, 0x61] .nil (by decide)
  header62 (IsOpts.cons (prev := 0) (o := ⟨6, [2, 0]⟩) (by decide) (by decide) (by decide) header62 path_a) path_a (by decide) (by decide) Dec.zero rfl [0xAA] .currently []
example := legacy_cut_value askObserve512 (by decide) [] [⟨11, [0x61]⟩] 6 [2] [0] (by decide) (by decide) rfl [] [0x62] [0x51, 0x61] .nil (by decide)
  (by decide) (by decide) header62 path_a Dec.zero rfl

/-! ## A client and a server -/

theorem some_getD {α : Type} {o : Option α} (h : o.isSome = true) (d : α) : o = some (o.getD d) := by cases o <;> simp_all

theorem askX_encoded : Encodes askX (encMsg askX) := ⟨by decide, _, isOpts_encOpts 0 _ (by decide), by decide⟩

theorem netExample_ok : NetCfgOk netExample :=
  ⟨parentsFirst_cons (by decide) (by decide) parentsFirst_nil, by decide, by decide, rfl⟩

theorem askX_answer : AnswerTo netExample.paths netExample.node netExample.text askX (textReply askX [118]) :=
  Or.inl ⟨.step ⟨[], [], rfl, rfl, rfl, by simp⟩ (.here _), rfl⟩

/-- The request is sent; it is lost and sent again, and the copy is served; the answer arrives; the service is called. -/
def net1 : NetSt Nat := ((netStep netExample netInit (.request 100 2500 (encMsg askX))).getD (netInit, [])).1
def netMid : List NetEv := [.service 3000, .serverGets 1 Dec.zero (List.replicate 8 0) []]
def net2 : NetSt Nat := ((netRun netExample net1 netMid).getD (netInit, [])).1
def net3 : NetSt Nat := ((netStep netExample net2 (.clientGets 0 Dec.zero)).getD (netInit, [])).1

example := answered_not_repeated netExample_ok rfl [] netMid [.service 30000, .service 100000] netInit net1 net2 net3 _ [] _ _ _ _ 100 2500
  (encMsg askX) askX (textReply askX [118]) 0 Dec.zero
  (by
    intro e he
    simp only [netMid, List.nil_append, List.mem_cons, List.not_mem_nil, or_false] at he
    rcases he with rfl | rfl
    · trivial
    · exact ⟨rfl, rfl⟩)
  askX_encoded rfl (by simp [netMid]) rfl (some_getD (by decide +kernel) (netInit, [])) (some_getD (by decide +kernel) (netInit, [])) askX_answer
  (by decide +kernel) (some_getD (by decide +kernel) (netInit, [])) (some_getD (by decide +kernel) (netInit, []))

/-- Ten calls of the service at one time. -/
def tenServices (t : Nat) : List NetEv := List.replicate 10 (.service t)
theorem tenServices_from {t d m : Nat} (h1 : d ≤ t) (h2 : t ≤ m) : ∀ e ∈ tenServices t, NFrom d e ∧ NUntil m e := by
  intro e he
  rw [(List.mem_replicate.1 he).2]
  exact ⟨h1, h2⟩
def netA : NetSt Nat := ((netRun netExample net1 (tenServices 3000)).getD (netInit, [])).1
def netB : NetSt Nat := ((netRun netExample netA (tenServices 20000)).getD (netInit, [])).1

example := unanswered_repeated netExample_ok [] (tenServices 3000) (tenServices 20000) (tenServices 40000) netInit net1 netA netB _ [] _ _ _ _ 100 2500
  (encMsg askX) askX askX_encoded rfl (by decide) rfl (by simp) (some_getD (by decide +kernel) (netInit, [])) 3000 20000 40000
  (some_getD (by decide +kernel) (netInit, [])) (tenServices_from (by decide) (by decide)) (by decide)
  (some_getD (by decide +kernel) (netInit, [])) (tenServices_from (by decide) (by decide)) (by decide)
  (some_getD (by decide +kernel) (netInit, [])) (tenServices_from (by decide) (by decide)) (by decide)
  (by simp [tenServices])

/-- Two clients send the same request; the one of the second client is served. -/
def many0 : ManySt Nat Nat := ((manyRun netExample manyInit [.request 7 100 2500 (encMsg askX)]).getD (manyInit, [])).1
def many1 : ManySt Nat Nat := ((manyStep netExample many0 (.request 8 200 2000 (encMsg askX))).getD (manyInit, [])).1
def manyMid : List (ManyEv Nat) := [.serverGets 1 Dec.zero (List.replicate 8 0) []]
def many2 : ManySt Nat Nat := ((manyRun netExample many1 manyMid).getD (manyInit, [])).1
def many3 : ManySt Nat Nat := ((manyStep netExample many2 (.clientGets 0 Dec.zero)).getD (manyInit, [])).1

example := many_answer_reaches netExample_ok many1 1 8 askX (textReply askX [118]) (encMsg askX) askX_encoded (by decide +kernel) askX_answer
  Dec.zero Dec.zero rfl rfl (List.replicate 8 0) [] rfl (by decide)
example := many_answered_not_repeated netExample_ok rfl 8 [.request 7 100 2500 (encMsg askX)] manyMid [.service 7 3000, .service 8 3000] many0 many1
  many2 many3 _ _ _ _ _ _ 200 2000 (encMsg askX) askX (textReply askX [118]) 0 Dec.zero
  (by
    intro e he
    simp only [manyMid, List.cons_append, List.nil_append, List.mem_cons, List.not_mem_nil, or_false] at he
    rcases he with rfl | rfl
    · exact ⟨askX, askX_encoded, by decide⟩
    · exact ⟨rfl, rfl⟩)
  askX_encoded rfl (by simp [manyMid]) (some_getD (by decide +kernel) (manyInit, [])) (some_getD (by decide +kernel) (manyInit, []))
  (some_getD (by decide +kernel) (manyInit, [])) askX_answer (by decide +kernel) (some_getD (by decide +kernel) (manyInit, []))
  (some_getD (by decide +kernel) (manyInit, []))

/-! ## Servers and any datagram -/

example := any_datagram_version_partial [0x40, 1, 0, 7, 0xB1, 0x61, 0x1F] (by unfold HasToken; decide) (text := [0x31]) (cap := 64) (by decide) uriSample_ordered
  (id := 4) (by decide) Dec.zero rfl (List.replicate 8 0) rfl [0, 0, 0, 0] 70000 (by decide)
example := version_answers_replies [0x61, 0x84, 0, 7, 9] (by unfold HasToken; decide) (cap := 64) (by decide) uriSample (id := 4) (by decide) [0x31] [0, 0, 0, 0]
  Dec.zero rfl (List.replicate 8 0) rfl 70000 (by decide +kernel) (by decide)
example := stream_answer_wrong_id ⟨true, true⟩ rfl 0x40 1 2 4 [0xB1, 0x61] rfl (by decide) (by decide) (by decide) (.inr (by decide +kernel)) (cap := 64)
  (by decide) (paths := []) none_first (nothing_denoted _ (by decide +kernel)) Dec.zero rfl (List.replicate 8 0) rfl
example := auto_replies_breed_any [0x41, 1, 0, 7, 9, 0xB1, 0x61] (by unfold HasToken; decide) (fun _ => []) 5 none_first (nothing_denoted _ (by decide +kernel))
  (fun _ => 64) (fun _ => by decide) (fun _ => Dec.zero) (fun _ => rfl) (fun _ => List.replicate 8 0) (fun _ => rfl) (fun _ => 70000)
  (fun _ => by decide)
example := text_replies_breed (encMsg serverSample) (by unfold HasToken; decide) (fun _ => uriSample) 5 uriSample_ordered (fun _ => 4) (fun _ => by decide)
  (by have h : pathIn (encMsg serverSample) = uriPath serverSample := by decide +kernel
      rw [h]; exact sample_denotes) (fun _ => 64) (fun _ => [0x31]) (fun _ => by decide) (fun _ => Dec.zero) (fun _ => rfl) (fun _ => List.replicate 8 0)
  (fun _ => rfl) (fun _ => [0, 0, 0, 0]) (fun _ => 70000) (fun _ => by decide)
example := version_only_there (m := serverSample) (by decide) (text := [0x31]) (cap := 64) (by decide) none_first (id := 4) (by decide) Dec.zero rfl
  (List.replicate 8 0) rfl [0, 0, 0, 0] 300 (by decide)
example := (version_cut_or_bare (m := serverSample) (by decide) (text := [0x31]) (cap := 5) uriSample_ordered (by decide) sample_denotes Dec.zero rfl
  (List.replicate 8 0) rfl [0, 0, 0, 0] 300 (by decide)).1 (by decide)
example := stream_cut_answered (k := ⟨false, false⟩) rfl rfl [0x42, 1, 0, 7, 9] (by decide) (by decide) (by decide) (cap := 64) (by decide)
  uriSample_ordered (List.replicate 8 0) rfl Dec.zero rfl 70000 (by decide)

end Verif.Conformance
