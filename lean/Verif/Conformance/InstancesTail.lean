import Verif.Conformance.InstancesRest
import Verif.Props.EchoCuts
import Verif.Props.Examples
import Verif.Props.Relay
import Verif.Props.LegacyCut
import Verif.Props.ObserveHandler
import Verif.Props.ObserveHandlerIff
import Verif.Props.DiagnosticAny
import Verif.Props.ReadBack
import Verif.Props.Memory
import Verif.Props.Observable

/-!
# The theorems with the most hypotheses, applied

As `Conformance/Instances`.
-/
namespace Verif.Conformance
open Verif.Model Verif.Model.Header Verif.Model.Retry Verif.Model.Pull Verif.Model.Dispatch Verif.Spec Verif.Spec.Retry Verif.Proofs Verif.Proofs.Route Verif.Props Dec

/-! ## Aggregates and routes -/

/-- Two names, the second of which begins the first path segment of `getTwo` and `putTwo`. -/
def abNames : List (List UInt8) := [[0x7A], [0x61]]
theorem abNames_plain : ∀ n ∈ abNames, Props.Plain true n := by simp [abNames, Props.Plain]
theorem abNames_first : FirstPrefix abNames [0x61, 0x62] 1 :=
  ⟨[0x61], rfl, by decide, fun j n' hj h => by
    have : j = 0 := by omega
    subst this
    simp only [abNames, List.getElem?_cons_zero, Option.some.injEq] at h
    subst h
    decide⟩
theorem abNames_served : Served abNames getTwo.opts 1 getTwo.opts :=
  .here ⟨rfl, by decide, [0x61], by decide, by decide⟩ abNames_first

example := aggregate_handler_kept true abNames abNames_plain getTwo getTwo_ok _ getTwo_opts 1 _ abNames_served rfl putTwo putTwo_ok _ putTwo_opts
example := aggregate_second_undefined true abNames abNames_plain putTwo putTwo_ok _ putTwo_opts 1 _ abNames_served (by decide) getTwo getTwo_ok _ getTwo_opts
  (.inr ⟨⟨11, [0x63]⟩, by decide, by decide⟩)
example := aggregate_deeper_segment true [[0x63]] (by simp [Props.Plain]) getTwo getTwo_ok _ getTwo_opts [0x61, 0x62] [0x63] (by decide) 0
  (by decide) ⟨[0x63], rfl, by decide, fun j _ hj => absurd hj (by omega)⟩ rfl

/-- A path segment of `getTwo` in two parts. -/
theorem getTwo_cut : Cut getTwo [] [⟨11, [0x63]⟩] 11 [0x61] [0x62] [] [0xB2] [1, 0x63] where
  ok := getTwo_ok
  opts := rfl
  first := by decide
  second := by decide
  before := .nil
  header := hdrOf_optHeader 11 2 (by decide) (by decide)
  behind := isOpts_encOpts 11 [⟨11, [0x63]⟩] (by decide)

example := aggregate_cut_first_part true abNames abNames_plain getTwo [] _ _ _ _ _ _ getTwo_cut (by simp) 1
  ⟨[0x61], rfl, by decide, fun j n' hj h => by
    have : j = 0 := by omega
    subst this
    simp only [abNames, List.getElem?_cons_zero, Option.some.injEq] at h
    subst h
    decide⟩ usedDec rfl
example := aggregate_cut_second_part true [[0x62]] (by simp [Props.Plain]) getTwo [] _ _ _ _ _ _ getTwo_cut (by simp) (by decide) 0
  ⟨[0x62], rfl, by decide, fun j _ hj => absurd hj (by omega)⟩ usedDec rfl
example := registered_path_reached_partial true [.node [0x61, 0x62] [.leaf [0x63] 4], .leaf [0x7A] 5]
  (.mk (by simp [Route.pre, Props.Plain]) (by simp [Route.pre]) (by
    intro name below h
    simp only [List.mem_cons, Route.node.injEq, reduceCtorEq, List.not_mem_nil, or_false] at h
    obtain ⟨-, rfl⟩ := h
    exact .mk (by simp [Route.pre, Props.Plain]) (by simp) (by simp)))
  putTwo putTwo_ok (by decide) 4 [] (.node (below := [.leaf [0x63] 4]) rfl rfl (by simp) (.leaf rfl rfl (by simp))) _ putTwo_opts usedDec rfl

/-! ## Programs -/

example := boilerplate_payload_cut_partial ⟨true, true⟩ putTwo (by decide +kernel) putTwo_ok _ putTwo_opts usedDec rfl (.inr (.inl (by decide)))
  (by decide +kernel) [0x76] 64 (by decide) (paths := twoNames) (parentsFirst_cons (by decide) (by decide) <| parentsFirst_cons (by decide) (by decide) parentsFirst_nil)
  (id := 2) (by decide) (List.replicate 8 0) rfl [] ((encMsg putTwo).take 13) [(encMsg putTwo).drop 13] (by decide +kernel) (by decide +kernel)
example := observe_answer_malformed (A := Nat) ⟨1, 0, 1, 0x0102, [7, 8], [⟨6, []⟩, ⟨11, [0x61]⟩], none⟩ (by decide) [] [0x61] rfl _
  (isOpts_encOpts 0 _ (by decide)) usedDec rfl (List.replicate 8 0xEE) rfl ⟨1, 2, 3, 4⟩ 64 4 100 5 ⟨[], 0⟩ 3 (by decide) (by decide) (by decide)
example := path_empty_malformed ⟨1, 0, 1, 0x0102, [7, 8], [⟨12, [40]⟩], none⟩ (by decide) (by decide) _ (isOpts_encOpts 0 _ (by decide)) usedDec rfl
  (.inr (.inl (by decide))) (List.replicate 8 0xEE) rfl ⟨1, 2, 3, 4⟩ 64 100 5 (by decide) (by decide)
example := relay_right_iff_partial putTwo putTwo_ok _ putTwo_opts 64 500 usedDec rfl (by decide +kernel) (encMsg putTwo) (by decide +kernel) (by decide +kernel)
  usedDec rfl (.inr (.inl (by decide)))
example := socket_to_observer_any (A := Nat) usedDec rfl 0x41 1 0 7 [9] [0xB3, 0x61] rfl (by decide) 3 (by decide) [.take] (by simp [Usual])
  ⟨.take, by simp, rfl⟩

/-! ## The observe handler -/

/-- A request to observe, with a payload. -/
def observePut (v : List UInt8) : Msg := ⟨1, 0, 3, 0x0102, [7, 8], [⟨6, v⟩, ⟨11, [0x61]⟩], some [1]⟩
theorem observePut_opts (v : List UInt8) (h : (observePut v).Ok) : IsOpts 0 (observePut v).opts (encOpts 0 (observePut v).opts) :=
  isOpts_encOpts 0 _ h.2.2.2.2.2.1
theorem observePut1 : (observePut [1]).Ok := by decide
theorem observePut0 : (observePut [0]).Ok := by decide
theorem observePutNone : (observePut []).Ok := by decide

example := observe_handler_effect (observePut [1]) observePut1 _ (observePut_opts _ observePut1) usedDec rfl (by decide) [7, 8] ⟨.never, true, [[5]]⟩
example := observe_handler_end_registers (observePut [1]) observePut1 _ (observePut_opts _ observePut1) usedDec rfl (by decide) [7, 8] .currently [[7, 8], [5]] rfl
example := observe_handler_registers_again (observePut [0]) observePut0 _ (observePut_opts _ observePut0) usedDec rfl (by decide) [7, 8] .currently [[7, 8], [5]]
  (by decide) rfl
example := observe_handler_right_iff (observePut []) observePutNone _ (observePut_opts _ observePutNone) usedDec rfl (by decide) [7, 8] .currently [[7, 8], [5]]
  (by decide)

/-! ## Reports, memory, numbers -/

example := reports_tell_apart putTwo putTwo putTwo_ok putTwo_ok _ _ putTwo_opts putTwo_opts usedDec { usedDec with st := .uninitialized } rfl rfl (.inr rfl) (.inl rfl) 500 500
example := diagnostic_any_exact_partial usedDec rfl 0x41 1 0 7 [9] [0xB1, 0x61] rfl (by decide) (.inr (.inl (by decide))) [[0x41, 1, 0]] [7, 9, 0xB1, 0x61]
  (by decide)
example := diagnostic_cut_exact_partial getTwo getTwo_ok _ getTwo_opts usedDec rfl (.inr (.inl (by decide))) [(encMsg getTwo).take 3] ((encMsg getTwo).drop 3)
  (by decide +kernel)
example := diagnostic_long_text ⟨1, 0, 1, 7, [], [⟨11, List.replicate 200 0x61⟩], none⟩ (by decide +kernel) _ (isOpts_encOpts 0 _ (by decide +kernel))
  ⟨11, List.replicate 200 0x61⟩ (by simp) (by decide) (by decide +kernel)
example := ticks_too_slow 10 60 (by decide) (by decide) 1000 [(1050, 1051), (1100, 1101), (1150, 1150)] (by decide) (by decide) ⟨(1150, 1150), by decide, by decide⟩
example := memory_unseen_reuse_partial usedDec usedDec rfl rfl ⟨[0x41, 1], 0, true⟩ [] _ _ rfl rfl
example := reissue_wrong_length putTwo putTwo_ok (encOpts 0 putTwo.opts) usedDec ⟨encMsg putTwo, []⟩ [1, 2, 3] (by decide) (by decide) 64 (by decide) [] 100
  (by decide +kernel) (by decide +kernel)
example := examples_cut_token_leak (A := Nat) [0x44, 1, 0, 7, 9] (by decide) (by decide) (by decide) usedDec rfl (List.replicate 8 0xEE) rfl ⟨1, 2, 3, 4⟩ 64 (by decide)
  64 4 5 ⟨[], 0⟩ 3 [] [] (fun _ => none) 7 (by decide)

end Verif.Conformance
