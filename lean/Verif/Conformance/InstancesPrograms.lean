import Verif.Props.ObserveProgram
import Verif.Props.NetworkMany
import Verif.Props.RetryLoop
import Verif.Props.DispatchContext
import Verif.Props.EchoAny
import Verif.Props.ServerStream
import Verif.Props.Sockets
import Verif.Props.AggregateMessage

/-!
# The theorems with many hypotheses, applied: whole programs

As `Conformance/Instances`.
-/
namespace Verif.Conformance
open Verif.Model Verif.Model.Retry Verif.Model.Dispatch Verif.Spec Verif.Spec.Retry Verif.Proofs Verif.Props

/-! ## The observe example program -/

theorem first_observe : ObserveFirst observeExample := ⟨[], ⟨11, [120]⟩, [], rfl, by decide, by simp⟩
theorem end_observe : ObserveFirst observeEndExample := ⟨[1], ⟨11, [120]⟩, [], rfl, by decide, by simp⟩

example := observe_again_adds observeCfg observeEvents [] [.loop 1001] [.loop 1500] 5 observeExample observeEndExample first_observe end_observe
  (by simp) (by simp) (by simp) 2002 observe_example_seen observe_example_bounds (by decide)
example := observe_client_partial observeCfg (observeEvents.take 2) [] [.loop 1001] 5 observeExample first_observe (by simp) (by simp)
  ⟨observe_example_seen.1, observe_example_seen.2.1, trivial⟩
  (bounds_prefix (a := [.request 5 observeExample, .loop 1001]) (b := observeSeen.drop 2) observe_example_bounds)
example := observe_program_overflows { observeCfg with regCap := 2 } observeEvents observeSeen observe_example_seen
  ⟨by decide, by decide, by decide, by decide, observe_example_bounds.2.2.2.2⟩ (by decide)
  (.got 6 (encMsg observeExample) Dec.zero (List.replicate 8 0) ⟨0, 0, 0, 0⟩) 6 observeExample first_observe
  ⟨rfl, observe_example_seen.1.2.1, rfl, by decide, rfl⟩

/-! ## A client and a server with a network between them -/

theorem net_example_ok : NetCfgOk netExample := by
  refine ⟨?_, by decide, by decide, rfl⟩
  intro pre e post h x hx
  cases pre with
  | nil =>
    simp only [netExample, List.nil_append, List.cons.injEq] at h
    obtain ⟨rfl, -⟩ := h
    simp only [List.nil_append, List.mem_singleton] at hx
    subst hx; decide
  | cons p pre => simp [netExample] at h

theorem askX_encodes : Encodes askX (encMsg askX) := ⟨by decide, _, isOpts_encOpts 0 _ (by decide), rfl⟩

theorem askX_answer : AnswerTo netExample.paths netExample.node netExample.text askX (textReply askX [118]) :=
  Or.inl ⟨.step ⟨[], [], rfl, rfl, rfl, by simp⟩ (.here _), rfl⟩

/-- The request is on its way. -/
def netAsked : NetSt Nat := { (netInit : NetSt Nat) with up := [encMsg askX] }

example := answer_reaches_partial net_example_ok netAsked 0 askX (textReply askX [118]) (encMsg askX) askX_encodes rfl askX_answer
  Dec.zero Dec.zero (List.replicate 8 0) [] ⟨rfl, rfl⟩ rfl (by decide)
example := copies_answered_again net_example_ok netAsked 0 askX (textReply askX [118]) (encMsg askX) askX_encodes rfl askX_answer
  (by decide) Dec.zero (List.replicate 8 0) [] ⟨rfl, rfl⟩ 1000000

/-! ## The retry loop -/

example := loop_sent_again sortedPQ (fun a b => a == b) (loopHistory.take 4) _ [(0, loopGram), (17001, loopGram)] rfl loopGram rfl (by simp [loopHistory])
  (by intro g hg; simpa [loopHistory] using hg) (by simp [loopHistory, Acknowledges]) rfl
example := loop_sent_after_acknowledgement sortedPQ (fun a b => a == b) (loopHistory.take 5) _ [(0, loopGram), (17001, loopGram)] rfl loopGram rfl
  (by simp [loopHistory]) (by intro g hg; simpa [loopHistory] using hg) (by decide) rfl

/-! ## Dispatching with a context -/

theorem askY_first : FirstSegment askY.opts [0x61] := .later (Or.inl (by decide)) (.here (o := ⟨11, [0x61]⟩) rfl (by decide))

example := chosen_observer_context_gone true [.store, .answer [0x61]] (HCtx.init [1, 2, 3, 4, 5, 6, 7, 8]) rfl askY (by decide) (by decide) _ rfl
  [0x61] askY_first ⟨[0x61], by simp, (startsWithUri_agree true _ _).1 (by decide)⟩ _ (isOpts_encOpts 0 _ (by decide)) Dec.zero rfl
example := unselected_context_fine_partial true [.store] (HCtx.init [1, 2, 3, 4, 5, 6, 7, 8]) rfl askY (by decide) (by decide) _ rfl
  (by rintro seg - ⟨pre, h, -⟩; simp at h) _ (isOpts_encOpts 0 _ (by decide)) Dec.zero rfl

/-! ## Servers behind a stream -/

/-- GET `/a`; the low byte of the message id, 0xFF, is lost where characters are signed. -/
def lostId : List UInt8 := [0x40, 1, 0x12, 0xFF, 0xC0, 0xB1, 0x61]

theorem lostId_closed : endsOpen (behindToken [0x40, 1, 0x12, 0xC0, 0xB1, 0x61]) = false := by
  simp [endsOpen, readExt, behindToken, tokenClaim]
theorem cut_open : endsOpen (behindToken [0x40, 1, 0x12, 0xC0, 0xB2, 0x61]) = true := by
  simp [endsOpen, readExt, behindToken, tokenClaim]
theorem no_parents : ParentsFirst [] := by intro pre e post h; simp at h

example := stream_datagram_served_partial ⟨true, true⟩ lostId [0x40, 1, 0x12, 0xC0, 0xB1, 0x61] (by decide) (by decide) (.inr lostId_closed)
  (cap := 64) (by decide) no_parents Dec.zero rfl (List.replicate 8 0) rfl
example := server_open_end_overreads ⟨true, true⟩ rfl [0x40, 1, 0x12, 0xC0, 0xB2, 0x61] [0x40, 1, 0x12, 0xC0, 0xB2, 0x61] (by decide) (by decide) cut_open
  64 [] 4 [0x31] (List.replicate 8 0) [] Dec.zero rfl
example := echo_subject_any_partial ⟨true, true⟩ lostId [0x40, 1, 0x12, 0xC0, 0xB1, 0x61] (by decide) (by decide) (.inr lostId_closed)
  Dec.zero rfl (.inl (by decide)) 64 (by decide) [] (List.replicate 8 0) rfl [0x40, 1] [[0x12, 0xFF, 0xC0], [], [0xB1, 0x61]] rfl
example := boilerplate_any_partial ⟨true, true⟩ lostId [0x40, 1, 0x12, 0xC0, 0xB1, 0x61] (by decide) (by decide) (.inr lostId_closed)
  Dec.zero rfl [0x31] 64 (by decide) no_parents (id := 4) (by decide) (List.replicate 8 0) rfl [0, 0, 0, 0]
example := echo_subject_answers_iff ⟨true, true⟩ lostId Dec.zero rfl (by decide) 64 (by decide) [] (List.replicate 8 0) rfl lostId [] (by simp)

/-! ## The socket helper and the aggregate -/

example := socket_to_observer_partial (A := Nat) askY (by decide) _ (isOpts_encOpts 0 _ (by decide)) Dec.zero rfl (by decide) 9 (by decide)
  [.enqueue [1] 7, .take, .loop true .quiet] (by
    intro e he
    simp only [List.mem_cons, List.not_mem_nil, or_false] at he
    rcases he with rfl | rfl | rfl <;> simp [Usual]) ⟨.take, by simp, rfl⟩
example := aggregate_together_partial askY (by decide) (by decide) _ (isOpts_encOpts 0 _ (by decide)) Dec.zero rfl
  ([⟨noteNumbers, ()⟩] : List (Living (List UInt8))) (by
    intro w hw
    simp only [List.mem_cons, List.not_mem_nil, or_false] at hw
    subst hw
    exact fun x s t e => rfl) (by
    intro w hw
    simp only [List.mem_cons, List.not_mem_nil, or_false] at hw
    subst hw
    intro x s e he
    cases e <;> simp_all [isHead, noteNumbers]) ⟨[], 0⟩

end Verif.Conformance
