import Verif.Props.Retry
import Verif.Props.Exchange
import Verif.Props.ExchangeIff
import Verif.Props.Observable
import Verif.Props.BreedAny

/-!
# The theorems with many hypotheses, applied: retransmission, exchanges, servers, observers

As `Conformance/Instances`.
-/
namespace Verif.Conformance
open Verif.Model Verif.Model.Retry Verif.Spec Verif.Spec.Retry Verif.Proofs Verif.Props

/-- The queue of the sample runs, after sending and after one and two retransmissions. -/
def rq1 : Retry.St Nat := ⟨[⟨0, 1, 7, [5], 2500, 0, 2600⟩], 1⟩
def rq2 : Retry.St Nat := ⟨[⟨0, 1, 7, [5], 2500, 1, 8000⟩], 1⟩
def rq3 : Retry.St Nat := ⟨[⟨0, 1, 7, [5], 2500, 2, 30000⟩], 1⟩

/-- Ten calls at one time. -/
def tenCalls (t : Nat) : List (Retry.Ev Nat) := List.replicate 10 (.service t)

theorem tenCalls_from {t D M : Nat} (h1 : D ≤ t) (h2 : t ≤ M) : ∀ e ∈ tenCalls t, From D e ∧ Until M e := by
  intro e he
  rw [(List.mem_replicate.1 he).2]
  exact ⟨h1, h2⟩

example : (sendsOf 0 ([.queued 100 0 2500 1] ++ [.sent 3000 0 1] ++ [.sent 20000 0 1] ++ [Out.sent 40000 0 1])).length = 3 :=
  unacked_sent_three_times sortedPQ (fun a b : Nat => a == b) [.sent 100 2500 1 conHdr [5]] (tenCalls 3000) (tenCalls 20000) (tenCalls 40000)
    rq1 rq2 rq3 ⟨[], 1⟩ [.queued 100 0 2500 1] [.sent 3000 0 1] [.sent 20000 0 1] [.sent 40000 0 1] rfl (by simp) 100 0 2500 1 (by simp) 2600 3000 20000 40000 (by simp [rq1])
    rfl (tenCalls_from (by decide) (by decide)) (by decide) rfl (tenCalls_from (by decide) (by decide)) (by decide)
    rfl (tenCalls_from (by decide) (by decide)) (by decide) (by simp)

example := confirmable_sent_three_times sortedPQ (fun a b : Nat => a == b) [] (tenCalls 3000) (tenCalls 20000) (tenCalls 40000)
    rq1 rq2 rq3 ⟨[], 1⟩ [.queued 100 0 2500 1] [.sent 3000 0 1] [.sent 20000 0 1] [.sent 40000 0 1] 100 2500 1 conHdr [5] (by decide) rfl
    (by simp) 2600 3000 20000 40000 (by simp [rq1])
    rfl (tenCalls_from (by decide) (by decide)) (by decide) rfl (tenCalls_from (by decide) (by decide)) (by decide)
    rfl (tenCalls_from (by decide) (by decide)) (by decide)

example := no_starvation sortedPQ (fun a b : Nat => a == b) [.sent 100 2500 1 conHdr [5]] (tenCalls 3000) rq1 rq2 [.queued 100 0 2500 1]
    [.sent 3000 0 1] rfl (by simp) ⟨0, 1, 7, [5], 2500, 0, 2600⟩ (by simp [rq1]) (fun e he => (tenCalls_from (M := 3000) (by decide) (by decide) e he).1)
    (by decide) rfl

/-- What was sent before, in the exchange below. -/
def otherX : Msg := ⟨1, 0, 1, 6, [5], [], none⟩

def ex1 : Retry.St Nat := ⟨[⟨0, 1, 6, [5], 4000, 0, 4050⟩], 1⟩
def ex2 : Retry.St Nat := ⟨[⟨1, 1, 7, [5], 2500, 0, 2600⟩, ⟨0, 1, 6, [5], 4000, 0, 4050⟩], 2⟩
def ex3 : Retry.St Nat := ⟨[⟨0, 1, 6, [5], 4000, 0, 4050⟩, ⟨1, 1, 7, [5], 2500, 1, 8000⟩], 2⟩

theorem otherX_other (same : Nat → Nat → Bool) (x : Nat) : ∀ t r a b,
    WEv.sent t r a b ∈ [WEv.sent 50 4000 1 (encMsg otherX)] ++ [.service 3000] → ∃ m' ob', m'.Ok ∧ b = wire m' ob' ∧
      (m'.type = 0 → m'.mid = askX.mid → m'.token = askX.token → same x a = false) := by
  intro t r a b h
  simp at h
  exact ⟨otherX, [], by decide, by rw [h.2.2.2]; decide, fun _ h => absurd h (by decide)⟩

example := response_stops_retransmission sortedPQ (fun a b : Nat => a == b) Dec.zero rfl askX (by decide) (by decide) (encOpts 0 askX.opts)
  100 2500 1 1 [.sent 50 4000 1 (encMsg otherX)] [.service 3000] ex1 ex2 ex3 [.queued 50 0 4000 1] [.queued 100 1 2500 1] [.sent 3000 1 1]
  rfl rfl rfl (otherX_other _ 1) tellX (by decide) (by decide) (by decide) (by decide) (encOpts 0 tellX.opts) rfl

example := answer_ends_iff sortedPQ (fun a b : Nat => a == b) Dec.zero rfl askX (by decide) (by decide) (encOpts 0 askX.opts)
  100 2500 1 1 [.sent 50 4000 1 (encMsg otherX)] [.service 3000] ex1 ex2 ex3 ⟨[⟨0, 1, 6, [5], 4000, 0, 4050⟩], 2⟩ [.queued 50 0 4000 1] [.queued 100 1 2500 1] [.sent 3000 1 1]
  [.acked 1] rfl rfl rfl (otherX_other _ 1) (by intro a b h; simp at h) 1 rfl (by decide) tellX (by decide) (encOpts 0 tellX.opts) rfl

example := own_reply_stops_retransmission sortedPQ (fun a b : Nat => a == b) Dec.zero rfl askX (by decide) (by decide)
  100 2500 1 [.sent 50 4000 1 (encMsg otherX)] [.service 3000] ex1 ex2 ex3 [.queued 50 0 4000 1] [.queued 100 1 2500 1] [.sent 3000 1 1]
  rfl rfl rfl (otherX_other _ 1) rfl 64 (by decide) [] (by intro pre e post h; simp at h)
  (by
    intro q _ h
    cases h with
    | step hf _ => obtain ⟨pre, post, h, -⟩ := hf; simp at h)
  Dec.zero rfl (List.replicate 8 0) rfl 300 (by decide)

example := only_matching_ack_stops sortedPQ (fun a b : Nat => a == b) Dec.zero rfl askX (by decide) (by decide) (encOpts 0 askX.opts)
  100 2500 1 [] [.recv 1 (wire tellX (encOpts 0 tellX.opts))] Retry.init rq1 ⟨[], 1⟩ [] [.queued 100 0 2500 1] [.acked 0]
  rfl rfl rfl (by intro a b h; simp at h; exact ⟨tellX, _, by decide, h.2⟩) 0 rfl (by simp)

/-- An empty acknowledgement and a reset. -/
def emptyAnswers : List (WEv Nat) := [.recv 1 (encMsg ⟨1, 2, 0, 7, [], [], none⟩), .recv 1 (encMsg ⟨1, 3, 0, 7, [], [], none⟩)]

def answersThenCalls (t : Nat) : List (WEv Nat) := emptyAnswers ++ List.replicate 10 (.service t)

theorem answersThenCalls_from {t D M : Nat} (h1 : D ≤ t) (h2 : t ≤ M) : ∀ e ∈ answersThenCalls t, WFrom D e ∧ WUntil M e := by
  intro e he
  rcases List.mem_append.mp he with he | he
  · simp [emptyAnswers] at he
    rcases he with rfl | rfl <;> exact ⟨trivial, trivial⟩
  · rw [(List.mem_replicate.1 he).2]
    exact ⟨h1, h2⟩

example := empty_ack_ignored_partial sortedPQ (fun a b : Nat => a == b) Dec.zero rfl askX (by decide) (by decide) (by decide) (encOpts 0 askX.opts)
  100 2500 1 (by decide) [] (answersThenCalls 3000) (answersThenCalls 20000) (answersThenCalls 40000) Retry.init rq1 rq2 rq3 ⟨[], 1⟩
  [] [.queued 100 0 2500 1] [.sent 3000 0 1] [.sent 20000 0 1] [.sent 40000 0 1] rfl (by simp) rfl 3000 20000 40000
  rfl (answersThenCalls_from (by decide) (by decide)) (by decide) rfl (answersThenCalls_from (by decide) (by decide)) (by decide)
  rfl (answersThenCalls_from (by decide) (by decide)) (by decide)
  (by
    intro a b h
    simp [answersThenCalls, emptyAnswers] at h
    exact ⟨1, 7, by decide, by decide, by grind⟩)


example := deregistration_ignored (A := Nat) 4 30 50 [0, 0, 0, 0] (fun _ e => e) (by decide) (by decide) (by decide)
  [.observe 7 [0xAA] 0, .observe 7 [0xAA] 1] [] 7 [0xAA] (by simp) ⟨by decide, by decide, by decide⟩
example := unregistered_silent_partial (A := Nat) 4 30 50 [0, 0, 0, 0] (fun _ e => e) (by decide) (by decide) (by decide)
  [.observe 7 [0xAA] 0, .observe 9 [0xAA] 1] [] 9 (by simp) ⟨by decide, by decide, by decide⟩

theorem nothing_denoted (p : List (List Char)) (hp : p ≠ []) : ∀ q, q ≠ -1 → ¬Denotes [] (-1) p q := by
  intro q _ h
  cases h with
  | here => exact hp rfl
  | step hf _ => obtain ⟨pre, post, h, -⟩ := hf; simp at h

theorem none_first : ParentsFirst [] := by intro pre e post h; simp at h

/-- The path of the sample request leads to a node of the sample table. -/
theorem sample_denotes : Denotes uriSample (-1) (uriPath serverSample) 4 :=
  .step (e := ⟨"v1".toList, 3, -1⟩) ⟨uriSample.take 3, uriSample.drop 4, rfl, rfl, rfl, by decide⟩ <|
  .step (e := ⟨"temp".toList, 4, 3⟩) ⟨uriSample.take 4, [], rfl, rfl, rfl, by decide⟩ (.here 4)

example := reply_echoes (SCtx.init [] (List.replicate 8 7)) ⟨0x42, 1, 0x12, 0x34⟩ [1, 2] 20 0x84 rfl (by decide) (by decide) (by decide)
example := unknown_path_404 (m := serverSample) (by decide) (cap := 64) (by decide) none_first (nothing_denoted _ (by decide +kernel))
  Dec.zero rfl (List.replicate 8 0) rfl 300 (by decide)
example := known_path_no_reply (m := serverSample) (by decide) (cap := 64) (by decide) uriSample_ordered (by decide) sample_denotes
  Dec.zero rfl (List.replicate 8 0) rfl 300 (by decide)
example := (stream_404_partial ⟨false, true⟩ (m := serverSample) (by decide) (by decide) (cap := 64) (by decide) uriSample_ordered
  Dec.zero rfl (.inr (.inl (by decide))) (by decide) (List.replicate 8 0) rfl 300 (by decide)).1 4 (by decide) sample_denotes
example := auto_replies_answered (m := replyTo serverSample 0x84) (by decide) rfl rfl rfl rfl (fun _ => uriSample) (fun _ => 64) (fun _ => by decide)
  (fun _ => Dec.zero) (fun _ => rfl) (fun _ => List.replicate 8 0) (fun _ => rfl) (fun _ => 200) (fun _ => by decide) 7
example := auto_replies_breed (m := serverSample) (by decide) (fun _ => []) 5 none_first (nothing_denoted _ (by decide +kernel)) (fun _ => 64)
  (fun _ => by decide) (fun _ => Dec.zero) (fun _ => rfl) (fun _ => List.replicate 8 0) (fun _ => rfl) (fun _ => 400) (fun _ => by decide)

end Verif.Conformance
