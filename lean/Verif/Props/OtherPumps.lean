import Verif.Model.OtherPumps
import Verif.Spec.OtherPumps

/-!
# C77: the data pumps over lwIP and over the Arduino's UDP
-/
namespace Verif.Props
open Verif.Model Verif.Spec

theorem lwip_short_tail {A : Type} {e : LwipEv A} {es : List (LwipEv A)} (h : LwipShort (e :: es)) : LwipShort es :=
  fun b a hm => h b a (List.mem_cons_of_mem _ hm)

theorem lwip_tried_gen {A : Type} (es : List (LwipEv A)) : ∀ (s : Lwip A), LwipShort es →
    (s.run es).tried ++ (s.run es).outq.map (fun o => (Lwip.cut o.1, o.2)) = s.tried ++ s.outq.map (fun o => (Lwip.cut o.1, o.2)) ++ lwipAsked es ∧
    (s.run es).taken ++ (s.run es).inq = s.taken ++ s.inq ++ lwipArrived es ∧
    (s.run es).freed + (s.run es).outq.length = s.freed + s.outq.length + (lwipAsked es).length ∧
    (s.outq.length + (lwipAsked es).length - lwipTurns es ≤ (s.run es).outq.length) := by
  induction es with
  | nil => intro s _; simp [Lwip.run, lwipAsked, lwipArrived, lwipTurns]
  | cons e es ih =>
    intro s hs
    obtain ⟨h1, h2, h3, h4⟩ := ih (s.step e) (lwip_short_tail hs)
    rw [Lwip.run]
    refine ⟨h1.trans ?_, h2.trans ?_, h3.trans ?_, ?_⟩
    all_goals
      cases e with
      | loop ok i =>
        cases i <;> cases ho : s.outq <;>
          simp_all [Lwip.step, Lwip.loop, Lwip.transmit, Lwip.receive, lwipAsked, lwipArrived, lwipTurns] <;> omega
      | enqueue b a =>
        have hb := hs b a (by simp)
        simp_all [Lwip.step, Lwip.enqueue, lwipAsked, lwipArrived, lwipTurns, Lwip.cut, Nat.mod_eq_of_lt hb] <;> omega
      | take =>
        cases hi : s.inq <;> simp_all [Lwip.step, Lwip.take, lwipAsked, lwipArrived, lwipTurns]

/-- C77 (order, once).  In every run, what the network was asked to send and what still waits are together what the program queued, in
that order and each once; the same holds for what arrived.  Every buffer that left the queue was deleted exactly once. -/
theorem lwip_in_order_partial {A : Type} (es : List (LwipEv A)) (hs : LwipShort es) :
    (∃ rest, (Lwip.run {} es).tried ++ rest = lwipAsked es ∧ rest.length = (Lwip.run {} es).outq.length) ∧
    (Lwip.run {} es).taken ++ (Lwip.run {} es).inq = lwipArrived es ∧
    (Lwip.run {} es).freed = (Lwip.run {} es).tried.length := by
  obtain ⟨h1, h2, h3, h4⟩ := lwip_tried_gen es {} hs
  have h5 := congrArg List.length h1
  refine ⟨⟨_, by simpa using h1, by simp⟩, by simpa using h2, ?_⟩
  simp at h3 h5
  omega

theorem lwip_sent_gen {A : Type} (es : List (LwipEv A)) : ∀ (s : Lwip A),
    (s.sent.Sublist s.tried → (s.run es).sent.Sublist (s.run es).tried) ∧ (LwipSends es → s.sent = s.tried → (s.run es).sent = (s.run es).tried) := by
  induction es with
  | nil => intro s; simp [Lwip.run]
  | cons e es ih =>
    intro s
    obtain ⟨h1, h2⟩ := ih (s.step e)
    rw [Lwip.run]
    constructor
    · intro h
      apply h1
      cases e with
      | loop ok i =>
        cases ok <;> cases i <;> cases ho : s.outq <;>
          simp_all [Lwip.step, Lwip.loop, Lwip.transmit, Lwip.receive] <;>
          exact h.trans (List.sublist_append_left _ _)
      | enqueue b a => simpa [Lwip.step, Lwip.enqueue] using h
      | take => cases hi : s.inq <;> simpa [Lwip.step, Lwip.take, hi] using h
    · intro hs h
      apply h2 (fun i hm => hs i (List.mem_cons_of_mem _ hm))
      cases e with
      | loop ok i =>
        have hok : ok = true := by
          cases ok
          · exact absurd (List.mem_cons_self ..) (hs i)
          · rfl
        subst hok
        cases i <;> cases ho : s.outq <;> simp_all [Lwip.step, Lwip.loop, Lwip.transmit, Lwip.receive]
      | enqueue b a => simpa [Lwip.step, Lwip.enqueue] using h
      | take => cases hi : s.inq <;> simpa [Lwip.step, Lwip.take, hi] using h

/-- C77 (what leaves).  Nothing leaves that was not queued, nothing twice, nothing out of order; and if no send fails, everything that
left the queue was taken by the network. -/
theorem lwip_sent_partial {A : Type} (es : List (LwipEv A)) (hs : LwipShort es) :
    (Lwip.run {} es).sent.Sublist (lwipAsked es) ∧
    (LwipSends es → ∃ rest, (Lwip.run {} es).sent ++ rest = lwipAsked es ∧ rest.length = (Lwip.run {} es).outq.length) := by
  obtain ⟨⟨rest, h1, h2⟩, -⟩ := lwip_in_order_partial es hs
  obtain ⟨h3, h4⟩ := lwip_sent_gen es {}
  constructor
  · rw [← h1]
    exact (h3 (List.Sublist.refl _)).trans (List.sublist_append_left _ _)
  · intro hn
    rw [h4 hn rfl]
    exact ⟨rest, h1, h2⟩

/-- C77 (drains).  Every call takes one message from the queue, so that as many calls as there are messages empty it. -/
theorem lwip_drains {A : Type} (s : Lwip A) (turns : List (Bool × LwipIn A)) :
    (s.run (turns.map fun t => .loop t.1 t.2)).outq = s.outq.drop turns.length := by
  induction turns generalizing s with
  | nil => simp [Lwip.run]
  | cons t ts ih =>
    rw [List.map_cons, Lwip.run, ih]
    rcases t with ⟨ok, i⟩
    cases i <;> cases ho : s.outq <;> simp [Lwip.step, Lwip.loop, Lwip.transmit, Lwip.receive, ho]

/-- C77 (what arrived).  Taking as often as `n` times brings the first `n` datagrams that wait, in the order of their arrival, and nothing
else changes. -/
theorem lwip_takes {A : Type} (s : Lwip A) (n : Nat) :
    s.run (List.replicate n .take) = { s with inq := s.inq.drop n, taken := s.taken ++ s.inq.take n } := by
  induction n generalizing s with
  | zero => simp [Lwip.run]
  | succ n ih =>
    rw [List.replicate_succ, Lwip.run, ih]
    cases hi : s.inq <;> simp [Lwip.step, Lwip.take, hi]

theorem lwip_run_append {A : Type} (es fs : List (LwipEv A)) : ∀ s : Lwip A, s.run (es ++ fs) = (s.run es).run fs := by
  induction es with
  | nil => intro s; rfl
  | cons e es ih => intro s; exact ih _

/-- C77 (what arrived).  After any run, taking until the queue is empty has brought the program every datagram that arrived, once and in
order. -/
theorem lwip_all_taken {A : Type} (es : List (LwipEv A)) (hs : LwipShort es) (n : Nat) (hn : (lwipArrived es).length ≤ n) :
    (Lwip.run {} (es ++ List.replicate n .take)).taken = lwipArrived es ∧ (Lwip.run {} (es ++ List.replicate n .take)).inq = [] := by
  obtain ⟨-, h2, -⟩ := lwip_in_order_partial es hs
  rw [lwip_run_append, lwip_takes]
  rw [← h2, List.length_append] at hn
  rw [← h2]
  simp only
  rw [List.take_of_length_le (by omega), List.drop_of_length_le (by omega)]
  exact ⟨rfl, rfl⟩

/-- C77 (what does not hold).  A message whose sending fails is lost: whatever follows, it is not among what is sent afterwards, nor does it
wait any more. -/
theorem lwip_send_error_loses {A : Type} (s : Lwip A) (o : LwipBuf × A) (os : List (LwipBuf × A)) (i : LwipIn A) (h : s.outq = o :: os) :
    (s.loop false i).outq = os ∧ (s.loop false i).sent = s.sent ∧ (s.loop false i).freed = s.freed + 1 := by
  cases i <;> simp [Lwip.loop, Lwip.transmit, Lwip.receive, h]

/-- C77 (what does not hold).  A message of 65536 bytes or more leaves cut to its length without the multiples of 65536. -/
theorem lwip_long_cut {A : Type} (s : Lwip A) (b : LwipBuf) (a : A) (os : List (LwipBuf × A)) (h : s.outq = (b, a) :: os) (hl : 65536 ≤ b.written)
    (hr : b.written ≤ b.room.length) (i : LwipIn A) :
    ∃ d, (s.loop true i).sent = s.sent ++ [(d, a)] ∧ d.length = b.written % 65536 ∧ d ≠ b.room.take b.written := by
  refine ⟨Lwip.cut b, ?_, ?_, ?_⟩
  · cases i <;> simp [Lwip.loop, Lwip.transmit, Lwip.receive, h]
  · simp only [Lwip.cut, List.length_take]; omega
  · intro he
    have := congrArg List.length he
    simp only [Lwip.cut, List.length_take] at this
    omega

/-- A run: two messages queued, the first fails to be sent, two datagrams arrive, one is taken. -/
example :
    let es : List (LwipEv Nat) := [.enqueue ⟨[1, 2, 0, 0], 2⟩ 7, .enqueue ⟨[3], 1⟩ 8, .loop false (.datagram [9] 5), .loop true .timeout,
      .loop true (.datagram [] 6), .take]
    LwipShort es ∧ (Lwip.run {} es) = ⟨[([], 6)], [], [([1, 2], 7), ([3], 8)], [([3], 8)], 2, [([9], 5)]⟩ := by
  refine ⟨?_, by decide +kernel⟩
  intro b a h
  simp at h
  rcases h with ⟨rfl, -⟩ | ⟨rfl, -⟩ <;> simp

/-! ### Arduino -/

theorem arduino_gen {A : Type} (es : List (ArduinoEv A)) : ∀ (s : Arduino A),
    (s.run es).inq = s.inq ∧ (∃ l, (s.run es).outq = s.outq ++ l) ∧
    (∀ o os, s.outq = o :: os → ∃ n, (s.run es).sent = s.sent ++ List.replicate n ([], o.2) ∧
      n = (es.filter fun | .loop _ => true | _ => false).length) := by
  induction es with
  | nil => intro s; exact ⟨rfl, ⟨[], by simp [Arduino.run]⟩, fun o os _ => ⟨0, by simp [Arduino.run], rfl⟩⟩
  | cons e es ih =>
    intro s
    cases e with
    | loop i =>
      rw [Arduino.run]
      cases ho : s.outq with
      | nil =>
        have hl : s.loop i = s := by simp [Arduino.loop, ho]
        rw [hl]
        obtain ⟨h1, ⟨l, h2⟩, h3⟩ := ih s
        exact ⟨h1, ⟨l, by rw [h2, ho]⟩, fun o os h => by simp at h⟩
      | cons o os =>
        obtain ⟨h1, ⟨l, h2⟩, h3⟩ := ih (s.loop i)
        have hl : s.loop i = { s with sent := s.sent ++ [([], o.2)] } := by simp [Arduino.loop, ho]
        rw [hl] at h1 h2 h3 ⊢
        refine ⟨h1, ⟨l, by rw [h2, ho]⟩, ?_⟩
        intro o' os' he
        obtain ⟨rfl, rfl⟩ := List.cons.inj he
        obtain ⟨n, h4, h5⟩ := h3 o os ho
        exact ⟨n + 1, by rw [h4, List.replicate_succ]; simp, by simp [h5]⟩
    | enqueue b a =>
      rw [Arduino.run]
      obtain ⟨h1, ⟨l, h2⟩, h3⟩ := ih (s.enqueue b a)
      refine ⟨h1, ⟨(b, a) :: l, by rw [h2]; simp [Arduino.enqueue]⟩, ?_⟩
      intro o os ho
      obtain ⟨n, h4, h5⟩ := h3 o (os ++ [(b, a)]) (by simp [Arduino.enqueue, ho])
      exact ⟨n, by simpa [Arduino.enqueue] using h4, by simp [h5]⟩

/-- C77 (what does not hold).  The Arduino pump hands over nothing that arrives, removes nothing from the outgoing queue, and sends at every
call one empty packet to the address of the first message queued: no message is ever sent. -/
theorem arduino_sends_empty_packets {A : Type} (b : List UInt8) (a : A) (es : List (ArduinoEv A)) :
    (Arduino.run {} (.enqueue b a :: es)).inq = [] ∧
    (∃ l, (Arduino.run {} (.enqueue b a :: es)).outq = (b, a) :: l) ∧
    (Arduino.run {} (.enqueue b a :: es)).sent = List.replicate (es.filter fun | .loop _ => true | _ => false).length ([], a) := by
  rw [Arduino.run]
  obtain ⟨h1, ⟨l, h2⟩, h3⟩ := arduino_gen es (Arduino.enqueue {} b a)
  obtain ⟨n, h4, h5⟩ := h3 (b, a) [] rfl
  refine ⟨h1, ⟨l, by rw [h2]; rfl⟩, ?_⟩
  rw [h4, h5]
  simp [Arduino.enqueue]

example : (Arduino.run {} [.enqueue [1, 2] 7, .loop (some ([3], 5)), .enqueue [4] 8, .loop none] : Arduino Nat) =
    ⟨[], [([1, 2], 7), ([4], 8)], [([], 7), ([], 7)]⟩ := by decide +kernel

end Verif.Props
