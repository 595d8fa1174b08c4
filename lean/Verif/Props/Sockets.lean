import Verif.Model.Sockets
import Verif.Model.Pump
import Verif.Props.Pump

/-! # The data pump over a UDP socket (C59) -/
namespace Verif.Props
open Verif.Model Verif.Proofs Verif.Spec Dec

variable {A : Type}

/-- Specification: the datagrams that came to the socket while the program ran. -/
def arrivals : List (SockEv A) → List (List UInt8 × A)
  | [] => []
  | .loop _ (.datagram b a) :: es => (b, a) :: arrivals es
  | _ :: es => arrivals es

/-- Specification: the datagrams the program handed over to be sent. -/
def handedOver : List (SockEv A) → List (List UInt8 × A)
  | [] => []
  | .enqueue b a :: es => (b, a) :: handedOver es
  | _ :: es => handedOver es

/-- Specification: the turns of the loop. -/
def turns : List (SockEv A) → Nat
  | [] => 0
  | .loop _ _ :: es => turns es + 1
  | _ :: es => turns es

/-- The network does nothing unusual: no failure, and every datagram has 1 to 4096 bytes. -/
def Usual : SockEv A → Prop
  | .loop ok .quiet => ok = true
  | .loop ok (.datagram b _) => ok = true ∧ 0 < b.length ∧ b.length ≤ 4096
  | .loop _ _ => False
  | _ => True

/-- The process goes on in this turn of the loop, whatever is queued. -/
def Survives : SockEv A → Prop
  | .loop ok .quiet => ok = true
  | .loop ok (.datagram b _) => ok = true ∧ b ≠ []
  | .loop _ _ => False
  | _ => True

theorem Usual.survives {e : SockEv A} (h : Usual e) : Survives e := by
  cases e with
  | loop ok i =>
    cases i with
    | datagram b a => exact ⟨h.1, by intro e; rw [e] at h; exact absurd h.2.1 (by simp)⟩
    | quiet => exact h
    | pollFails => exact h
    | recvFails => exact h
  | _ => trivial

theorem sock_transmit_true (s : Sock A) :
    s.transmit true = some { s with outq := s.outq.drop 1, sent := s.sent ++ s.outq.take 1 } := by
  obtain ⟨i, o, se, ta⟩ := s
  cases o <;> simp [Sock.transmit]

/-- What one action does when the process survives it. -/
theorem sock_step (s : Sock A) (e : SockEv A) (he : Survives e) :
    ∃ s', s.step e = some s' ∧ s'.sent ++ s'.outq = s.sent ++ s.outq ++ handedOver [e] ∧
      s'.taken ++ s'.inq = s.taken ++ s.inq ++ (arrivals [e]).map (fun p => (p.1.take 4096, p.2)) ∧
      s'.outq.length = s.outq.length + (handedOver [e]).length - turns [e] := by
  cases e with
  | loop ok i =>
    cases i with
    | quiet =>
      have hok : ok = true := he
      subst hok
      refine ⟨_, by rw [Sock.step, Sock.loop, sock_transmit_true]; rfl, ?_, ?_, ?_⟩
      · simp only [handedOver, List.append_nil, List.append_assoc, List.take_append_drop]
      · simp [arrivals]
      · simp [handedOver, turns]
    | datagram b a =>
      obtain ⟨hok, hb⟩ := he
      subst hok
      have hl : (b.take sockRoom).length > 0 := by
        have : b.length > 0 := List.length_pos_iff.mpr hb
        rw [List.length_take]; simp only [sockRoom]; omega
      refine ⟨_, by rw [Sock.step, Sock.loop, sock_transmit_true]; simp only [Option.bind_some, Sock.receive]; rw [if_pos hl], ?_, ?_, ?_⟩
      · simp only [handedOver, List.append_nil, List.append_assoc, List.take_append_drop]
      · simp [arrivals, sockRoom, List.append_assoc]
      · simp [handedOver, turns]
    | pollFails => exact he.elim
    | recvFails => exact he.elim
  | enqueue b a => exact ⟨_, rfl, by simp [Sock.enqueue, handedOver, List.append_assoc], by simp [Sock.enqueue, arrivals],
      by simp [Sock.enqueue, handedOver, turns]⟩
  | take =>
    refine ⟨_, rfl, ?_, ?_, ?_⟩ <;> obtain ⟨i, o, se, ta⟩ := s <;> cases i <;>
      simp [Sock.take, handedOver, arrivals, turns]

theorem handedOver_cons (e : SockEv A) (es : List (SockEv A)) : handedOver (e :: es) = handedOver [e] ++ handedOver es := by
  cases e <;> rfl

theorem arrivals_cons (e : SockEv A) (es : List (SockEv A)) : arrivals (e :: es) = arrivals [e] ++ arrivals es := by
  cases e with
  | loop ok i => cases i <;> rfl
  | _ => rfl

theorem turns_cons (e : SockEv A) (es : List (SockEv A)) : turns (e :: es) = turns [e] + turns es := by
  cases e <;> simp [turns, Nat.add_comm]

theorem sock_run_survives (es : List (SockEv A)) : ∀ (s : Sock A), (∀ e ∈ es, Survives e) →
    ∃ s', s.run es = some s' ∧ s'.sent ++ s'.outq = s.sent ++ s.outq ++ handedOver es ∧
      s'.taken ++ s'.inq = s.taken ++ s.inq ++ (arrivals es).map (fun p => (p.1.take 4096, p.2)) ∧
      s'.outq.length ≤ s.outq.length + (handedOver es).length ∧
      (handedOver es = [] → s'.outq.length = s.outq.length - turns es) := by
  induction es with
  | nil => intro s _; exact ⟨s, rfl, by simp [handedOver], by simp [arrivals], by simp [handedOver], fun _ => by simp [turns]⟩
  | cons e es ih =>
    intro s h
    obtain ⟨s1, e1, a1, b1, c1⟩ := sock_step s e (h e (by simp))
    obtain ⟨s2, e2, a2, b2, c2, d2⟩ := ih s1 (fun x hx => h x (by simp [hx]))
    refine ⟨s2, by rw [Sock.run, e1, Option.bind_some, e2], ?_, ?_, ?_, ?_⟩
    · rw [a2, a1, handedOver_cons e es, List.append_assoc, List.append_assoc]
    · rw [b2, b1, arrivals_cons e es, List.map_append, List.append_assoc, List.append_assoc]
    · rw [handedOver_cons e es, List.length_append]; omega
    · intro hh
      rw [handedOver_cons e es] at hh
      obtain ⟨h1, h2⟩ := List.append_eq_nil_iff.mp hh
      rw [d2 h2, c1, h1, turns_cons e es]
      simp only [List.length_nil]; omega

/-- C59 (partial: no failure, and datagrams of 1 to 4096 bytes): in every run, what has come from the network is taken
or waiting, whole, in order and once, and so is what was handed over to be sent. -/
theorem socket_passes_on_partial (es : List (SockEv A)) (h : ∀ e ∈ es, Usual e) :
    ∃ s, Sock.empty.run es = some s ∧ s.taken ++ s.inq = arrivals es ∧ s.sent ++ s.outq = handedOver es := by
  obtain ⟨s, e, a, b, -, -⟩ := sock_run_survives es Sock.empty (fun x hx => (h x hx).survives)
  refine ⟨s, e, ?_, by simpa [Sock.empty] using a⟩
  rw [b]
  simp only [Sock.empty, List.nil_append]
  clear e a b
  induction es with
  | nil => rfl
  | cons x xs ih =>
    rw [arrivals_cons, List.map_append, ih (fun y hy => h y (by simp [hy]))]
    congr 1
    have hx := h x (by simp)
    cases x with
    | loop ok i =>
      cases i with
      | datagram bs ad => simp only [arrivals, List.map_cons, List.map_nil]; rw [List.take_of_length_le hx.2.2]
      | _ => rfl
    | _ => rfl

theorem sock_run_append (l m : List (SockEv A)) (q : Sock A) : q.run (l ++ m) = (q.run l).bind (·.run m) := by
  induction l generalizing q with
  | nil => rfl
  | cons x xs ih =>
    simp only [List.cons_append, Sock.run]
    cases q.step x with
    | none => rfl
    | some q' => simp only [Option.bind_some]; exact ih q'

/-- C59: one turn of the loop is enough for each datagram waiting to be sent. -/
theorem socket_all_sent (es fs : List (SockEv A)) (h : ∀ e ∈ es ++ fs, Survives e) (hf : handedOver fs = [])
    (hn : (handedOver es).length ≤ turns fs) :
    ∃ s, Sock.empty.run (es ++ fs) = some s ∧ s.sent = handedOver es := by
  obtain ⟨s, e1, a1, -, c1, -⟩ := sock_run_survives es Sock.empty (fun x hx => h x (by simp [hx]))
  obtain ⟨s', e2, a2, -, -, d2⟩ := sock_run_survives fs s (fun x hx => h x (by simp [hx]))
  refine ⟨s', by rw [sock_run_append, e1]; exact e2, ?_⟩
  have hz := d2 hf
  have : s'.outq = [] := List.length_eq_zero_iff.mp (by simp only [Sock.empty, List.length_nil] at c1; omega)
  rw [this, List.append_nil, hf, List.append_nil, a1] at a2
  simpa [Sock.empty] using a2

/-- C59: taking `n` times brings the first `n` datagrams that wait, in the order of their arrival, and changes nothing else. -/
theorem socket_takes (s : Sock A) (n : Nat) :
    s.run (List.replicate n .take) = some { s with inq := s.inq.drop n, taken := s.taken ++ s.inq.take n } := by
  induction n generalizing s with
  | zero => simp [Sock.run]
  | succ n ih =>
    rw [List.replicate_succ, Sock.run, Sock.step, Option.bind_some, ih]
    cases hi : s.inq <;> simp [Sock.take, hi]

/-- C59: after any run without failure and with datagrams of 1 to 4096 bytes, taking until nothing waits has brought the
program everything that came from the network, once and in order. -/
theorem socket_all_taken_partial (es : List (SockEv A)) (h : ∀ e ∈ es, Usual e) (n : Nat) (hn : (arrivals es).length ≤ n) :
    ∃ s, Sock.empty.run (es ++ List.replicate n .take) = some s ∧ s.taken = arrivals es ∧ s.inq = [] := by
  obtain ⟨s, e, h1, -⟩ := socket_passes_on_partial es h
  refine ⟨_, by rw [sock_run_append, e, Option.bind_some, socket_takes], ?_⟩
  rw [← h1, List.length_append] at hn
  rw [← h1]
  simp only
  rw [List.take_of_length_le (by omega), List.drop_of_length_le (by omega)]
  exact ⟨rfl, rfl⟩

/-- C59 fails for a datagram without bytes: whatever is queued and whatever went before, anyone who sends one ends the
process. -/
theorem socket_empty_datagram_ends (s : Sock A) (sendOk : Bool) (a : A) (es : List (SockEv A)) :
    s.run (.loop sendOk (.datagram [] a) :: es) = none := by
  simp only [Sock.run, Sock.step, Sock.loop]
  cases s.transmit sendOk <;> rfl

/-- C59 fails when a send does: one datagram the network refuses ends the process. -/
theorem socket_refused_send_ends (s : Sock A) (hq : s.outq ≠ []) (i : SockIn A) (es : List (SockEv A)) :
    s.run (.loop false i :: es) = none := by
  obtain ⟨q, o, se, ta⟩ := s
  cases o with
  | nil => exact absurd rfl hq
  | cons o os => rfl

/-- C59: exactly then the process ends: a run goes on exactly if every turn of its loop does. -/
theorem socket_goes_on_iff (s : Sock A) (sendOk : Bool) (i : SockIn A) :
    (s.loop sendOk i).isSome = true ↔ (s.outq = [] ∨ sendOk = true) ∧ (i = .quiet ∨ ∃ b a, b ≠ [] ∧ i = .datagram b a) := by
  obtain ⟨q, o, se, ta⟩ := s
  have key : ∀ t : Sock A, (t.receive i).isSome = true ↔ (i = .quiet ∨ ∃ b a, b ≠ [] ∧ i = .datagram b a) := by
    intro t
    cases i with
    | datagram b a =>
      cases b with
      | nil => simp [Sock.receive]
      | cons x xs => simp [Sock.receive, sockRoom]
    | _ => simp [Sock.receive]
  cases o with
  | nil => simp only [Sock.loop, Sock.transmit, Option.bind_some, key]; simp
  | cons o os =>
    cases sendOk with
    | false => simp [Sock.loop, Sock.transmit]
    | true => simp only [Sock.loop, Sock.transmit, if_true, Option.bind_some, key]; simp

/-- C59 fails for a datagram of more than 4096 bytes: it is queued cut, and a well-formed message whose payload goes
over the edge becomes another well-formed one, with a shorter payload. -/
theorem socket_long_datagram_altered (m : Msg) (hm : m.Ok) (ob p : List UInt8) (hp : m.payload = some p)
    (hh : 4 + m.token.length + ob.length + 1 < 4096) (hl : 4096 < (wire m ob).length) (s : Sock A) (a : A) :
    ∃ m' s', m'.Ok ∧ m' ≠ m ∧ owed m' ≠ owed m ∧ s.run [.loop true (.datagram (wire m ob) a)] = some s' ∧
      s'.inq = s.inq ++ [(wire m' ob, a)] ∧
      m' = { m with payload := some (p.take (4096 - (4 + m.token.length + ob.length + 1))) } := by
  have hwl : (wire m ob).length = 4 + m.token.length + ob.length + (1 + p.length) := by
    simp [wire, encHeader, encPayload, hp]; omega
  have hcut : p.take (4096 - (4 + m.token.length + ob.length + 1)) ≠ p := by
    intro e
    have := congrArg List.length e
    rw [List.length_take] at this
    omega
  have hne : p.take (4096 - (4 + m.token.length + ob.length + 1)) ≠ [] := by
    intro e
    have := congrArg List.length e
    rw [List.length_take, List.length_nil] at this
    omega
  have htake : (wire m ob).take 4096 =
      wire { m with payload := some (p.take (4096 - (4 + m.token.length + ob.length + 1))) } ob := by
    have e : wire m ob = (encHeader m ++ m.token ++ ob ++ [255]) ++ p := by simp [wire, encPayload, hp]
    rw [e, List.take_append]
    have hlen : (encHeader m ++ m.token ++ ob ++ [255]).length = 4 + m.token.length + ob.length + 1 := by
      simp [encHeader]
      omega
    rw [List.take_of_length_le (by rw [hlen]; omega), hlen]
    simp [wire, encPayload, encHeader]
  refine ⟨{ m with payload := some (p.take (4096 - (4 + m.token.length + ob.length + 1))) }, { s with outq := s.outq.drop 1, sent := s.sent ++ s.outq.take 1, inq := s.inq ++ [((wire m ob).take 4096, a)] },
    ⟨hm.1, hm.2.1, hm.2.2.1, hm.2.2.2.1, hm.2.2.2.2.1, hm.2.2.2.2.2.1, ?_⟩, ?_, ?_, ?_, ?_, rfl⟩
  · simpa using hne
  · intro e
    have := congrArg Msg.payload e
    simp only [hp, Option.some.injEq] at this
    exact hcut this
  · intro e
    simp only [owed, hp] at e
    have := List.append_cancel_right e
    rw [show owedHead { m with payload := some (p.take (4096 - (4 + m.token.length + ob.length + 1))) } = owedHead m from rfl] at this
    have := List.append_cancel_left this
    simp only [List.cons.injEq, LEvent.payload.injEq, and_true] at this
    exact hcut this
  · have : (List.take sockRoom (wire m ob)).length > 0 := by rw [List.length_take, sockRoom]; omega
    simp only [Sock.run, Sock.step, Sock.loop, sock_transmit_true, Option.bind_some, Sock.receive]
    rw [if_pos this]
    rfl
  · rw [htake]

/-- The first datagram that comes, if anything is taken after it, is the first taken, byte for byte. -/
theorem socket_first_taken (b : List UInt8) (a : A) (h0 : 0 < b.length) (hl : b.length ≤ 4096)
    (es : List (SockEv A)) (hes : ∀ e ∈ es, Usual e) (hq : ∃ e ∈ es, e = .take) :
    ∃ s, Sock.empty.run (.loop true (.datagram b a) :: es) = some s ∧ s.taken.take 1 = [(b, a)] := by
  have hu : Usual (SockEv.loop true (.datagram b a)) := ⟨rfl, h0, hl⟩
  obtain ⟨s, e1, h1, -⟩ := socket_passes_on_partial (.loop true (.datagram b a) :: es)
    (fun e he => by rcases List.mem_cons.mp he with rfl | he; exact hu; exact hes e he)
  -- something has been taken
  have hgrow : ∀ (fs : List (SockEv A)) (q q' : Sock A), q.run fs = some q' → q.taken ≠ [] ∨ (q.inq ≠ [] ∧ ∃ e ∈ fs, e = .take) →
      q'.taken ≠ [] := by
    intro fs
    induction fs with
    | nil =>
      intro q q' h hc
      simp only [Sock.run, Option.some.injEq] at h
      subst h
      rcases hc with hc | ⟨-, e, he, -⟩
      · exact hc
      · exact absurd he (by simp)
    | cons f fs ih =>
      intro q q' h hc
      simp only [Sock.run] at h
      cases hs : q.step f with
      | none => rw [hs] at h; cases h
      | some q1 =>
        rw [hs, Option.bind_some] at h
        refine ih q1 q' h ?_
        cases f with
        | take =>
          left
          simp only [Sock.step, Option.some.injEq] at hs
          subst hs
          obtain ⟨i, o, se, ta⟩ := q
          cases i with
          | nil =>
            rcases hc with hc | ⟨hc, -⟩
            · exact hc
            · exact absurd rfl hc
          | cons x xs => simp [Sock.take]
        | enqueue b a =>
          simp only [Sock.step, Option.some.injEq] at hs
          subst hs
          rcases hc with hc | ⟨hc, e, he, h'⟩
          · exact .inl hc
          · subst h'; exact .inr ⟨hc, _, by simpa using he, rfl⟩
        | loop ok i =>
          simp only [Sock.step, Sock.loop] at hs
          cases ht : q.transmit ok with
          | none => rw [ht] at hs; cases hs
          | some qt =>
            rw [ht, Option.bind_some] at hs
            have e0 : qt.taken = q.taken ∧ qt.inq = q.inq := by
              unfold Sock.transmit at ht
              split at ht
              · simp only [Option.some.injEq] at ht; subst ht; exact ⟨rfl, rfl⟩
              · split at ht
                · simp only [Option.some.injEq] at ht; subst ht; exact ⟨rfl, rfl⟩
                · cases ht
            have e2 : q1.taken = qt.taken ∧ (qt.inq ≠ [] → q1.inq ≠ []) := by
              unfold Sock.receive at hs
              split at hs
              · simp only [Option.some.injEq] at hs; subst hs; exact ⟨rfl, id⟩
              · cases hs
              · cases hs
              · split at hs
                · simp only [Option.some.injEq] at hs; subst hs; exact ⟨rfl, fun _ => by simp⟩
                · cases hs
            rcases hc with hc | ⟨hc, e, he, h'⟩
            · left; rw [e2.1, e0.1]; exact hc
            · subst h'; right; exact ⟨e2.2 (by rw [e0.2]; exact hc), _, by simpa using he, rfl⟩
  have htk : s.taken ≠ [] := by
    have e1' := e1
    simp only [Sock.run] at e1'
    cases hs : Sock.empty.step (SockEv.loop true (.datagram b a)) with
    | none => rw [hs] at e1'; cases e1'
    | some q =>
      rw [hs, Option.bind_some] at e1'
      refine hgrow es q s e1' (.inr ⟨?_, hq⟩)
      obtain ⟨q', hq', -, hb, -⟩ := sock_step Sock.empty _ hu.survives
      rw [hs, Option.some.injEq] at hq'
      subst hq'
      intro hn
      have ht : q.taken = [] := by
        simp only [Sock.step, Sock.loop, Sock.empty, Sock.transmit, Option.bind_some, Sock.receive] at hs
        split at hs
        · simp only [Option.some.injEq] at hs; subst hs; rfl
        · cases hs
      rw [hn, ht] at hb
      simp [Sock.empty, arrivals] at hb
  cases ht : s.taken with
  | nil => exact absurd ht htk
  | cons x xs =>
    rw [ht] at h1
    simp only [arrivals, List.cons_append, List.cons.injEq] at h1
    exact ⟨s, e1, by rw [ht, h1.1]; rfl⟩

/-- C59 (partial: as above, and the first message): from the network to the observer.  A message with a payload that
comes to the socket in at most 4096 bytes, among whatever else comes and goes, is what the pump's observer is told
first. -/
theorem socket_to_observer_partial (m : Msg) (hm : m.Ok) (ob : List UInt8) (hob : IsOpts 0 m.opts ob) (junk : Dec)
    (hj : junk.tbuf.length = 8) (hp : m.payload ≠ none) (a : A) (hl : (wire m ob).length ≤ 4096)
    (es : List (SockEv A)) (hes : ∀ e ∈ es, Usual e) (hq : ∃ e ∈ es, e = .take) :
    ∃ s N d', Sock.empty.run (.loop true (.datagram (wire m ob) a) :: es) = some s ∧ s.taken.head? = some (wire m ob, a) ∧
      ∀ fuel, N ≤ fuel → pump fuel (fresh junk) ((s.taken.take 1).map (fun p => [p.1])) = .ok (d', [owed m]) := by
  obtain ⟨s, e1, h1⟩ := socket_first_taken (wire m ob) a (by simp [wire, encHeader]) hl es hes hq
  obtain ⟨N, d', hN⟩ := pump_first_partial m hm ob hob junk hj hp
  refine ⟨s, N, d', e1, ?_, fun fuel hf => by rw [h1]; exact hN fuel hf⟩
  cases ht : s.taken with
  | nil => rw [ht] at h1; cases h1
  | cons x xs => rw [ht] at h1; simpa using h1

example : ∀ e ∈ [SockEv.enqueue [1] 7, .loop true (.datagram [0x40, 1, 0, 7, 0xFF, 1] 9), .take, .loop true .quiet], Usual e := by
  intro e he
  simp only [List.mem_cons, List.not_mem_nil, or_false] at he
  rcases he with rfl | rfl | rfl | rfl <;> simp [Usual]

example : Sock.empty.run [.enqueue [1] 7, .enqueue [2] 8, .loop true (.datagram [0x40, 1, 0, 7, 0xFF, 1] 9), .take, .loop true .quiet] =
    some ⟨[], [], [([1], 7), ([2], 8)], [([0x40, 1, 0, 7, 0xFF, 1], 9)]⟩ := rfl

example : Sock.empty.run [.loop true (.datagram [0x40, 1, 0, 7] 9), .loop true (.datagram [] 3), .take] = none := rfl

/-- A message of 4100 payload bytes or more meets the hypotheses of `socket_long_datagram_altered`. -/
example (n : Nat) (hn : 4100 ≤ n) : (⟨1, 0, 2, 7, [0xAA], [], some (List.replicate n 0)⟩ : Msg).Ok ∧
    4096 < (wire ⟨1, 0, 2, 7, [0xAA], [], some (List.replicate n 0)⟩ []).length := by
  refine ⟨⟨by simp, by simp, by simp, by simp, by simp, trivial, fun e => ?_⟩, ?_⟩
  · have := congrArg List.length (Option.some.inj e)
    rw [List.length_replicate, List.length_nil] at this
    omega
  · simp [wire, encHeader, encPayload]; omega

end Verif.Props
