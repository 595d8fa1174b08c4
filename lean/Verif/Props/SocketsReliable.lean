import Verif.Model.SocketsReliable
import Verif.Props.Sockets
import Verif.Props.PullAny

/-! # C85: the socket helper with the reliable feature -/
namespace Verif.Props
open Verif.Model Verif.Spec Verif.Proofs

variable {A : Type}

/-- Specification: a token of more than eight bytes is announced and at least nine bytes follow the header. -/
def LongToken (bytes : List UInt8) : Prop := 8 < announcedTkl bytes ∧ 13 ≤ bytes.length

/-- Reading header and token of any datagram works, a long token apart. -/
theorem readHead_any (junk : Dec) (hj : junk.tbuf.length = 8) (bytes : List UInt8) (h : ¬LongToken bytes) :
    ∃ r, Retry.readHead junk bytes = some r := by
  obtain ⟨r, r', hr⟩ := pull_any_ends_partial junk hj bytes (by
    unfold LongToken at h
    by_cases h1 : announcedTkl bytes ≤ 8
    · exact .inl h1
    · exact .inr (by omega))
  have := (hr _ (Nat.le_refl _)).1
  unfold Pull.readWith at this
  unfold Retry.readHead
  cases e1 : (Pull.make junk bytes).header with
  | error e => simp [e1] at this
  | ok a =>
    obtain ⟨a, p⟩ := a
    simp only [e1] at this ⊢
    cases e2 : p.token with
    | error e => simp [e2] at this
    | ok b => exact ⟨_, rfl⟩

theorem readHead_long (junk : Dec) (hj : junk.tbuf.length = 8) (bytes : List UInt8) (h : LongToken bytes) :
    Retry.readHead junk bytes = none := by
  have := pull_long_token_overflow junk hj bytes h.1 h.2 (fun p => .ok ([], p))
  unfold Pull.readWith at this
  unfold Retry.readHead
  cases e1 : (Pull.make junk bytes).header with
  | error e => rfl
  | ok a =>
    obtain ⟨a, p⟩ := a
    simp only [e1] at this ⊢
    cases e2 : p.token with
    | error e => rfl
    | ok b => obtain ⟨t, c, q⟩ := b; simp [e2] at this

theorem header_any (junk : Dec) (bytes : List UInt8) : ∃ r, (Pull.make junk bytes).header = .ok r := by
  by_cases h : bytes.length < 4
  · obtain ⟨hd, p, e, -⟩ := short_starved junk bytes h
    exact ⟨_, e⟩
  · obtain ⟨b0, b1, b2, b3, r, rfl⟩ := four_bytes bytes (by omega)
    obtain ⟨q, e, -⟩ := header_all junk b0 b1 b2 b3 r
    exact ⟨_, e⟩

/-- With nothing tracked, the retry manager does nothing. -/
theorem rel_loop {P : Retry.PQ (List UInt8 × A)} {same : A → A → Bool} {junk : Dec} (s : Rel A) (hs : s.retry = Retry.init) (ok : Bool)
    (i : SockIn A) (now : Nat) :
    s.loop P same junk ok i now =
      match s.pump.loop ok i with
      | none => .error .ended
      | some p => if (p.inq.head?.map fun x => (Retry.readHead junk x.1).isNone).getD false then .error .memory else .ok ⟨p, Retry.init⟩ := by
  rw [Rel.loop]
  cases s.pump.loop ok i with
  | none => rfl
  | some p =>
    simp only [Rel.serviceAck, hs]
    have hret : ∀ p : Sock A, Rel.serviceRetry P now ⟨p, Retry.init⟩ = ⟨p, Retry.init⟩ := by
      intro p
      simp [Rel.serviceRetry, Retry.serviceRetry, Retry.init, Retry.handedOver]
    cases hq : p.inq with
    | nil => simp [hret]
    | cons x xs =>
      obtain ⟨b, a⟩ := x
      cases hh : Retry.readHead junk b with
      | none => simp [hh]
      | some r =>
        have : (Retry.serviceAck P (fun a b => same a.2 b.2) Retry.init (b, a) r.1 r.2).1 = Retry.init := by
          rw [Retry.serviceAck]
          split
          · simp [Retry.ackReceived, Retry.init]
          · rfl
        simp [hh, this, hret]

/-- C85 fails: however long the program runs and whatever arrives or does not, no message is ever tracked, and everything that is sent, waits
or was taken is what it would be without the feature. -/
theorem reliable_is_plain_partial (P : Retry.PQ (List UInt8 × A)) (same : A → A → Bool) (junk : Dec) (es : List (SockEv A × Nat)) (s : Rel A)
    (h : Rel.empty.run P same junk es = .ok s) : s.retry.q = [] ∧ Sock.empty.run (es.map (·.1)) = some s.pump := by
  have key : ∀ (es : List (SockEv A × Nat)) (s0 s : Rel A), s0.retry = Retry.init → s0.run P same junk es = .ok s →
      s.retry = Retry.init ∧ s0.pump.run (es.map (·.1)) = some s.pump := by
    intro es
    induction es with
    | nil =>
      intro s0 s h0 h
      simp only [Rel.run, Except.ok.injEq] at h
      subst h
      exact ⟨h0, rfl⟩
    | cons e es ih =>
      intro s0 s h0 h
      rw [Rel.run] at h
      cases hs : s0.step P same junk e with
      | error x => rw [hs] at h; cases h
      | ok s1 =>
        rw [hs] at h
        have h1 : s1.retry = Retry.init ∧ s0.pump.step e.1 = some s1.pump := by
          obtain ⟨e, now⟩ := e
          cases e with
          | loop ok i =>
            rw [Rel.step, rel_loop s0 h0] at hs
            rw [Sock.step]
            cases hp : s0.pump.loop ok i with
            | none => rw [hp] at hs; cases hs
            | some p =>
              simp only [hp] at hs
              split at hs
              · cases hs
              · simp only [Except.ok.injEq] at hs
                subst hs
                exact ⟨rfl, rfl⟩
          | enqueue b a =>
            rw [Rel.step, Rel.enqueue] at hs
            cases hh : (Pull.make junk b).header with
            | error x => rw [hh] at hs; cases hs
            | ok r =>
              rw [hh] at hs
              simp only [Except.ok.injEq] at hs
              subst hs
              exact ⟨h0, rfl⟩
          | take =>
            simp only [Rel.step, Except.ok.injEq] at hs
            subst hs
            exact ⟨h0, rfl⟩
        obtain ⟨g1, g2⟩ := ih s1 s h1.1 h
        exact ⟨g1, by rw [List.map_cons, Sock.run, h1.2, Option.bind_some, g2]⟩
  obtain ⟨h1, h2⟩ := key es Rel.empty s rfl h
  exact ⟨by rw [h1]; rfl, h2⟩

/-- The run goes on when the plain one does and no datagram with a long token comes. -/
theorem rel_run_usual (P : Retry.PQ (List UInt8 × A)) (same : A → A → Bool) (junk : Dec) (hj : junk.tbuf.length = 8) :
    ∀ (es : List (SockEv A × Nat)) (s : Rel A), s.retry = Retry.init → (∀ x ∈ s.pump.inq, ¬LongToken x.1) →
      (∀ e ∈ es, Usual e.1) → (∀ x ∈ arrivals (es.map (·.1)), ¬LongToken x.1) → ∃ s', s.run P same junk es = .ok s' := by
  intro es
  induction es with
  | nil => intro s _ _ _ _; exact ⟨s, rfl⟩
  | cons e es ih =>
    intro s h0 hin hu hl
    obtain ⟨s1, e1, -⟩ := sock_step s.pump e.1 (hu e (by simp)).survives
    have hin1 : ∀ x ∈ s1.inq, ¬LongToken x.1 := by
      intro x hx
      have hcase : x ∈ s.pump.inq ∨ x ∈ arrivals [e.1] := by
        obtain ⟨e, now⟩ := e
        have hue := hu (e, now) (by simp)
        cases e with
        | loop ok i =>
          cases i with
          | quiet =>
            have hok : ok = true := hue
            subst hok
            rw [Sock.step, Sock.loop, sock_transmit_true] at e1
            simp only [Option.bind_some, Sock.receive, Option.some.injEq] at e1
            subst e1
            exact .inl hx
          | datagram b a =>
            obtain ⟨hok, hb0, hb1⟩ := hue
            subst hok
            rw [Sock.step, Sock.loop, sock_transmit_true] at e1
            have ht : b.take sockRoom = b := List.take_of_length_le hb1
            simp only [Option.bind_some, Sock.receive, ht, gt_iff_lt, hb0, if_true, Option.some.injEq] at e1
            subst e1
            simpa [arrivals] using hx
          | pollFails => exact hue.elim
          | recvFails => exact hue.elim
        | enqueue b a =>
          simp only [Sock.step, Option.some.injEq] at e1
          subst e1
          exact .inl hx
        | take =>
          simp only [Sock.step, Option.some.injEq] at e1
          subst e1
          left
          obtain ⟨⟨i, o, se, ta⟩, r⟩ := s
          cases i with
          | nil => exact hx
          | cons y ys => exact List.mem_cons_of_mem _ hx
      rcases hcase with hx | hx
      · exact hin x hx
      · exact hl x (by rw [List.map_cons, arrivals_cons]; simp [hx])
    have hstep : s.step P same junk e = .ok ⟨s1, Retry.init⟩ := by
      obtain ⟨e, now⟩ := e
      cases e with
      | loop ok i =>
        rw [Sock.step] at e1
        rw [Rel.step, rel_loop s h0, e1]
        have : ((s1.inq.head?.map fun x => (Retry.readHead junk x.1).isNone).getD false) = false := by
          cases hq : s1.inq with
          | nil => rfl
          | cons y ys =>
            obtain ⟨r, hr⟩ := readHead_any junk hj y.1 (hin1 y (by rw [hq]; simp))
            simp [hr]
        simp only [this]
        rfl
      | enqueue b a =>
        simp only [Sock.step, Option.some.injEq] at e1
        obtain ⟨r, hr⟩ := header_any junk b
        rw [Rel.step, Rel.enqueue, hr, ← e1, ← h0]
      | take =>
        simp only [Sock.step, Option.some.injEq] at e1
        rw [Rel.step, ← e1, ← h0]
    obtain ⟨s', hs'⟩ := ih ⟨s1, Retry.init⟩ rfl hin1 (fun x hx => hu x (by simp [hx]))
      (fun x hx => hl x (by rw [List.map_cons, arrivals_cons]; simp [hx]))
    exact ⟨s', by rw [Rel.run, hstep]; exact hs'⟩

/-- C85 fails: as long as nothing unusual happens and no datagram with a long token comes, every message handed over, confirmable or not,
acknowledged or not, is sent at most once; once it has left it is never sent again. -/
theorem reliable_sent_once (P : Retry.PQ (List UInt8 × A)) (same : A → A → Bool) (junk : Dec) (hj : junk.tbuf.length = 8)
    (es : List (SockEv A × Nat)) (hu : ∀ e ∈ es, Usual e.1) (hl : ∀ x ∈ arrivals (es.map (·.1)), ¬LongToken x.1) :
    ∃ s, Rel.empty.run P same junk es = .ok s ∧ s.pump.sent ++ s.pump.outq = handedOver (es.map (·.1)) ∧
      s.pump.taken ++ s.pump.inq = arrivals (es.map (·.1)) := by
  obtain ⟨s, hs⟩ := rel_run_usual P same junk hj es Rel.empty rfl (by simp [Rel.empty, Sock.empty]) hu hl
  obtain ⟨-, hp⟩ := reliable_is_plain_partial P same junk es s hs
  obtain ⟨p, e, h1, h2⟩ := socket_passes_on_partial (es.map (·.1)) (by
    intro e he
    obtain ⟨x, hx, rfl⟩ := List.mem_map.mp he
    exact hu x hx)
  rw [hp, Option.some.injEq] at e
  subst e
  exact ⟨s, hs, h2, h1⟩

/-- C85 fails: with the feature, anyone can make the helper write behind the token buffer, before the program sees the datagram: a datagram
with a long token that arrives when nothing else is waiting, whatever is queued to be sent. -/
theorem reliable_long_token (P : Retry.PQ (List UInt8 × A)) (same : A → A → Bool) (junk : Dec) (hj : junk.tbuf.length = 8) (s : Rel A)
    (hq : s.pump.inq = []) (bytes : List UInt8) (hb : LongToken bytes) (hlen : bytes.length ≤ 4096) (a : A) (now : Nat) :
    s.loop P same junk true (.datagram bytes a) now = .error .memory := by
  have ht : bytes.take sockRoom = bytes := List.take_of_length_le hlen
  have h0 : 0 < bytes.length := by have := hb.2; omega
  rw [Rel.loop, Sock.loop, sock_transmit_true]
  simp only [Option.bind_some, Sock.receive, ht, gt_iff_lt, h0, if_true, hq, List.nil_append, Rel.serviceAck,
    readHead_long junk hj bytes hb]

/-- A confirmable request, sent, and then a day without an answer. -/
def silentDay : List (SockEv Nat × Nat) :=
  [(.enqueue [0x40, 1, 0, 7, 0xB1, 97] 7, 0), (.loop true .quiet, 0), (.loop true .quiet, 3000), (.loop true .quiet, 90000), (.loop true .quiet, 86400000)]

example : ∀ e ∈ silentDay, Usual e.1 := by
  intro e he
  simp only [silentDay, List.mem_cons, List.not_mem_nil, or_false] at he
  rcases he with rfl | rfl | rfl | rfl | rfl <;> simp [Usual]
example : ∀ x ∈ arrivals (silentDay.map (·.1)), ¬LongToken x.1 := by simp [silentDay, arrivals]
example : LongToken [0x49, 1, 0, 7, 1, 2, 3, 4, 5, 6, 7, 8, 9] := by unfold LongToken; decide

end Verif.Props
