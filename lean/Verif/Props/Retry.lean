import Verif.Proofs.Retry

/-! # Retransmission (C28, C29, C30, C31) -/
namespace Verif.Props
open Verif.Model Verif.Model.Retry Verif.Spec.Retry Verif.Proofs.Retry

variable {A : Type}

/-- A queue kept sorted by due time meets the contract of the heap. -/
def insertDue (x : Item A) : List (Item A) → List (Item A)
  | [] => [x]
  | y :: l => if x.due ≤ y.due then x :: y :: l else y :: insertDue x l

theorem insertDue_perm (x : Item A) (l : List (Item A)) : (insertDue x l).Perm (x :: l) := by
  induction l with
  | nil => exact .refl _
  | cons y l ih =>
    unfold insertDue; split
    · exact .refl _
    · exact (ih.cons y).trans (.swap x y l)

theorem insertDue_sorted (x : Item A) (l : List (Item A)) (h : l.Pairwise fun a b => a.due ≤ b.due) :
    (insertDue x l).Pairwise fun a b => a.due ≤ b.due := by
  induction l with
  | nil => simp [insertDue]
  | cons y l ih =>
    rw [List.pairwise_cons] at h
    unfold insertDue; split
    · rename_i hx
      refine List.pairwise_cons.2 ⟨fun z hz => ?_, List.pairwise_cons.2 h⟩
      rcases List.mem_cons.1 hz with rfl | hz
      · exact hx
      · exact Nat.le_trans hx (h.1 z hz)
    · refine List.pairwise_cons.2 ⟨fun z hz => ?_, ih h.2⟩
      rcases List.mem_cons.1 ((insertDue_perm x l).mem_iff.1 hz) with rfl | hz
      · omega
      · exact h.1 z hz

def sortDue (l : List (Item A)) : List (Item A) := l.foldr insertDue []

theorem sortDue_perm (l : List (Item A)) : (sortDue l).Perm l := by
  induction l with
  | nil => exact .refl _
  | cons x l ih => exact (insertDue_perm x _).trans (ih.cons x)

theorem sortDue_sorted (l : List (Item A)) : (sortDue l).Pairwise fun a b => a.due ≤ b.due := by
  induction l with
  | nil => exact .nil
  | cons x l ih => exact insertDue_sorted x _ ih

def sortedPQ : PQ A where
  heap l := l.Pairwise fun a b => a.due ≤ b.due
  push l x := insertDue x l
  pop l := l.tail
  make := sortDue
  heap_nil := .nil
  heap_top _ _ h := (List.pairwise_cons.1 h).1
  push_heap l x h := insertDue_sorted x l h
  push_perm l x _ := insertDue_perm x l
  pop_heap _ _ h := (List.pairwise_cons.1 h).2
  pop_perm _ _ _ := .refl _
  make_heap := sortDue_sorted
  make_perm := sortDue_perm

/-- Confirmable, message id 7, token length 1. -/
def conHdr : Header := ⟨0x41, 1, 0, 7⟩
/-- The acknowledgement for it. -/
def ackHdr : Header := ⟨0x61, 0x45, 0, 7⟩

/-- Two messages are tracked; the second is acknowledged after its first retransmission, the first never. -/
def retryHistory : List (Ev Nat) :=
  [.sent 100 2500 1 conHdr [5], .sent 200 2000 2 conHdr [5], .service 2000, .service 2300, .service 2300, .service 2700,
   .recv 2 ackHdr [5], .service 7600, .service 9000, .service 20000, .service 90000]

def retryTrace : List (Out Nat) :=
  [.queued 100 0 2500 1, .queued 200 1 2000 2, .sent 2300 1 2, .sent 2700 0 1, .acked 1, .sent 9000 0 1, .sent 20000 0 1]

theorem retryHistory_run : (Retry.run sortedPQ (fun a b => a == b) Retry.init retryHistory).map (·.2) = some retryTrace := by
  decide +kernel

/-- C28: in every history, every message is retransmitted no earlier than its timeout after it was taken
over, and then no earlier than twice, four times, … its timeout after its previous retransmission; and only
to the address it was sent to. -/
theorem retransmissions_spaced (P : PQ A) (same : A → A → Bool) (es : List (Ev A)) (s : St A) (tr : List (Out A))
    (h : Retry.run P same Retry.init es = some (s, tr)) :
    (∀ t0 id T a, Out.queued t0 id T a ∈ tr → Spaced T 0 t0 (sendsOf id tr)) ∧
    ∀ t id a, Out.sent t id a ∈ tr → ∃ t0 T, Out.queued t0 id T a ∈ tr := by
  have hi := (Inv.init P).run h
  simp only [List.nil_append] at hi
  exact ⟨fun t0 id T a hq => (hi.known _ _ _ _ hq).2.1, hi.sent⟩

example : Spaced 2500 0 100 (sendsOf 0 retryTrace) ∧ sendsOf 0 retryTrace = [2700, 9000, 20000] :=
  ⟨by simp [Spaced, sendsOf, retryTrace], by decide +kernel⟩

/-- The initial timeout is the value of the random policy, if that fits into twelve bits. -/
theorem initial_timeout (P : PQ A) (s s' : St A) (now rnd : Nat) (addr : A) (hd : Header) (token : List UInt8) (o : List (Out A))
    (hr : rnd < 4096) (hc : hd.type = Header.confirmable)
    (h : onSent P s now rnd addr hd token = some (s', o)) : o = [.queued now s.next rnd addr] := by
  simp only [onSent, hc, beq_self_eq_true, if_true, Retry.enqueue] at h
  split at h
  · simp only [Option.some.injEq, Prod.mk.injEq] at h
    rw [← h.2, Nat.mod_eq_of_lt hr]
  · exact absurd h (by simp)

/-- C28: a call of the service in any reachable state either does nothing, because nothing is due; or it
retransmits a due message, whose next due time becomes the time of the call plus its timeout doubled once
for each of its retransmissions so far, and leaves every other message as it is; or it is the third
retransmission and the message is no longer tracked. -/
theorem service_backoff (P : PQ A) (same : A → A → Bool) (es : List (Ev A)) (s : St A) (tr : List (Out A))
    (h : Retry.run P same Retry.init es = some (s, tr)) (now : Nat) :
    (serviceRetry P s now = (s, []) ∧ ∀ x ∈ s.q, now < x.due) ∨
    ∃ x ∈ s.q, x.due ≤ now ∧ (serviceRetry P s now).2 = [.sent now x.id x.addr] ∧
      ((∃ y, y.id = x.id ∧ y.mid = x.mid ∧ y.token = x.token ∧ y.addr = x.addr ∧ y.timeout = x.timeout ∧
          y.due = now + x.timeout * 2 ^ (sendsOf x.id (tr ++ [.sent now x.id x.addr])).length ∧
          (x :: (serviceRetry P s now).1.q).Perm (y :: s.q)) ∨
        (sendsOf x.id (tr ++ [.sent now x.id x.addr])).length = 3 ∧ (x :: (serviceRetry P s now).1.q).Perm s.q) := by
  have hi := (Inv.init P).run h
  simp only [List.nil_append] at hi
  rcases service_cases P s now hi.heap (fun x hx => (hi.item x hx).2.1) with hc | ⟨x, l, q', hq, hd, htop, hh, e, hp⟩
  · exact Or.inl hc
  · right
    have hx : x ∈ s.q := by rw [hq]; exact List.mem_cons_self
    have hl := (hi.item x hx).2.2.1
    refine ⟨x, hx, hd, by rw [e], ?_⟩
    rw [e]
    simp only [sendsOf_append, sendsOf, if_true, List.length_append, List.length_singleton, hl]
    rcases hp with ⟨hc, hp⟩ | ⟨hc, hp⟩
    · left
      refine ⟨{ x with counter := x.counter + 1, due := now + x.timeout * 2 ^ (x.counter + 1) }, rfl, rfl, rfl, rfl, rfl, rfl, ?_⟩
      rw [hq]
      exact (hp.cons x).trans (.swap _ _ l)
    · exact Or.inr ⟨by omega, by rw [hq]; exact hp.cons x⟩

/-- C29 (the upper bound): no message is ever retransmitted more than MAX_RETRANSMIT = 4 times; in fact
never more than 3 times.  A message that is not tracked any more although it was never acknowledged has been
retransmitted exactly 3 times. -/
theorem retransmissions_bounded_partial (P : PQ A) (same : A → A → Bool) (es : List (Ev A)) (s : St A) (tr : List (Out A))
    (h : Retry.run P same Retry.init es = some (s, tr)) (t0 id T : Nat) (a : A) (hq : Out.queued t0 id T a ∈ tr) :
    (sendsOf id tr).length ≤ 3 ∧
    ((∀ x ∈ s.q, x.id ≠ id) → Out.acked id ∉ tr → (sendsOf id tr).length = 3) := by
  have hi := (Inv.init P).run h
  simp only [List.nil_append] at hi
  obtain ⟨-, -, h3, h4⟩ := hi.known _ _ _ _ hq
  refine ⟨h3, fun hx ha => ?_⟩
  rcases h4 with ⟨x, hm, e⟩ | h4 | h4
  · exact absurd e (hx x hm)
  · exact absurd h4 ha
  · exact h4

/-- C29 fails in its second half: there is no history at all in which a message is retransmitted
MAX_RETRANSMIT = 4 times. -/
theorem never_four_retransmissions (P : PQ A) (same : A → A → Bool) (es : List (Ev A)) (s : St A) (tr : List (Out A))
    (h : Retry.run P same Retry.init es = some (s, tr)) (id : Nat) : (sendsOf id tr).length ≠ 4 := by
  have hi := (Inv.init P).run h
  simp only [List.nil_append] at hi
  by_cases hs : ∃ t a, Out.sent t id a ∈ tr
  · obtain ⟨t, a, hs⟩ := hs
    obtain ⟨t0, T, hq⟩ := hi.sent _ _ _ hs
    have := (hi.known _ _ _ _ hq).2.2.1
    omega
  · rw [sendsOf_nil_of (fun t a hm => hs ⟨t, a, hm⟩)]; simp

/-- C30: an acknowledgement that matches a tracked message in address, message id and token drops one
matching message and reports this; nothing else changes. -/
theorem ack_drops_one (P : PQ A) (same : A → A → Bool) (s : St A) (addr : A) (hd : Header) (token : List UInt8)
    (ht : hd.type = Header.acknowledgement) (x : Item A) (hx : x ∈ s.q)
    (hm : same addr x.addr = true ∧ x.token = token ∧ x.mid = hd.messageId) :
    ∃ y ∈ s.q, (same addr y.addr = true ∧ y.token = token ∧ y.mid = hd.messageId) ∧
      (serviceAck P same s addr hd token).2 = ([.acked y.id], true) ∧
      (y :: (serviceAck P same s addr hd token).1.q).Perm s.q ∧ (serviceAck P same s addr hd token).1.next = s.next := by
  rw [serviceAck, if_pos (by simp [ht])]
  rcases ack_cases P same s addr hd.messageId token with ⟨e, hn⟩ | ⟨y, l1, l2, q', hq, hy, -, hp, hh, e⟩
  · have := hn x hx
    simp [hits, hm.1, hm.2.1, hm.2.2] at this
  · simp only [hits, Bool.and_eq_true, beq_iff_eq] at hy
    refine ⟨y, by rw [hq]; simp, ⟨hy.1.1, hy.1.2, hy.2⟩, by rw [e], ?_, by rw [e]⟩
    rw [e, hq]
    exact (hp.cons y).trans List.perm_middle.symm

/-- C30: an acknowledgement that matches nothing, and any message that is not an acknowledgement, changes
nothing. -/
theorem other_arrivals_ignored (P : PQ A) (same : A → A → Bool) (s : St A) (addr : A) (hd : Header) (token : List UInt8)
    (h : hd.type ≠ Header.acknowledgement ∨
      ∀ x ∈ s.q, ¬(same addr x.addr = true ∧ x.token = token ∧ x.mid = hd.messageId)) :
    serviceAck P same s addr hd token = (s, [], false) := by
  rw [serviceAck]
  split
  · rename_i ht
    have h := h.resolve_left (by simpa using ht)
    rcases ack_cases P same s addr hd.messageId token with ⟨e, -⟩ | ⟨y, l1, l2, q', hq, hy, -⟩
    · exact e
    · simp only [hits, Bool.and_eq_true, beq_iff_eq] at hy
      exact absurd ⟨hy.1.1, hy.1.2, hy.2⟩ (h y (by rw [hq]; simp))
  · rfl

/-- C30: after its acknowledgement a message is never retransmitted, whatever follows. -/
theorem acked_never_resent (P : PQ A) (same : A → A → Bool) (es1 es2 : List (Ev A)) (s1 s2 : St A) (tr1 tr2 : List (Out A))
    (h1 : Retry.run P same Retry.init es1 = some (s1, tr1)) (h2 : Retry.run P same s1 es2 = some (s2, tr2))
    (id : Nat) (ha : Out.acked id ∈ tr1) : ∀ t a, Out.sent t id a ∉ tr2 := by
  have hi := (Inv.init P).run h1
  simp only [List.nil_append] at hi
  have hlt : id < s1.next := by
    obtain ⟨t0, T, a, hq⟩ := hi.acked _ ha
    exact (hi.known _ _ _ _ hq).1
  have hne : ∀ x ∈ s1.q, x.id ≠ id := by
    rintro x hx rfl
    exact (hi.item x hx).2.2.2.1 ha
  clear h1 ha
  induction es2 generalizing s1 tr1 tr2 with
  | nil => simp only [Retry.run, Option.some.injEq, Prod.mk.injEq] at h2; simp [← h2.2]
  | cons e es ih =>
    simp only [Retry.run] at h2
    split at h2
    · exact absurd h2 (by simp)
    · rename_i s' o hs
      cases hr : Retry.run P same s' es with
      | none => rw [hr] at h2; exact absurd h2 (by simp)
      | some r =>
        rw [hr] at h2
        simp only [Option.map_some, Option.some.injEq, Prod.mk.injEq] at h2
        have hi' := hi.step hs
        have key : id < s'.next ∧ (∀ x ∈ s'.q, x.id ≠ id) ∧ ∀ t a, Out.sent t id a ∉ o := by
          cases e with
          | sent now rnd addr hd token =>
            simp only [Retry.step, onSent, Retry.enqueue] at hs
            split at hs
            · split at hs
              · simp only [Option.some.injEq, Prod.mk.injEq] at hs
                obtain ⟨rfl, rfl⟩ := hs
                refine ⟨by simp only; omega, fun x hx => ?_, by simp⟩
                rcases List.mem_cons.1 ((P.push_perm _ _ hi.heap).mem_iff.1 hx) with rfl | hx
                · simp only; omega
                · exact hne x hx
              · exact absurd hs (by simp)
            · cases hs; exact ⟨hlt, hne, by simp⟩
          | recv addr hd token =>
            simp only [Retry.step, serviceAck, Option.some.injEq, Prod.mk.injEq] at hs
            split at hs
            · rcases ack_cases P same s1 addr hd.messageId token with ⟨e, -⟩ | ⟨x, l1, l2, q', hq, -, -, hp, hh, e⟩
              · rw [e] at hs; obtain ⟨rfl, rfl⟩ := hs; exact ⟨hlt, hne, by simp⟩
              · rw [e] at hs; obtain ⟨rfl, rfl⟩ := hs
                refine ⟨hlt, fun y hy => hne y ?_, by simp⟩
                have := hp.mem_iff.1 hy
                rw [hq]; simp at this ⊢; rcases this with h | h <;> simp [h]
            · obtain ⟨rfl, rfl⟩ := hs; exact ⟨hlt, hne, by simp⟩
          | service now =>
            simp only [Retry.step, Option.some.injEq] at hs
            rcases service_cases P s1 now hi.heap (fun x hx => (hi.item x hx).2.1) with ⟨e, -⟩ | ⟨x, l, q', hq, hd, -, hh, e, hp⟩
            · rw [e] at hs; cases hs; exact ⟨hlt, hne, by simp⟩
            · rw [e] at hs; cases hs
              have hxi : x.id ≠ id := hne x (by rw [hq]; exact List.mem_cons_self)
              have hl : ∀ y ∈ l, y.id ≠ id := fun y hy => hne y (by rw [hq]; exact List.mem_cons_of_mem _ hy)
              refine ⟨hlt, fun y hy => ?_, fun t a hm => ?_⟩
              · rcases hp with ⟨-, hp⟩ | ⟨-, hp⟩
                · rcases List.mem_cons.1 (hp.mem_iff.1 hy) with rfl | hy
                  · exact hxi
                  · exact hl y hy
                · exact hl y (hp.mem_iff.1 hy)
              · simp only [List.mem_singleton, Out.sent.injEq] at hm
                exact hxi hm.2.1.symm
        have := ih s' _ r.2 (by rw [hr, ← h2.1]) hi' key.1 key.2.1
        intro t a hm
        rw [← h2.2, List.mem_append] at hm
        exact hm.elim (key.2.2 t a) (this t a)

/-- C31: a service call that retransmits acts on a message with the smallest due time of all. -/
theorem most_urgent_first (P : PQ A) (same : A → A → Bool) (es : List (Ev A)) (s : St A) (tr : List (Out A))
    (h : Retry.run P same Retry.init es = some (s, tr)) (now t id : Nat) (a : A)
    (hs : Out.sent t id a ∈ (serviceRetry P s now).2) :
    t = now ∧ ∃ x ∈ s.q, x.id = id ∧ x.addr = a ∧ x.due ≤ now ∧ ∀ y ∈ s.q, x.due ≤ y.due := by
  have hi := (Inv.init P).run h
  rcases service_cases P s now hi.heap (fun x hx => (hi.item x hx).2.1) with ⟨e, -⟩ | ⟨x, l, q', hq, hd, htop, hh, e, hp⟩
  · rw [e] at hs; simp at hs
  · rw [e] at hs
    simp only [List.mem_singleton, Out.sent.injEq] at hs
    refine ⟨hs.1, x, by rw [hq]; exact List.mem_cons_self, hs.2.1.symm, hs.2.2.symm, hd, fun y hy => ?_⟩
    rw [hq] at hy
    rcases List.mem_cons.1 hy with rfl | hy
    · exact Nat.le_refl _
    · exact htop y hy

/-- Events from time `d` on: service calls and messages taken over (with a timeout that is not zero) happen
at `d` or later. -/
def From (d : Nat) : Ev A → Prop
  | .sent now rnd _ _ _ => d ≤ now ∧ 0 < rnd % 4096
  | .recv _ _ _ => True
  | .service now => d ≤ now

/-- Number of service calls. -/
def services : List (Ev A) → Nat
  | [] => 0
  | .service _ :: es => services es + 1
  | .sent .. :: es => services es
  | .recv .. :: es => services es

theorem no_starvation_aux (P : PQ A) (same : A → A → Bool) (x : Item A) (es : List (Ev A)) (s s' : St A) (tr : List (Out A))
    (h : Retry.run P same s es = some (s', tr)) (hh : P.heap s.q) (hc : ∀ y ∈ s.q, y.counter ≤ 2 ∧ 0 < y.timeout)
    (hx : x ∈ s.q) (hf : ∀ e ∈ es, From x.due e) (hn : s.q.countP (fun y => decide (y.due ≤ x.due)) ≤ services es) :
    (∃ t a, Out.sent t x.id a ∈ tr) ∨ Out.acked x.id ∈ tr := by
  induction es generalizing s tr with
  | nil =>
    have : 0 < s.q.countP (fun y => decide (y.due ≤ x.due)) := List.countP_pos_iff.2 ⟨x, hx, by simp⟩
    simp only [services] at hn; omega
  | cons e es ih =>
    have hfe := hf e List.mem_cons_self
    have hfs : ∀ e ∈ es, From x.due e := fun e he => hf e (List.mem_cons_of_mem _ he)
    simp only [Retry.run] at h
    split at h
    · exact absurd h (by simp)
    · rename_i s1 o hs
      cases hr : Retry.run P same s1 es with
      | none => rw [hr] at h; exact absurd h (by simp)
      | some r =>
        rw [hr] at h
        simp only [Option.map_some, Option.some.injEq, Prod.mk.injEq] at h
        obtain ⟨hr1, rfl⟩ := h
        have go : P.heap s1.q → (∀ y ∈ s1.q, y.counter ≤ 2 ∧ 0 < y.timeout) → x ∈ s1.q →
            s1.q.countP (fun y => decide (y.due ≤ x.due)) ≤ services es →
            (∃ t a, Out.sent t x.id a ∈ o ++ r.2) ∨ Out.acked x.id ∈ o ++ r.2 := by
          intro g1 g2 g3 g4
          rcases ih s1 r.2 (by rw [hr, ← hr1]) g1 g2 g3 hfs g4 with ⟨t, a, hm⟩ | hm
          · exact Or.inl ⟨t, a, List.mem_append_right _ hm⟩
          · exact Or.inr (List.mem_append_right _ hm)
        cases e with
        | sent now rnd addr hd token =>
          simp only [services] at hn
          simp only [From] at hfe
          simp only [Retry.step, onSent, Retry.enqueue] at hs
          split at hs
          · split at hs
            · simp only [Option.some.injEq, Prod.mk.injEq] at hs
              obtain ⟨rfl, ho⟩ := hs
              have hp := P.push_perm s.q ⟨s.next, addr, hd.messageId, token, rnd % 4096, 0, now + Item.delta ⟨s.next, addr, hd.messageId, token, rnd % 4096, 0, 0⟩⟩ hh
              refine go (P.push_heap _ _ hh) (fun y hy => ?_) (hp.mem_iff.2 (List.mem_cons_of_mem _ hx)) ?_
              · rcases List.mem_cons.1 (hp.mem_iff.1 hy) with rfl | hy
                · exact ⟨Nat.zero_le _, hfe.2⟩
                · exact hc y hy
              · simp only
                rw [hp.countP_eq, List.countP_cons_of_neg]
                · exact hn
                · simp [Item.delta]; omega
            · exact absurd hs (by simp)
          · cases hs; exact go hh hc hx hn
        | recv addr hd token =>
          simp only [services] at hn
          simp only [Retry.step, serviceAck, Option.some.injEq, Prod.mk.injEq] at hs
          split at hs
          · rcases ack_cases P same s addr hd.messageId token with ⟨e, -⟩ | ⟨y, l1, l2, q', hq, -, -, hp, hh', e⟩
            · rw [e] at hs; obtain ⟨rfl, -⟩ := hs; exact go hh hc hx hn
            · rw [e] at hs; obtain ⟨rfl, rfl⟩ := hs
              have hq2 : s.q.Perm (y :: q') := by rw [hq]; exact List.perm_middle.trans (hp.symm.cons y)
              rcases List.mem_cons.1 (hq2.mem_iff.1 hx) with rfl | hx'
              · exact Or.inr (by simp)
              · refine go hh' (fun z hz => hc z (hq2.mem_iff.2 (List.mem_cons_of_mem _ hz))) hx' ?_
                rw [hq2.countP_eq, List.countP_cons] at hn
                simp only; omega
          · obtain ⟨rfl, -⟩ := hs; exact go hh hc hx hn
        | service now =>
          simp only [services] at hn
          simp only [From] at hfe
          simp only [Retry.step, Option.some.injEq] at hs
          rcases service_cases P s now hh (fun x hx => (hc x hx).1) with ⟨e, hnone⟩ | ⟨y, l, q', hq, hd, htop, hh', e, hp⟩
          · have := hnone x hx; omega
          · rw [e] at hs; cases hs
            have hyd : y.due ≤ x.due := by
              rw [hq] at hx
              rcases List.mem_cons.1 hx with rfl | hx
              · exact Nat.le_refl _
              · exact htop x hx
            have hy := hc y (by rw [hq]; exact List.mem_cons_self)
            have hl : ∀ z ∈ l, z.counter ≤ 2 ∧ 0 < z.timeout := fun z hz => hc z (by rw [hq]; exact List.mem_cons_of_mem _ hz)
            rw [hq, List.countP_cons_of_pos (by simpa using hyd)] at hn
            rw [hq] at hx
            rcases List.mem_cons.1 hx with rfl | hx
            · exact Or.inl ⟨now, x.addr, by simp⟩
            · rcases hp with ⟨hc1, hp⟩ | ⟨-, hp⟩
              · refine go hh' (fun z hz => ?_) (hp.mem_iff.2 (List.mem_cons_of_mem _ hx)) ?_
                · rcases List.mem_cons.1 (hp.mem_iff.1 hz) with rfl | hz
                  · exact ⟨by simp only; omega, hy.2⟩
                  · exact hl z hz
                · simp only
                  rw [hp.countP_eq, List.countP_cons_of_neg]
                  · omega
                  · have : 0 < y.timeout * 2 ^ (y.counter + 1) := Nat.mul_pos hy.2 (Nat.two_pow_pos _)
                    simp; omega
              · refine go hh' (fun z hz => hl z (hp.mem_iff.1 hz)) (hp.mem_iff.2 hx) ?_
                simp only; rw [hp.countP_eq]; omega

/-- C31: no tracked message starves.  Once its due time has come, ten service calls (or as many as there are
messages due no later) suffice for it to be retransmitted, whatever else is sent or received meanwhile,
unless it is acknowledged. -/
theorem no_starvation (P : PQ A) (same : A → A → Bool) (es1 es2 : List (Ev A)) (s s' : St A) (tr1 tr : List (Out A))
    (h1 : Retry.run P same Retry.init es1 = some (s, tr1)) (hpos : ∀ t id a, Out.queued t id 0 a ∉ tr1)
    (x : Item A) (hx : x ∈ s.q) (hf : ∀ e ∈ es2, From x.due e) (hn : 10 ≤ services es2)
    (h2 : Retry.run P same s es2 = some (s', tr)) :
    (∃ t, Out.sent t x.id x.addr ∈ tr) ∨ Out.acked x.id ∈ tr := by
  have hi := (Inv.init P).run h1
  simp only [List.nil_append] at hi
  have hi2 := hi.run h2
  obtain ⟨-, -, -, -, t0, hq0, -⟩ := hi.item x hx
  have hcl := List.countP_le_length (p := fun y : Item A => decide (y.due ≤ x.due)) (l := s.q)
  have hroom := hi.room
  have hc : ∀ y ∈ s.q, y.counter ≤ 2 ∧ 0 < y.timeout := fun y hy => by
    obtain ⟨-, h2, -, -, t0, h5, -⟩ := hi.item y hy
    refine ⟨h2, Nat.pos_of_ne_zero fun h0 => ?_⟩
    rw [h0] at h5
    exact hpos _ _ _ h5
  rcases no_starvation_aux P same x es2 s s' tr h2 hi.heap hc hx hf (by omega) with ⟨t, a, hm⟩ | hm
  · obtain ⟨t1, T, hq1⟩ := hi2.sent t x.id a (List.mem_append_right _ hm)
    obtain ⟨-, -, rfl⟩ := hi2.uniq _ _ _ _ _ _ _ hq1 (List.mem_append_left _ hq0)
    exact Or.inl ⟨t, hm⟩
  · exact Or.inr hm

/-- Events up to time `m`. -/
def Until (m : Nat) : Ev A → Prop
  | .service now => now ≤ m
  | _ => True

theorem step_outs {P : PQ A} {same} {s s1 : St A} {e : Ev A} {o} (hs : Retry.step P same s e = some (s1, o)) :
    (∀ t id a, Out.sent t id a ∈ o → e = .service t) ∧
    ∀ t id T a, Out.queued t id T a ∈ o → ∃ rnd hd tok, e = .sent t rnd a hd tok ∧ T = rnd % 4096 := by
  cases e with
  | sent now rnd addr hd token =>
    simp only [Retry.step, onSent, Retry.enqueue] at hs
    split at hs
    · split at hs
      · simp only [Option.some.injEq, Prod.mk.injEq] at hs
        obtain ⟨-, rfl⟩ := hs
        refine ⟨by simp, fun t id T a hm => ?_⟩
        simp only [List.mem_singleton, Out.queued.injEq] at hm
        obtain ⟨rfl, -, rfl, rfl⟩ := hm
        exact ⟨rnd, hd, token, rfl, rfl⟩
      · exact absurd hs (by simp)
    · cases hs; simp
  | recv addr hd token =>
    simp only [Retry.step, serviceAck, ackReceived, Option.some.injEq, Prod.mk.injEq] at hs
    split at hs
    · split at hs <;> (obtain ⟨-, rfl⟩ := hs; simp)
    · obtain ⟨-, rfl⟩ := hs; simp
  | service now =>
    simp only [Retry.step, Option.some.injEq, serviceRetry] at hs
    repeat' split at hs
    all_goals (simp only [Prod.mk.injEq] at hs; obtain ⟨-, rfl⟩ := hs; simp)
    all_goals (intro t _ _ h _ _; exact h.symm)

theorem run_outs {P : PQ A} {same} {es : List (Ev A)} {s s' : St A} {tr} (h : Retry.run P same s es = some (s', tr)) :
    (∀ t id a, Out.sent t id a ∈ tr → Ev.service t ∈ es) ∧
    ∀ t id T a, Out.queued t id T a ∈ tr → ∃ rnd hd tok, Ev.sent t rnd a hd tok ∈ es ∧ T = rnd % 4096 := by
  induction es generalizing s tr with
  | nil => simp only [Retry.run, Option.some.injEq, Prod.mk.injEq] at h; simp [← h.2]
  | cons e es ih =>
    simp only [Retry.run] at h
    split at h
    · exact absurd h (by simp)
    · rename_i s1 o hs
      cases hr : Retry.run P same s1 es with
      | none => rw [hr] at h; exact absurd h (by simp)
      | some r =>
        rw [hr] at h
        simp only [Option.map_some, Option.some.injEq, Prod.mk.injEq] at h
        obtain ⟨hr1, rfl⟩ := h
        obtain ⟨i1, i2⟩ := ih (s := s1) (tr := r.2) (by rw [hr, ← hr1])
        obtain ⟨j1, j2⟩ := step_outs hs
        constructor
        · intro t id a hm
          rcases List.mem_append.1 hm with hm | hm
          · rw [j1 t id a hm]; exact List.mem_cons_self
          · exact List.mem_cons_of_mem _ (i1 t id a hm)
        · intro t id T a hm
          rcases List.mem_append.1 hm with hm | hm
          · obtain ⟨rnd, hd, tok, rfl, e⟩ := j2 t id T a hm; exact ⟨rnd, hd, tok, List.mem_cons_self, e⟩
          · obtain ⟨rnd, hd, tok, hx, e⟩ := i2 t id T a hm; exact ⟨rnd, hd, tok, List.mem_cons_of_mem _ hx, e⟩

theorem mem_sendsOf {id t : Nat} {tr : List (Out A)} : t ∈ sendsOf id tr ↔ ∃ a, Out.sent t id a ∈ tr := by
  induction tr with
  | nil => simp [sendsOf]
  | cons o tr ih =>
    cases o with
    | sent t' i a =>
      simp only [sendsOf, List.mem_cons, Out.sent.injEq]
      split
      · rename_i e; subst e
        simp only [List.mem_cons, ih, true_and]
        constructor
        · rintro (rfl | ⟨a', h⟩)
          · exact ⟨a, Or.inl ⟨rfl, rfl⟩⟩
          · exact ⟨a', Or.inr h⟩
        · rintro ⟨a', ⟨rfl, -⟩ | h⟩
          · exact Or.inl rfl
          · exact Or.inr ⟨a', h⟩
      · rename_i e
        rw [ih]
        constructor
        · rintro ⟨a', h⟩; exact ⟨a', Or.inr h⟩
        · rintro ⟨a', ⟨-, rfl, -⟩ | h⟩
          · exact absurd rfl e
          · exact ⟨a', h⟩
    | _ => simp [sendsOf, ih]

theorem getLastD_append_mem (a b : List Nat) (d : Nat) (h : b ≠ []) : (a ++ b).getLastD d ∈ b := by
  rw [List.getLastD_eq_getLast?, List.getLast?_append, List.getLast?_eq_some_getLast h]
  simp

/-- One round of service calls. -/
theorem one_round {P : PQ A} {same : A → A → Bool} {es : List (Ev A)} {s s' : St A} {tr tr' : List (Out A)} (hi : Inv P s tr)
    (hpos : ∀ t id a, Out.queued t id 0 a ∉ tr) {t0 id T : Nat} {a : A} (hq : Out.queued t0 id T a ∈ tr) {D M : Nat}
    (hD : ∀ x ∈ s.q, x.id = id → x.due ≤ D) (hf : ∀ e ∈ es, From D e ∧ Until M e) (hn : 10 ≤ services es)
    (h : Retry.run P same s es = some (s', tr')) :
    Inv P s' (tr ++ tr') ∧ (∀ t id a, Out.queued t id 0 a ∉ tr ++ tr') ∧
    (Out.acked id ∈ tr ++ tr' ∨ (sendsOf id (tr ++ tr')).length = 3 ∨
      (sendsOf id tr).length < (sendsOf id (tr ++ tr')).length ∧ ∀ x ∈ s'.q, x.id = id → x.due ≤ M + T * 4) := by
  have hi2 := hi.run h
  obtain ⟨ho1, ho2⟩ := run_outs h
  refine ⟨hi2, ?_, ?_⟩
  · intro t i a hm
    rcases List.mem_append.1 hm with hm | hm
    · exact hpos t i a hm
    · obtain ⟨rnd, hd, tok, hx, e⟩ := ho2 _ _ _ _ hm
      have := (hf _ hx).1
      simp only [From] at this; omega
  · rcases (hi.known _ _ _ _ hq).2.2.2 with ⟨x, hx, rfl⟩ | ha | h3
    · have hc : ∀ y ∈ s.q, y.counter ≤ 2 ∧ 0 < y.timeout := fun y hy => by
        obtain ⟨-, h2, -, -, t0, h5, -⟩ := hi.item y hy
        refine ⟨h2, Nat.pos_of_ne_zero fun h0 => ?_⟩
        rw [h0] at h5
        exact hpos _ _ _ h5
      have hcl := List.countP_le_length (p := fun y : Item A => decide (y.due ≤ x.due)) (l := s.q)
      have hroom := hi.room
      have hxD := hD x hx rfl
      have hfx : ∀ e ∈ es, From x.due e := by
        intro e he
        have := (hf e he).1
        cases e <;> simp only [From] at this ⊢ <;> omega
      rcases no_starvation_aux P same x es s s' tr' h hi.heap hc hx hfx (by omega) with ⟨t, b, hm⟩ | hm
      · right; right
        have hne : sendsOf x.id tr' ≠ [] := List.ne_nil_of_mem (mem_sendsOf.2 ⟨b, hm⟩)
        refine ⟨?_, fun y hy e => ?_⟩
        · have := List.length_pos_iff.2 hne
          simp only [sendsOf_append, List.length_append]; omega
        · obtain ⟨-, y2, -, -, t1, y5, y6⟩ := hi2.item y hy
          rw [e] at y5 y6
          obtain ⟨rfl, rfl, rfl⟩ := hi2.uniq _ _ _ _ _ _ _ y5 (List.mem_append_left _ hq)
          have hl := getLastD_append_mem (sendsOf x.id tr) (sendsOf x.id tr') t1 hne
          rw [← sendsOf_append] at hl
          obtain ⟨c, hc⟩ := mem_sendsOf.1 hl
          have := (hf _ (ho1 _ _ _ hc)).2
          simp only [Until] at this
          have h4 : 2 ^ y.counter ≤ 2 ^ 2 := Nat.pow_le_pow_right (by omega) y2
          have : y.timeout * 2 ^ y.counter ≤ y.timeout * 4 := Nat.mul_le_mul_left _ h4
          omega
      · exact Or.inl (List.mem_append_right _ hm)
    · exact Or.inl (List.mem_append_left _ ha)
    · have h4 := (hi2.known _ _ _ _ (List.mem_append_left _ hq)).2.2.1
      simp only [sendsOf_append, List.length_append] at h4 ⊢
      exact Or.inr (Or.inl (by omega))

/-- C29: a message that is never acknowledged is retransmitted exactly three times if it is serviced often
enough: ten service calls once it is due, ten more four timeouts later and again ten more four timeouts after
these, whatever else happens meanwhile. -/
theorem unacked_sent_three_times (P : PQ A) (same : A → A → Bool) (es b1 b2 b3 : List (Ev A)) (s0 s1 s2 s3 : St A)
    (tr0 tr1 tr2 tr3 : List (Out A)) (h0 : Retry.run P same Retry.init es = some (s0, tr0))
    (hpos : ∀ t id a, Out.queued t id 0 a ∉ tr0) (t0 id T : Nat) (a : A) (hq : Out.queued t0 id T a ∈ tr0) (D M1 M2 M3 : Nat)
    (hD : ∀ x ∈ s0.q, x.id = id → x.due ≤ D)
    (h1 : Retry.run P same s0 b1 = some (s1, tr1)) (f1 : ∀ e ∈ b1, From D e ∧ Until M1 e) (n1 : 10 ≤ services b1)
    (h2 : Retry.run P same s1 b2 = some (s2, tr2)) (f2 : ∀ e ∈ b2, From (M1 + T * 4) e ∧ Until M2 e) (n2 : 10 ≤ services b2)
    (h3 : Retry.run P same s2 b3 = some (s3, tr3)) (f3 : ∀ e ∈ b3, From (M2 + T * 4) e ∧ Until M3 e) (n3 : 10 ≤ services b3)
    (hna : Out.acked id ∉ tr0 ++ tr1 ++ tr2 ++ tr3) : (sendsOf id (tr0 ++ tr1 ++ tr2 ++ tr3)).length = 3 := by
  have i0 := (Inv.init P).run h0
  simp only [List.nil_append] at i0
  have i3 := ((i0.run h1).run h2).run h3
  have hle := (i3.known t0 id T a (by simp [hq])).2.2.1
  simp only [List.mem_append, not_or] at hna
  obtain ⟨⟨⟨a0, a1⟩, a2⟩, a3⟩ := hna
  obtain ⟨i1, p1, r1⟩ := one_round i0 hpos hq hD f1 n1 h1
  rcases r1 with r1 | r1 | ⟨r1, d1⟩
  · exact absurd r1 (by simp [a0, a1])
  · simp only [sendsOf_append, List.length_append] at r1 hle ⊢; omega
  obtain ⟨i2, p2, r2⟩ := one_round i1 p1 (List.mem_append_left _ hq) d1 f2 n2 h2
  rcases r2 with r2 | r2 | ⟨r2, d2⟩
  · exact absurd r2 (by simp [a0, a1, a2])
  · simp only [sendsOf_append, List.length_append] at r2 hle ⊢; omega
  obtain ⟨-, -, r3⟩ := one_round i2 p2 (List.mem_append_left _ (List.mem_append_left _ hq)) d2 f3 n3 h3
  rcases r3 with r3 | r3 | ⟨r3, -⟩
  · exact absurd r3 (by simp [a0, a1, a2, a3])
  · exact r3
  · simp only [sendsOf_append, List.length_append] at r1 r2 r3 hle ⊢; omega

/-- A confirmable message that is sent is tracked under a number of its own. -/
theorem confirmable_queued (P : PQ A) (same : A → A → Bool) (es : List (Ev A)) : ∀ (s s' : St A) (tr : List (Out A)) (now rnd : Nat)
    (a : A) (hd : Header) (tok : List UInt8), hd.type = Header.confirmable →
    Retry.run P same s (es ++ [.sent now rnd a hd tok]) = some (s', tr) → ∃ id, Out.queued now id (rnd % 4096) a ∈ tr := by
  induction es with
  | nil =>
    intro s s' tr now rnd a hd tok hc h
    simp only [List.nil_append, Retry.run, Retry.step, onSent, hc, beq_self_eq_true, if_true, Retry.enqueue] at h
    split at h
    · cases h
    · rename_i e
      split at e
      · simp only [Option.some.injEq, Prod.mk.injEq] at e
        simp only [Option.map_some, Option.some.injEq, Prod.mk.injEq] at h
        rw [← h.2, ← e.2]
        exact ⟨s.next, by simp⟩
      · cases e
  | cons e es ih =>
    intro s s' tr now rnd a hd tok hc h
    simp only [List.cons_append, Retry.run] at h
    split at h
    · cases h
    · rename_i s1 o hs
      cases hr : Retry.run P same s1 (es ++ [.sent now rnd a hd tok]) with
      | none => rw [hr] at h; cases h
      | some r =>
        obtain ⟨s2, t2⟩ := r
        rw [hr] at h
        simp only [Option.map_some, Option.some.injEq, Prod.mk.injEq] at h
        obtain ⟨id, hid⟩ := ih _ _ _ _ _ _ _ _ hc hr
        exact ⟨id, by rw [← h.2]; simp [hid]⟩

/-- C29 for a confirmable message just sent, after any history: never acknowledged and serviced often enough, it is
retransmitted exactly three times. -/
theorem confirmable_sent_three_times (P : PQ A) (same : A → A → Bool) (es b1 b2 b3 : List (Ev A)) (s0 s1 s2 s3 : St A)
    (tr0 tr1 tr2 tr3 : List (Out A)) (now rnd : Nat) (a : A) (hd : Header) (tok : List UInt8) (hc : hd.type = Header.confirmable)
    (h0 : Retry.run P same Retry.init (es ++ [.sent now rnd a hd tok]) = some (s0, tr0))
    (hpos : ∀ t id a, Out.queued t id 0 a ∉ tr0) (D M1 M2 M3 : Nat) (hD : ∀ x ∈ s0.q, x.due ≤ D)
    (h1 : Retry.run P same s0 b1 = some (s1, tr1)) (f1 : ∀ e ∈ b1, From D e ∧ Until M1 e) (n1 : 10 ≤ services b1)
    (h2 : Retry.run P same s1 b2 = some (s2, tr2)) (f2 : ∀ e ∈ b2, From (M1 + rnd % 4096 * 4) e ∧ Until M2 e) (n2 : 10 ≤ services b2)
    (h3 : Retry.run P same s2 b3 = some (s3, tr3)) (f3 : ∀ e ∈ b3, From (M2 + rnd % 4096 * 4) e ∧ Until M3 e) (n3 : 10 ≤ services b3) :
    ∃ id, Out.queued now id (rnd % 4096) a ∈ tr0 ∧
      (Out.acked id ∉ tr0 ++ tr1 ++ tr2 ++ tr3 → (sendsOf id (tr0 ++ tr1 ++ tr2 ++ tr3)).length = 3) := by
  obtain ⟨id, hid⟩ := confirmable_queued P same es _ _ _ _ _ _ _ _ hc h0
  exact ⟨id, hid, fun hna => unacked_sent_three_times P same _ b1 b2 b3 s0 s1 s2 s3 tr0 tr1 tr2 tr3 h0 hpos now id _ a hid D M1 M2 M3
    (fun x hx _ => hD x hx) h1 f1 n1 h2 f2 n2 h3 f3 n3 hna⟩

theorem queued_confirmable (P : PQ A) (same : A → A → Bool) (es : List (Ev A)) : ∀ (s s' : St A) (tr : List (Out A)),
    Retry.run P same s es = some (s', tr) → ∀ t id T a, Out.queued t id T a ∈ tr →
    ∃ rnd hd tok, Ev.sent t rnd a hd tok ∈ es ∧ hd.type = Header.confirmable := by
  induction es with
  | nil => intro s s' tr h t id T a hq; simp only [Retry.run, Option.some.injEq, Prod.mk.injEq] at h; rw [← h.2] at hq; simp at hq
  | cons e es ih =>
    intro s s' tr h t id T a hq
    simp only [Retry.run] at h
    split at h
    · cases h
    · rename_i s1 o hs
      cases hr : Retry.run P same s1 es with
      | none => rw [hr] at h; cases h
      | some r =>
        obtain ⟨s2, t2⟩ := r
        rw [hr] at h
        simp only [Option.map_some, Option.some.injEq, Prod.mk.injEq] at h
        rw [← h.2, List.mem_append] at hq
        rcases hq with hq | hq
        · obtain ⟨rnd, hd, tok, rfl, -⟩ := (step_outs hs).2 _ _ _ _ hq
          refine ⟨rnd, hd, tok, by simp, Classical.byContradiction fun hn => ?_⟩
          simp only [Retry.step, onSent, beq_iff_eq, if_neg hn, Option.some.injEq, Prod.mk.injEq] at hs
          rw [← hs.2] at hq; simp at hq
        · obtain ⟨rnd, hd, tok, hm, hc⟩ := ih _ _ _ hr _ _ _ _ hq
          exact ⟨rnd, hd, tok, by simp [hm], hc⟩

/-- C29: only confirmable messages are ever retransmitted, to the address they were sent to. -/
theorem only_confirmable_retransmitted (P : PQ A) (same : A → A → Bool) (es : List (Ev A)) (s : St A) (tr : List (Out A))
    (h : Retry.run P same Retry.init es = some (s, tr)) (t id : Nat) (a : A) (ht : Out.sent t id a ∈ tr) :
    ∃ t0 rnd hd tok, Ev.sent t0 rnd a hd tok ∈ es ∧ hd.type = Header.confirmable := by
  obtain ⟨t0, T, hq⟩ := (retransmissions_spaced P same es s tr h).2 t id a ht
  obtain ⟨rnd, hd, tok, hm, hc⟩ := queued_confirmable P same es _ _ _ h _ _ _ _ hq
  exact ⟨t0, rnd, hd, tok, hm, hc⟩

-- the hypotheses hold of one message and three rounds of ten calls each
example :
    let P : PQ Nat := sortedPQ
    let same := fun a b : Nat => a == b
    let q1 : St Nat := ⟨[⟨0, 1, 7, [5], 2500, 0, 2600⟩], 1⟩
    let q2 : St Nat := ⟨[⟨0, 1, 7, [5], 2500, 1, 8000⟩], 1⟩
    let q3 : St Nat := ⟨[⟨0, 1, 7, [5], 2500, 2, 30000⟩], 1⟩
    Retry.run P same Retry.init [.sent 100 2500 1 conHdr [5]] = some (q1, [.queued 100 0 2500 1]) ∧
    Retry.run P same q1 (List.replicate 10 (.service 3000)) = some (q2, [.sent 3000 0 1]) ∧
    Retry.run P same q2 (List.replicate 10 (.service 20000)) = some (q3, [.sent 20000 0 1]) ∧
    Retry.run P same q3 (List.replicate 10 (.service 40000)) = some (⟨[], 1⟩, [.sent 40000 0 1]) ∧
    (∀ e ∈ List.replicate 10 (Ev.service (A := Nat) 20000), From (3000 + 2500 * 4) e ∧ Until 20000 e) ∧
    services (List.replicate 10 (Ev.service (A := Nat) 20000)) = 10 := by
  refine ⟨rfl, rfl, rfl, rfl, ?_, rfl⟩
  intro e he
  rw [(List.mem_replicate.1 he).2]
  simp [From, Until]

end Verif.Props
