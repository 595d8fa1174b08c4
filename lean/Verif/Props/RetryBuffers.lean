import Verif.Model.RetryBuffers
import Verif.Props.Retry

/-!
# C100: the buffer of a message that is to be resent
-/
namespace Verif.Props
open Verif.Model Verif.Model.Buf Verif.Model.Retry
open Verif.Model.RBuf (Stop)
open Verif.Model.RBuf.St (readable)

variable {A : Type}

/-- Buffers of the tracked messages. -/
def rbTracked (s : RBuf.St A) : List Nat := s.retry.q.map (·.addr.2)

/-- Buffers waiting to be transmitted. -/
def rbQueued (s : RBuf.St A) : List Nat := s.outq.map (·.1)

structure RBInv (P : PQ (A × Nat)) (s : RBuf.St A) : Prop where
  heap : P.heap s.retry.q
  cnt : ∀ x ∈ s.retry.q, x.counter ≤ 2
  nodup : s.heap.live.Nodup
  liveLt : ∀ b ∈ s.heap.live, b < s.heap.next
  outLt : ∀ b ∈ rbQueued s, b < s.heap.next
  trkLt : ∀ b ∈ rbTracked s, b < s.heap.next
  trkNodup : (rbTracked s).Nodup

theorem rbInv_init (P : PQ (A × Nat)) : RBInv P (RBuf.St.init : RBuf.St A) :=
  ⟨P.heap_nil, by simp [RBuf.St.init, Retry.init], by simp [RBuf.St.init], by simp [RBuf.St.init], by simp [RBuf.St.init, rbQueued],
    by simp [RBuf.St.init, rbTracked, Retry.init], by simp [RBuf.St.init, rbTracked, Retry.init]⟩

/-- What `service` does to the two queues of buffers. -/
theorem rb_service_cases {P : PQ (A × Nat)} {s : RBuf.St A} (h : RBInv P s) (now : Nat) :
    s.service P now = s ∨
    ∃ f fs, s.retry.q = f :: fs ∧ f.due ≤ now ∧ (s.service P now).heap = s.heap ∧
      (s.service P now).outq = s.outq ++ [(f.addr.2, f.addr.1)] ∧
      ((f.counter < 2 ∧ ∃ g, g.addr = f.addr ∧ g.counter = f.counter + 1 ∧ P.heap (s.service P now).retry.q ∧
          ((s.service P now).retry.q).Perm (g :: fs)) ∨
       (f.counter = 2 ∧ P.heap (s.service P now).retry.q ∧ ((s.service P now).retry.q).Perm fs)) := by
  obtain ⟨hp, outq, q, nx⟩ := s
  cases q with
  | nil => left; simp [RBuf.St.service, serviceRetry]
  | cons f fs =>
    by_cases hd : f.due ≤ now
    · right
      have hh : P.heap (f :: fs) := h.heap
      have hc : f.counter ≤ 2 := h.cnt f (by simp)
      refine ⟨f, fs, rfl, hd, ?_⟩
      by_cases h2 : f.counter < 2
      · have hp1 := P.pop_heap _ _ hh
        have hm : (f.counter + 1) % 8 = f.counter + 1 := by omega
        refine ⟨by simp [RBuf.St.service], ?_, Or.inl ⟨h2, ?_⟩⟩
        · simp [RBuf.St.service, serviceRetry, hd, h2]
        · refine ⟨{ f with counter := f.counter + 1, due := now + Item.delta { f with counter := f.counter + 1 } }, rfl, rfl, ?_, ?_⟩
          · simp only [RBuf.St.service, serviceRetry, ge_iff_le, hd, h2, if_true, hm]
            exact P.push_heap _ _ hp1
          · simp only [RBuf.St.service, serviceRetry, ge_iff_le, hd, h2, if_true, hm]
            exact (P.push_perm _ _ hp1).trans ((P.pop_perm _ _ hh).cons _)
      · have h3 : f.counter = 2 := by omega
        refine ⟨by simp [RBuf.St.service], by simp [RBuf.St.service, serviceRetry, hd, h3], Or.inr ⟨h3, ?_, ?_⟩⟩
        · simpa [RBuf.St.service, serviceRetry, hd, h3] using P.pop_heap _ _ hh
        · simpa [RBuf.St.service, serviceRetry, hd, h3] using P.pop_perm _ _ hh
    · left; simp [RBuf.St.service, serviceRetry, hd]

/-- What `ack` does: nothing, or the first hit is no longer tracked and its buffer was read. -/
theorem rb_ack_cases {P : PQ (A × Nat)} {same : A → A → Bool} {s s' : RBuf.St A} {a : A} {h : Header} {t : List UInt8}
    (e : s.ack P same a h t = .ok s') :
    s' = s ∨ ∃ x l1 l2, s.retry.q = l1 ++ x :: l2 ∧ (∀ y ∈ l1 ++ [x], y.addr.2 ∈ s.heap.live) ∧ s'.heap = s.heap ∧ s'.outq = s.outq ∧
      s'.retry.q = P.make (l1 ++ l2) := by
  obtain ⟨hp, outq, q, nx⟩ := s
  simp only [RBuf.St.ack] at e
  split at e
  · next ht =>
    split at e
    · next hr =>
      cases e
      simp only [serviceAck, ht, if_true, ackReceived]
      generalize hits (fun a b : A × Nat => same a.1 b.1) (a, 0) h.messageId t = hit at hr
      cases hf : q.find? hit with
      | none => left; simp
      | some x =>
        right
        dsimp only
        have key : ∀ (q : List (Item (A × Nat))), readable hp.live hit q = true → q.find? hit = some x →
            ∃ l1 l2, q = l1 ++ x :: l2 ∧ (∀ y ∈ l1 ++ [x], y.addr.2 ∈ hp.live) ∧ q.eraseP hit = l1 ++ l2 := by
          intro q
          induction q with
          | nil => intro _ hf; simp at hf
          | cons v vs ih =>
            intro hr hf
            simp only [readable, Bool.and_eq_true, decide_eq_true_eq, Bool.or_eq_true] at hr
            cases hv : hit v with
            | true =>
              simp only [List.find?_cons, hv, Option.some.injEq] at hf
              subst hf
              exact ⟨[], vs, rfl, by simpa using hr.1, by simp [hv]⟩
            | false =>
              simp only [List.find?_cons, hv] at hf
              have hr2 : readable hp.live hit vs = true := by
                rcases hr.2 with h | h
                · rw [hv] at h; exact absurd h (by decide)
                · exact h
              obtain ⟨l1, l2, e1, e2, e3⟩ := ih hr2 hf
              refine ⟨v :: l1, l2, by rw [e1]; rfl, ?_, by simp [List.eraseP_cons, hv, e3]⟩
              intro y hy
              rcases List.mem_cons.mp (by simpa using hy : y ∈ v :: (l1 ++ [x])) with rfl | hy
              · exact hr.1
              · exact e2 y hy
        obtain ⟨l1, l2, e1, e2, e3⟩ := key q hr hf
        exact ⟨x, l1, l2, e1, e2, trivial, trivial, by rw [e3]⟩
    · cases e
  · cases e; left; rfl

/-- What `send` does. -/
theorem rb_send_cases {P : PQ (A × Nat)} {s s' : RBuf.St A} {a : A} {t : Option (Nat × Nat × UInt16 × List UInt8)} (h : RBInv P s)
    (e : s.send P a t = .ok s') :
    s'.heap = ⟨s.heap.next :: s.heap.live, s.heap.next + 1⟩ ∧ s'.outq = s.outq ++ [(s.heap.next, a)] ∧
      ((t = none ∧ s'.retry = s.retry) ∨ ∃ g, g.addr = (a, s.heap.next) ∧ g.counter = 0 ∧ P.heap s'.retry.q ∧ s'.retry.q.Perm (g :: s.retry.q)) := by
  cases t with
  | none => cases e; exact ⟨rfl, rfl, Or.inl ⟨rfl, rfl⟩⟩
  | some p =>
    obtain ⟨now, rnd, mid, token⟩ := p
    simp only [RBuf.St.send, Retry.enqueue] at e
    split at e
    · cases e
    · next r _ hr =>
      cases e
      split at hr
      · cases hr
        exact ⟨rfl, rfl, Or.inr ⟨_, rfl, rfl, P.push_heap _ _ h.heap, P.push_perm _ _ h.heap⟩⟩
      · cases hr

/-- What `transmit` does. -/
theorem rb_transmit_cases {s s' : RBuf.St A} {k : Bool} (e : s.transmit k = .ok s') :
    (s.outq = [] ∧ s' = s) ∨ ∃ b a rest, s.outq = (b, a) :: rest ∧ b ∈ s.heap.live ∧
      s' = ⟨⟨if k then s.heap.live else s.heap.live.erase b, s.heap.next⟩, rest, s.retry⟩ := by
  obtain ⟨hp, outq, r⟩ := s
  cases outq with
  | nil => cases e; exact Or.inl ⟨rfl, rfl⟩
  | cons p rest =>
    obtain ⟨b, a⟩ := p
    right
    simp only [RBuf.St.transmit, Heap.delete] at e
    split at e
    · next hb =>
      refine ⟨b, a, rest, rfl, hb, ?_⟩
      cases k with
      | true => cases e; rfl
      | false => simp only [hb, if_true, Bool.false_eq_true, if_false] at e; cases e; rfl
    · cases e

theorem RBInv.step {P : PQ (A × Nat)} {same : A → A → Bool} {s s' : RBuf.St A} {e : RBuf.Ev A} (h : RBInv P s)
    (hs : s.step P same e = .ok s') : RBInv P s' := by
  cases e with
  | send a t =>
    obtain ⟨e1, e2, e3⟩ := rb_send_cases h hs
    have base : s'.heap.live.Nodup ∧ (∀ b ∈ s'.heap.live, b < s'.heap.next) ∧ (∀ b ∈ rbQueued s', b < s'.heap.next) := by
      rw [e1]
      refine ⟨List.nodup_cons.mpr ⟨fun hm => Nat.lt_irrefl _ (h.liveLt _ hm), h.nodup⟩, ?_, ?_⟩
      · intro b hb
        rcases List.mem_cons.mp hb with rfl | hb
        · exact Nat.lt_succ_self _
        · exact Nat.lt_succ_of_lt (h.liveLt b hb)
      · intro b hb
        rw [rbQueued, e2, List.map_append, List.mem_append] at hb
        rcases hb with hb | hb
        · exact Nat.lt_succ_of_lt (h.outLt b hb)
        · have : b = s.heap.next := by simpa using hb
          rw [this]; exact Nat.lt_succ_self _
    rcases e3 with ⟨_, e3⟩ | ⟨g, ga, gc, e4, e5⟩
    · refine ⟨by rw [e3]; exact h.heap, by rw [e3]; exact h.cnt, base.1, base.2.1, base.2.2, ?_, by rw [rbTracked, e3]; exact h.trkNodup⟩
      rw [rbTracked, e3, e1]
      exact fun b hb => Nat.lt_succ_of_lt (h.trkLt b hb)
    · have hp := e5.map (·.addr.2)
      refine ⟨e4, ?_, base.1, base.2.1, base.2.2, ?_, ?_⟩
      · intro x hx
        rcases List.mem_cons.mp (e5.mem_iff.mp hx) with rfl | hx
        · omega
        · exact h.cnt x hx
      · intro b hb
        rw [e1]
        rcases List.mem_cons.mp (hp.mem_iff.mp hb) with rfl | hb
        · simp only [ga]; exact Nat.lt_succ_self _
        · exact Nat.lt_succ_of_lt (h.trkLt b hb)
      · refine hp.nodup_iff.mpr (List.nodup_cons.mpr ⟨fun hm => ?_, h.trkNodup⟩)
        simp only [ga] at hm
        exact Nat.lt_irrefl _ (h.trkLt _ hm)
  | transmit k =>
    rcases rb_transmit_cases hs with ⟨_, rfl⟩ | ⟨b, a, rest, e1, hb, rfl⟩
    · exact h
    · refine ⟨h.heap, h.cnt, ?_, ?_, ?_, h.trkLt, h.trkNodup⟩
      · cases k
        · exact h.nodup.erase b
        · exact h.nodup
      · intro c hc
        refine h.liveLt c ?_
        cases k
        · exact List.mem_of_mem_erase hc
        · exact hc
      · intro c hc
        exact h.outLt c (by rw [rbQueued, e1]; exact List.mem_cons_of_mem _ hc)
  | ack a hd t =>
    rcases rb_ack_cases hs with rfl | ⟨x, l1, l2, e1, e2, e3, e4, e5⟩
    · exact h
    · have hp : s'.retry.q.Perm (l1 ++ l2) := e5 ▸ P.make_perm _
      have hsub : (l1 ++ l2).Sublist s.retry.q := by rw [e1]; exact List.Sublist.append (List.Sublist.refl _) (List.sublist_cons_self _ _)
      refine ⟨e5 ▸ P.make_heap _, fun y hy => h.cnt y (hsub.subset (hp.mem_iff.mp hy)), by rw [e3]; exact h.nodup, by rw [e3]; exact h.liveLt,
        by rw [rbQueued, e3, e4]; exact h.outLt, ?_, (hp.map _).nodup_iff.mpr (h.trkNodup.sublist (hsub.map _))⟩
      intro b hb
      rw [e3]
      exact h.trkLt b ((hsub.map _).subset ((hp.map (·.addr.2)).mem_iff.mp hb))
  | service now =>
    cases hs
    rcases rb_service_cases h now with e | ⟨f, fs, e1, _, e3, e4, e5⟩
    · rw [e]; exact h
    · have hfl : f.addr.2 < s.heap.next := h.trkLt _ (by rw [rbTracked, e1]; exact List.mem_cons_self ..)
      have hout : ∀ b ∈ rbQueued (s.service P now), b < (s.service P now).heap.next := by
        intro b hb
        rw [rbQueued, e4, List.map_append, List.mem_append] at hb
        rw [e3]
        rcases hb with hb | hb
        · exact h.outLt b hb
        · have : b = f.addr.2 := by simpa using hb
          rw [this]; exact hfl
      have htn := h.trkNodup
      rw [rbTracked, e1, List.map_cons] at htn
      have hfs : ∀ b ∈ fs.map (·.addr.2), b < s.heap.next := fun b hb => h.trkLt b (by rw [rbTracked, e1]; exact List.mem_cons_of_mem _ hb)
      have hfc : ∀ x ∈ fs, x.counter ≤ 2 := fun x hx => h.cnt x (by rw [e1]; exact List.mem_cons_of_mem _ hx)
      rcases e5 with ⟨hc, g, ga, gc, e6, e7⟩ | ⟨hc, e6, e7⟩
      · refine ⟨e6, ?_, by rw [e3]; exact h.nodup, by rw [e3]; exact h.liveLt, hout, ?_, ?_⟩
        · intro x hx
          rcases List.mem_cons.mp (e7.mem_iff.mp hx) with rfl | hx
          · omega
          · exact hfc x hx
        · intro b hb
          rw [e3]
          rcases List.mem_cons.mp ((e7.map (·.addr.2)).mem_iff.mp hb) with rfl | hb
          · simp only [ga]; exact hfl
          · exact hfs b hb
        · refine (e7.map (·.addr.2)).nodup_iff.mpr ?_
          rw [List.map_cons, ga]
          exact htn
      · refine ⟨e6, fun x hx => hfc x (e7.mem_iff.mp hx), by rw [e3]; exact h.nodup, by rw [e3]; exact h.liveLt, hout, ?_, ?_⟩
        · intro b hb
          rw [e3]
          exact hfs b ((e7.map (·.addr.2)).mem_iff.mp hb)
        · exact (e7.map (·.addr.2)).nodup_iff.mpr (List.nodup_cons.mp htn).2

theorem RBInv.run {P : PQ (A × Nat)} {same : A → A → Bool} (es : List (RBuf.Ev A)) : ∀ {s s' : RBuf.St A}, RBInv P s →
    s.run P same es = .ok s' → RBInv P s' := by
  induction es with
  | nil => intro s s' h e; cases e; exact h
  | cons e es ih =>
    intro s s' h hr
    simp only [RBuf.St.run] at hr
    split at hr
    · cases hr
    · next s1 h1 => exact ih (h.step h1) hr

/-- The buffer about to be transmitted is needed afterwards: it is waiting a second time, or its message is still to be resent. -/
def RBNeeded (s : RBuf.St A) : Prop := ∃ b a rest, s.outq = (b, a) :: rest ∧ (b ∈ rest.map (·.1) ∨ b ∈ rbTracked s)

/-- All through a run from `s`, the answers of the library (`true`: do not delete) are as `ok` asks. -/
def RBAnswers (P : PQ (A × Nat)) (same : A → A → Bool) (ok : RBuf.St A → Bool → Prop) : RBuf.St A → List (RBuf.Ev A) → Prop
  | _, [] => True
  | s, e :: es => (∀ k, e = .transmit k → ok s k) ∧ ∀ s', s.step P same e = .ok s' → RBAnswers P same ok s' es

/-- A buffer waits to be transmitted or belongs to a message that is still to be resent. -/
def RBHeld (s : RBuf.St A) (b : Nat) : Prop := b ∈ rbQueued s ∨ b ∈ rbTracked s

theorem readable_of {live : List Nat} {hit : Item (A × Nat) → Bool} : ∀ {q : List (Item (A × Nat))}, (∀ x ∈ q, x.addr.2 ∈ live) →
    readable live hit q = true := by
  intro q
  induction q with
  | nil => intro _; rfl
  | cons v vs ih =>
    intro h
    simp only [readable, Bool.and_eq_true, decide_eq_true_eq, Bool.or_eq_true]
    exact ⟨h v (by simp), Or.inr (ih fun x hx => h x (List.mem_cons_of_mem _ hx))⟩

/-- One action, if everything held is allocated and a buffer that is needed is not deleted: nothing is touched that is not allocated. -/
theorem rb_safe_step {P : PQ (A × Nat)} {same : A → A → Bool} {s : RBuf.St A} {e : RBuf.Ev A} (h : RBInv P s)
    (hl : ∀ b, RBHeld s b → b ∈ s.heap.live) (hk : ∀ k, e = .transmit k → RBNeeded s → k = true) :
    s.step P same e ≠ .error .freed ∧ ∀ s', s.step P same e = .ok s' → ∀ b, RBHeld s' b → b ∈ s'.heap.live := by
  cases e with
  | send a t =>
    refine ⟨?_, fun s' hs b hb => ?_⟩
    · cases t with
      | none => exact fun h => by cases h
      | some p =>
        obtain ⟨now, rnd, mid, token⟩ := p
        simp only [RBuf.St.step, RBuf.St.send]
        split
        · exact fun h => by cases h
        · exact fun h => by cases h
    · obtain ⟨e1, e2, e3⟩ := rb_send_cases h hs
      rw [e1]
      rcases hb with hb | hb
      · rw [rbQueued, e2, List.map_append, List.mem_append] at hb
        rcases hb with hb | hb
        · exact List.mem_cons_of_mem _ (hl b (Or.inl hb))
        · have : b = s.heap.next := by simpa using hb
          rw [this]; exact List.mem_cons_self ..
      · rcases e3 with ⟨_, e3⟩ | ⟨g, ga, _, _, e5⟩
        · rw [rbTracked, e3] at hb
          exact List.mem_cons_of_mem _ (hl b (Or.inr hb))
        · rcases List.mem_cons.mp ((e5.map (·.addr.2)).mem_iff.mp hb) with rfl | hb
          · simp only [ga]; exact List.mem_cons_self ..
          · exact List.mem_cons_of_mem _ (hl b (Or.inr hb))
  | transmit k =>
    refine ⟨?_, fun s' hs b hb => ?_⟩
    · have hq : ∀ b ∈ rbQueued s, b ∈ s.heap.live := fun b hb => hl b (Or.inl hb)
      obtain ⟨hp, outq, r⟩ := s
      cases outq with
      | nil => exact fun h => by cases h
      | cons p rest =>
        obtain ⟨b, a⟩ := p
        have hb : b ∈ hp.live := hq b (List.mem_cons_self ..)
        simp only [RBuf.St.step, RBuf.St.transmit, Heap.delete, hb, if_true]
        cases k <;> exact fun h => by cases h
    · rcases rb_transmit_cases hs with ⟨_, rfl⟩ | ⟨c, a, rest, e1, hc, rfl⟩
      · exact hl b hb
      · have hold : b ∈ s.heap.live := by
          refine hl b (hb.imp (fun hb => ?_) id)
          rw [rbQueued, e1]; exact List.mem_cons_of_mem _ hb
        cases k with
        | true => exact hold
        | false =>
          have hn : ¬ RBNeeded s := fun hn => Bool.false_ne_true (hk false rfl hn)
          have : b ≠ c := fun hbc => hn ⟨c, a, rest, e1, by subst hbc; exact hb⟩
          exact (List.mem_erase_of_ne this).mpr hold
  | ack a hd t =>
    refine ⟨?_, fun s' hs b hb => ?_⟩
    · have hr : ∀ x ∈ s.retry.q, x.addr.2 ∈ s.heap.live := fun x hx => hl _ (Or.inr (List.mem_map.mpr ⟨x, hx, rfl⟩))
      simp only [RBuf.St.step, RBuf.St.ack, readable_of hr, if_true]
      split <;> exact fun h => by cases h
    · rcases rb_ack_cases hs with rfl | ⟨x, l1, l2, e1, e2, e3, e4, e5⟩
      · exact hl b hb
      · rw [e3]
        refine hl b (hb.imp (fun hb => by rw [rbQueued, e4] at hb; exact hb) fun hb => ?_)
        have hsub : (l1 ++ l2).Sublist s.retry.q := by rw [e1]; exact List.Sublist.append (List.Sublist.refl _) (List.sublist_cons_self _ _)
        rw [rbTracked, e5] at hb
        exact (hsub.map _).subset (((P.make_perm _).map (·.addr.2)).mem_iff.mp hb)
  | service now =>
    refine ⟨(fun h => by cases h), fun s' hs b hb => ?_⟩
    cases hs
    rcases rb_service_cases h now with e | ⟨f, fs, e1, _, e3, e4, e5⟩
    · rw [e] at hb ⊢; exact hl b hb
    · rw [e3]
      have hf : RBHeld s f.addr.2 := Or.inr (by rw [rbTracked, e1]; exact List.mem_cons_self ..)
      have hfs : ∀ b ∈ fs.map (·.addr.2), RBHeld s b := fun b hb => Or.inr (by rw [rbTracked, e1]; exact List.mem_cons_of_mem _ hb)
      refine hl b ?_
      rcases hb with hb | hb
      · rw [rbQueued, e4, List.map_append, List.mem_append] at hb
        rcases hb with hb | hb
        · exact Or.inl hb
        · have : b = f.addr.2 := by simpa using hb
          rw [this]; exact hf
      · rcases e5 with ⟨_, g, ga, _, _, e7⟩ | ⟨_, _, e7⟩
        · rcases List.mem_cons.mp ((e7.map (·.addr.2)).mem_iff.mp hb) with rfl | hb
          · simp only [ga]; exact hf
          · exact hfs b hb
        · exact hfs b ((e7.map (·.addr.2)).mem_iff.mp hb)

/-- C100: in every run in which a buffer that is still needed is never deleted after a transmission, no buffer is read, sent or deleted when it is
not allocated, and every buffer that waits or belongs to a message still to be resent is allocated. -/
theorem resend_buffers_safe_partial (P : PQ (A × Nat)) (same : A → A → Bool) (es : List (RBuf.Ev A))
    (hk : RBAnswers P same (fun s k => RBNeeded s → k = true) RBuf.St.init es) :
    RBuf.St.init.run P same es ≠ .error .freed ∧
      ∀ s, RBuf.St.init.run P same es = .ok s → ∀ b, RBHeld s b → b ∈ s.heap.live := by
  suffices H : ∀ (es : List (RBuf.Ev A)) (s : RBuf.St A), RBInv P s → (∀ b, RBHeld s b → b ∈ s.heap.live) →
      RBAnswers P same (fun s k => RBNeeded s → k = true) s es →
      s.run P same es ≠ .error .freed ∧ ∀ s', s.run P same es = .ok s' → ∀ b, RBHeld s' b → b ∈ s'.heap.live by
    refine H es _ (rbInv_init P) (fun b hb => ?_) hk
    simp [RBHeld, rbQueued, rbTracked, RBuf.St.init, Retry.init] at hb
  intro es
  induction es with
  | nil => intro s _ hl _; exact ⟨(fun h => by cases h), (fun s' h => by cases h; exact hl)⟩
  | cons e es ih =>
    intro s h hl hk
    obtain ⟨h1, h2⟩ := rb_safe_step (same := same) h hl hk.1
    simp only [RBuf.St.run]
    split
    · next f hf =>
      exact ⟨(fun hc => h1 (by rw [hf]; exact hc)), (fun s' hc => by cases hc)⟩
    · next s1 hs => exact ih s1 (h.step hs) (h2 s1 hs) (hk.2 s1 hs)

/-- What is neither waiting nor to be resent is never touched again. -/
theorem rb_orphan_run (P : PQ (A × Nat)) (same : A → A → Bool) (b : Nat) : ∀ (es : List (RBuf.Ev A)) (s s' : RBuf.St A), RBInv P s →
    b ∈ s.heap.live → ¬ RBHeld s b → s.run P same es = .ok s' → b ∈ s'.heap.live ∧ ¬ RBHeld s' b := by
  intro es
  induction es with
  | nil => intro s s' _ h1 h2 hr; cases hr; exact ⟨h1, h2⟩
  | cons e es ih =>
    intro s s' h h1 h2 hr
    simp only [RBuf.St.run] at hr
    split at hr
    · cases hr
    next s1 hs =>
    have hlt := h.liveLt b h1
    suffices H : b ∈ s1.heap.live ∧ ¬ RBHeld s1 b from ih s1 s' (h.step hs) H.1 H.2 hr
    simp only [RBHeld, not_or] at h2 ⊢
    cases e with
    | send a t =>
      obtain ⟨e1, e2, e3⟩ := rb_send_cases h hs
      refine ⟨by rw [e1]; exact List.mem_cons_of_mem _ h1, fun hq => ?_, fun hq => ?_⟩
      · rw [rbQueued, e2, List.map_append, List.mem_append] at hq
        rcases hq with hq | hq
        · exact h2.1 hq
        · have : b = s.heap.next := by simpa using hq
          omega
      · rcases e3 with ⟨_, e3⟩ | ⟨g, ga, _, _, e5⟩
        · rw [rbTracked, e3] at hq; exact h2.2 hq
        · rcases List.mem_cons.mp ((e5.map (·.addr.2)).mem_iff.mp hq) with hq | hq
          · simp only [ga] at hq; omega
          · exact h2.2 hq
    | transmit k =>
      rcases rb_transmit_cases hs with ⟨_, rfl⟩ | ⟨c, a, rest, e1, hc, rfl⟩
      · exact ⟨h1, h2⟩
      · have hbc : b ≠ c := by
          rintro rfl
          exact h2.1 (by rw [rbQueued, e1]; exact List.mem_cons_self ..)
        refine ⟨?_, fun hq => h2.1 ?_, h2.2⟩
        · cases k
          · exact (List.mem_erase_of_ne hbc).mpr h1
          · exact h1
        · rw [rbQueued, e1]; exact List.mem_cons_of_mem _ hq
    | ack a hd t =>
      rcases rb_ack_cases hs with rfl | ⟨x, l1, l2, e1, e2, e3, e4, e5⟩
      · exact ⟨h1, h2⟩
      · refine ⟨by rw [e3]; exact h1, fun hq => h2.1 (by rw [rbQueued, e4] at hq; exact hq), fun hq => h2.2 ?_⟩
        have hsub : (l1 ++ l2).Sublist s.retry.q := by rw [e1]; exact List.Sublist.append (List.Sublist.refl _) (List.sublist_cons_self _ _)
        rw [rbTracked, e5] at hq
        exact (hsub.map _).subset (((P.make_perm _).map (·.addr.2)).mem_iff.mp hq)
    | service now =>
      cases hs
      rcases rb_service_cases h now with e | ⟨f, fs, e1, _, e3, e4, e5⟩
      · rw [e]; exact ⟨h1, h2⟩
      · have hf : b ≠ f.addr.2 := by
          rintro rfl
          exact h2.2 (by rw [rbTracked, e1]; exact List.mem_cons_self ..)
        have hfs : b ∉ fs.map (·.addr.2) := fun hq => h2.2 (by rw [rbTracked, e1]; exact List.mem_cons_of_mem _ hq)
        refine ⟨by rw [e3]; exact h1, fun hq => ?_, fun hq => ?_⟩
        · rw [rbQueued, e4, List.map_append, List.mem_append] at hq
          rcases hq with hq | hq
          · exact h2.1 hq
          · exact hf (by simpa using hq)
        · rcases e5 with ⟨_, g, ga, _, _, e7⟩ | ⟨_, _, e7⟩
          · rcases List.mem_cons.mp ((e7.map (·.addr.2)).mem_iff.mp hq) with hq | hq
            · simp only [ga] at hq; exact hf hq
            · exact hfs hq
          · exact hfs ((e7.map (·.addr.2)).mem_iff.mp hq)

theorem rb_acked_lost (P : PQ (A × Nat)) (same : A → A → Bool) (es' : List (RBuf.Ev A)) (a : A) (h : Header) (t : List UInt8)
    (s s1 s2 : RBuf.St A) (b : Nat) (hi : RBInv P s) (h1 : s.step P same (.ack a h t) = .ok s1)
    (hb : b ∈ rbTracked s) (hb1 : b ∉ rbTracked s1) (hq : b ∉ rbQueued s1) (h2 : s1.run P same es' = .ok s2) :
    b ∈ s2.heap.live ∧ ¬ RBHeld s2 b := by
  refine rb_orphan_run P same b es' s1 s2 (hi.step h1) ?_ (fun h => h.elim hq hb1) h2
  rcases rb_ack_cases h1 with rfl | ⟨x, l1, l2, e1, e2, e3, e4, e5⟩
  · exact absurd hb hb1
  · rw [e3]
    rw [rbTracked, e1, List.map_append, List.map_cons, List.mem_append, List.mem_cons] at hb
    have hn : b ∉ (l1 ++ l2).map (·.addr.2) := fun hm => hb1 (by rw [rbTracked, e5]; exact ((P.make_perm _).map (·.addr.2)).mem_iff.mpr hm)
    rw [List.map_append, List.mem_append, not_or] at hn
    rcases hb with hb | hb | hb
    · exact absurd hb hn.1
    · rw [hb]; exact e2 x (by simp)
    · exact absurd hb hn.2

/-- C100 fails whatever the library answers: if an acknowledgement ends the resending of a message while its buffer is not waiting to be transmitted,
and no freed buffer is read on the way, the buffer stays allocated for ever. -/
theorem acknowledged_buffer_lost (P : PQ (A × Nat)) (same : A → A → Bool) (es es' : List (RBuf.Ev A)) (a : A) (h : Header) (t : List UInt8)
    (s s1 s2 : RBuf.St A) (b : Nat) (h0 : RBuf.St.init.run P same es = .ok s) (h1 : s.step P same (.ack a h t) = .ok s1)
    (hb : b ∈ rbTracked s) (hb1 : b ∉ rbTracked s1) (hq : b ∉ rbQueued s1) (h2 : s1.run P same es' = .ok s2) :
    b ∈ s2.heap.live ∧ ¬ RBHeld s2 b :=
  rb_acked_lost P same es' a h t s s1 s2 b (RBInv.run es (rbInv_init P) h0) h1 hb hb1 hq h2

/-- The buffers of the messages whose resending was ended by an acknowledgement while they were not waiting to be transmitted. -/
def rbLost (P : PQ (A × Nat)) (same : A → A → Bool) : RBuf.St A → List (RBuf.Ev A) → List Nat
  | _, [] => []
  | s, e :: es =>
    match s.step P same e with
    | .error _ => []
    | .ok s' =>
      (match e with
        | .ack .. => (rbTracked s).filter (fun b => decide (b ∉ rbTracked s') && decide (b ∉ rbQueued s'))
        | _ => []) ++ rbLost P same s' es

theorem rb_lost_live (P : PQ (A × Nat)) (same : A → A → Bool) (b : Nat) : ∀ (es : List (RBuf.Ev A)) (s s' : RBuf.St A), RBInv P s →
    s.run P same es = .ok s' → b ∈ rbLost P same s es → b ∈ s'.heap.live ∧ ¬ RBHeld s' b := by
  intro es
  induction es with
  | nil => intro s s' _ _ h; simp [rbLost] at h
  | cons e es ih =>
    intro s s' hi hr hb
    simp only [RBuf.St.run] at hr
    split at hr
    · cases hr
    next s1 hs =>
    simp only [rbLost, hs, List.mem_append] at hb
    rcases hb with hb | hb
    · cases e with
      | ack a h t =>
        simp only [List.mem_filter, Bool.and_eq_true, decide_eq_true_eq] at hb
        exact rb_acked_lost P same es a h t s s1 s' b hi hs hb.1 hb.2.1 hb.2.2 hr
      | _ => simp at hb
    · exact ih s1 s' (hi.step hs) hr hb

/-- C100, exactly: if after every transmission the buffer is deleted when and only when it is not needed any more, the buffers allocated after any run
are those that wait or belong to a message still to be resent, each of them once, and those of the messages acknowledged between two transmissions;
the latter are neither waiting nor tracked. -/
theorem resend_buffers_exact (P : PQ (A × Nat)) (same : A → A → Bool) (es : List (RBuf.Ev A)) (s : RBuf.St A)
    (hk : RBAnswers P same (fun s k => RBNeeded s ↔ k = true) RBuf.St.init es) (hr : RBuf.St.init.run P same es = .ok s) :
    s.heap.live.Nodup ∧ (∀ b, b ∈ s.heap.live ↔ RBHeld s b ∨ b ∈ rbLost P same RBuf.St.init es) ∧
      ∀ b ∈ rbLost P same RBuf.St.init es, ¬ RBHeld s b := by
  have hk' : ∀ (es : List (RBuf.Ev A)) (s : RBuf.St A), RBAnswers P same (fun s k => RBNeeded s ↔ k = true) s es →
      RBAnswers P same (fun s k => RBNeeded s → k = true) s es := by
    intro es
    induction es with
    | nil => intro s _; trivial
    | cons e es ih => intro s h; exact ⟨fun k hk => (h.1 k hk).mp, fun s' hs => ih s' (h.2 s' hs)⟩
  have hlost := fun b => rb_lost_live P same b es _ s (rbInv_init P) hr
  suffices H : ∀ (es : List (RBuf.Ev A)) (s s' : RBuf.St A) (L : List Nat), RBInv P s → (∀ b ∈ s.heap.live, RBHeld s b ∨ b ∈ L) →
      RBAnswers P same (fun s k => RBNeeded s ↔ k = true) s es →
      s.run P same es = .ok s' → ∀ b ∈ s'.heap.live, RBHeld s' b ∨ b ∈ L ++ rbLost P same s es by
    refine ⟨(RBInv.run es (rbInv_init P) hr).nodup, fun b => ⟨H es _ s [] (rbInv_init P) ?_ hk hr b, fun h => ?_⟩, fun b hb => (hlost b hb).2⟩
    · intro b hb
      simp [RBuf.St.init] at hb
    · exact h.elim ((resend_buffers_safe_partial P same es (hk' es _ hk)).2 s hr b) fun h => (hlost b h).1
  intro es
  induction es with
  | nil => intro s s' L _ hl _ hr; cases hr; simpa [rbLost] using hl
  | cons e es ih =>
    intro s s' L h hl hk hr
    simp only [RBuf.St.run] at hr
    split at hr
    · cases hr
    next s1 hs =>
    simp only [rbLost, hs]
    rw [← List.append_assoc]
    refine ih s1 s' _ (h.step hs) ?_ (hk.2 s1 hs) hr
    cases e with
    | send a t =>
      obtain ⟨e1, e2, e3⟩ := rb_send_cases h hs
      intro b hb
      rw [e1] at hb
      rw [List.append_nil]
      rcases List.mem_cons.mp hb with rfl | hb
      · exact Or.inl (Or.inl (by rw [rbQueued, e2]; simp))
      · refine (hl b hb).imp (fun hb => hb.imp (fun hb => ?_) fun hb => ?_) id
        · rw [rbQueued, e2, List.map_append]; exact List.mem_append_left _ hb
        · rcases e3 with ⟨_, e3⟩ | ⟨g, _, _, _, e5⟩
          · rw [rbTracked, e3]; exact hb
          · exact (e5.map (·.addr.2)).mem_iff.mpr (List.mem_cons_of_mem _ hb)
    | transmit k =>
      rw [List.append_nil]
      rcases rb_transmit_cases hs with ⟨_, rfl⟩ | ⟨c, a, rest, e1, hc, rfl⟩
      · exact hl
      · intro b hb
        have hbl : b ∈ s.heap.live := by
          cases k
          · exact List.mem_of_mem_erase hb
          · exact hb
        by_cases hbc : b = c
        · subst hbc
          cases k with
          | true =>
            obtain ⟨b', a', rest', e2, hn⟩ := (hk.1 true rfl).mpr rfl
            rw [e1] at e2
            cases e2
            exact Or.inl hn
          | false => exact absurd hb (by simpa using h.nodup.not_mem_erase)
        · refine (hl b hbl).imp (fun hb => hb.imp (fun hq => ?_) id) id
          rw [rbQueued, e1] at hq
          exact (List.mem_cons.mp hq).resolve_left hbc
    | ack a hd t =>
      intro b hb
      have hb0 : b ∈ s.heap.live := by
        rcases rb_ack_cases hs with rfl | ⟨x, l1, l2, e1, e2, e3, e4, e5⟩
        · exact hb
        · rw [e3] at hb; exact hb
      have hq0 : rbQueued s1 = rbQueued s := by
        rcases rb_ack_cases hs with rfl | ⟨x, l1, l2, e1, e2, e3, e4, e5⟩
        · rfl
        · rw [rbQueued, e4, rbQueued]
      rw [List.mem_append]
      rcases hl b hb0 with (hq | hq) | hq
      · exact Or.inl (Or.inl (hq0 ▸ hq))
      · by_cases h1 : RBHeld s1 b
        · exact Or.inl h1
        · simp only [RBHeld, not_or] at h1
          refine Or.inr (Or.inr ?_)
          simp only [List.mem_filter, Bool.and_eq_true, decide_eq_true_eq]
          exact ⟨hq, h1.2, h1.1⟩
      · exact Or.inr (Or.inl hq)
    | service now =>
      cases hs
      rw [List.append_nil]
      rcases rb_service_cases h now with e | ⟨f, fs, e1, _, e3, e4, e5⟩
      · rw [e]; exact hl
      · intro b hb
        rw [e3] at hb
        rcases hl b hb with (hq | hq) | hq
        · exact Or.inl (Or.inl (by rw [rbQueued, e4, List.map_append]; exact List.mem_append_left _ hq))
        · refine Or.inl ?_
          rw [rbTracked, e1] at hq
          rcases List.mem_cons.mp hq with rfl | hq
          · exact Or.inl (by rw [rbQueued, e4]; simp)
          · rcases e5 with ⟨_, g, _, _, _, e7⟩ | ⟨_, _, e7⟩
            · exact Or.inr ((e7.map (·.addr.2)).mem_iff.mpr (List.mem_cons_of_mem _ hq))
            · exact Or.inr ((e7.map (·.addr.2)).mem_iff.mpr hq)
        · exact Or.inr hq

/-- C100: with these answers, exactly the buffers that wait or belong to a message still to be resent are allocated, if and only if no message was
acknowledged between two transmissions. -/
theorem resend_buffers_exact_iff (P : PQ (A × Nat)) (same : A → A → Bool) (es : List (RBuf.Ev A)) (s : RBuf.St A)
    (hk : RBAnswers P same (fun s k => RBNeeded s ↔ k = true) RBuf.St.init es) (hr : RBuf.St.init.run P same es = .ok s) :
    (∀ b, b ∈ s.heap.live ↔ RBHeld s b) ↔ rbLost P same RBuf.St.init es = [] := by
  obtain ⟨_, h1, h2⟩ := resend_buffers_exact P same es s hk hr
  constructor
  · intro h
    refine List.eq_nil_iff_forall_not_mem.mpr fun b hb => h2 b hb ((h b).mp ((h1 b).mpr (Or.inr hb)))
  · intro h b
    rw [h1 b, h]
    simp

/-- A buffer that is not allocated any more never is again. -/
theorem rb_freed_run (P : PQ (A × Nat)) (same : A → A → Bool) (b : Nat) : ∀ (es : List (RBuf.Ev A)) (s s' : RBuf.St A), RBInv P s →
    b < s.heap.next → b ∉ s.heap.live → s.run P same es = .ok s' → b ∉ s'.heap.live := by
  intro es
  induction es with
  | nil => intro s s' _ _ h2 hr; cases hr; exact h2
  | cons e es ih =>
    intro s s' h h1 h2 hr
    simp only [RBuf.St.run] at hr
    split at hr
    · cases hr
    next s1 hs =>
    suffices H : b < s1.heap.next ∧ b ∉ s1.heap.live from ih s1 s' (h.step hs) H.1 H.2 hr
    cases e with
    | send a t =>
      obtain ⟨e1, _, _⟩ := rb_send_cases h hs
      rw [e1]
      refine ⟨Nat.lt_succ_of_lt h1, fun hm => ?_⟩
      rcases List.mem_cons.mp hm with rfl | hm
      · exact Nat.lt_irrefl _ h1
      · exact h2 hm
    | transmit k =>
      rcases rb_transmit_cases hs with ⟨_, rfl⟩ | ⟨c, a, rest, e1, hc, rfl⟩
      · exact ⟨h1, h2⟩
      · refine ⟨h1, fun hm => h2 ?_⟩
        cases k
        · exact List.mem_of_mem_erase hm
        · exact hm
    | ack a hd t =>
      rcases rb_ack_cases hs with rfl | ⟨x, l1, l2, e1, e2, e3, e4, e5⟩
      · exact ⟨h1, h2⟩
      · rw [e3]; exact ⟨h1, h2⟩
    | service now => cases hs; exact ⟨h1, h2⟩

/-- C100 fails whenever a buffer is deleted after a transmission although its message is still to be resent (always so without
`FEATURE_MCCOAP_RELIABLE`): from then on, whatever happens, the buffer is not allocated; sending it once more uses freed memory, and so does any
acknowledgement that arrives while the message is the first of the retry queue, whether it is meant for it or not. -/
theorem deleted_resend_undefined (P : PQ (A × Nat)) (same : A → A → Bool) (es es' : List (RBuf.Ev A)) (s s1 s2 : RBuf.St A) (b : Nat) (a : A)
    (rest : List (Nat × A)) (h0 : RBuf.St.init.run P same es = .ok s) (hf : s.outq = (b, a) :: rest)
    (h1 : s.step P same (.transmit false) = .ok s1) (h2 : s1.run P same es' = .ok s2) :
    b ∉ s2.heap.live ∧
    (∀ a' rest' k, s2.outq = (b, a') :: rest' → s2.step P same (.transmit k) = .error .freed) ∧
    (∀ x q, s2.retry.q = x :: q → x.addr.2 = b →
      (∀ a' h t, h.type = Header.acknowledgement → s2.step P same (.ack a' h t) = .error .freed) ∧
      (∀ now k, s2.outq = [] → x.due ≤ now → s2.run P same [.service now, .transmit k] = .error .freed)) := by
  have hi := RBInv.run es (rbInv_init P) h0
  have hi1 := hi.step h1
  have hnot : b ∉ s2.heap.live := by
    rcases rb_transmit_cases h1 with ⟨h, _⟩ | ⟨c, a', r', e1, hc, rfl⟩
    · rw [hf] at h; cases h
    · rw [hf] at e1; cases e1
      exact rb_freed_run P same b es' _ s2 hi1 (hi.liveLt b hc) (by simpa using hi.nodup.not_mem_erase) h2
  have hi2 := RBInv.run es' hi1 h2
  have htx : ∀ (s : RBuf.St A) a' rest' k, b ∉ s.heap.live → s.outq = (b, a') :: rest' → s.step P same (.transmit k) = .error .freed := by
    intro s a' rest' k hn hq
    simp only [RBuf.St.step, RBuf.St.transmit, hq, hn, if_false]
  refine ⟨hnot, fun a' rest' k => htx s2 a' rest' k hnot, fun x q hx hxb => ⟨fun a' h t ht => ?_, fun now k hq hd => ?_⟩⟩
  · simp [RBuf.St.step, RBuf.St.ack, ht, hx, readable, hxb, hnot]
  · have hs : s2.service P now ≠ s2 := by
      intro he
      have : (s2.service P now).outq = s2.outq := by rw [he]
      have hc : x.counter ≤ 2 := hi2.cnt x (by rw [hx]; exact List.mem_cons_self ..)
      by_cases h2 : x.counter < 2
      · simp [RBuf.St.service, serviceRetry, hx, hd, h2] at this
      · have h3 : x.counter = 2 := by omega
        simp [RBuf.St.service, serviceRetry, hx, hd, h3] at this
    rcases rb_service_cases hi2 now with e | ⟨f, fs, e1, _, e3, e4, _⟩
    · exact absurd e hs
    · rw [hx] at e1; cases e1
      have := htx (s2.service P now) x.addr.1 [] k (by rw [e3]; exact hnot) (by rw [e4, hq, ← hxb]; rfl)
      simp only [RBuf.St.run]
      rw [show s2.step P same (.service now) = .ok (s2.service P now) from rfl]
      dsimp only
      rw [this]

/-- C100 fails if buffers are never deleted (every answer `true`): nothing is ever freed. -/
theorem kept_buffers_lost (P : PQ (A × Nat)) (same : A → A → Bool) (es : List (RBuf.Ev A)) (hk : RBuf.Ev.transmit false ∉ es) :
    RBuf.St.init.run P same es ≠ .error .freed ∧
      ∀ s, RBuf.St.init.run P same es = .ok s → ∀ b, b < s.heap.next → b ∈ s.heap.live := by
  constructor
  · refine (resend_buffers_safe_partial P same es ?_).1
    have : ∀ (es : List (RBuf.Ev A)) (s : RBuf.St A), RBuf.Ev.transmit false ∉ es → RBAnswers P same (fun s k => RBNeeded s → k = true) s es := by
      intro es
      induction es with
      | nil => intro s _; trivial
      | cons e es ih =>
        intro s hn
        simp only [List.mem_cons, not_or] at hn
        refine ⟨fun k hk _ => ?_, fun s' _ => ih s' hn.2⟩
        cases k
        · exact absurd hk.symm hn.1
        · rfl
    exact this es _ hk
  · suffices H : ∀ (es : List (RBuf.Ev A)) (s s' : RBuf.St A), RBInv P s → RBuf.Ev.transmit false ∉ es → (∀ b, b < s.heap.next → b ∈ s.heap.live) →
        s.run P same es = .ok s' → ∀ b, b < s'.heap.next → b ∈ s'.heap.live by
      intro s hr
      exact H es _ s (rbInv_init P) hk (fun b hb => absurd hb (Nat.not_lt_zero b)) hr
    intro es
    induction es with
    | nil => intro s s' _ _ hl hr; cases hr; exact hl
    | cons e es ih =>
      intro s s' h hn hl hr
      simp only [List.mem_cons, not_or] at hn
      simp only [RBuf.St.run] at hr
      split at hr
      · cases hr
      next s1 hs =>
      refine ih s1 s' (h.step hs) hn.2 ?_ hr
      cases e with
      | send a t =>
        obtain ⟨e1, _, _⟩ := rb_send_cases h hs
        rw [e1]
        intro b hb
        rcases Nat.lt_or_eq_of_le (Nat.le_of_lt_succ hb) with hb | rfl
        · exact List.mem_cons_of_mem _ (hl b hb)
        · exact List.mem_cons_self ..
      | transmit k =>
        cases k with
        | false => exact absurd rfl hn.1
        | true =>
          rcases rb_transmit_cases hs with ⟨_, rfl⟩ | ⟨c, a, rest, e1, hc, rfl⟩
          · exact hl
          · exact hl
      | ack a hd t =>
        rcases rb_ack_cases hs with rfl | ⟨x, l1, l2, e1, e2, e3, e4, e5⟩
        · exact hl
        · rw [e3]; exact hl
      | service now => cases hs; exact hl

/-- Whether the buffer about to be transmitted is needed afterwards. -/
def rbNeeds (s : RBuf.St A) : Bool :=
  match s.outq with
  | [] => false
  | (b, _) :: rest => decide (b ∈ rest.map (·.1)) || decide (b ∈ rbTracked s)

/-- The same actions, with the right answers. -/
def rbFill (P : PQ (A × Nat)) (same : A → A → Bool) : RBuf.St A → List (RBuf.Ev A) → List (RBuf.Ev A)
  | _, [] => []
  | s, .transmit _ :: es =>
    .transmit (rbNeeds s) :: (match s.step P same (.transmit (rbNeeds s)) with | .ok s' => rbFill P same s' es | .error _ => es)
  | s, e :: es => e :: (match s.step P same e with | .ok s' => rbFill P same s' es | .error _ => es)

/-- Every program has a run with the answers asked for in `resend_buffers_safe_partial` and `resend_buffers_exact`. -/
theorem right_answers_exist (P : PQ (A × Nat)) (same : A → A → Bool) (es : List (RBuf.Ev A)) :
    ∀ s : RBuf.St A, RBAnswers P same (fun s k => RBNeeded s ↔ k = true) s (rbFill P same s es) := by
  have hn : ∀ s : RBuf.St A, RBNeeded s ↔ rbNeeds s = true := by
    intro s
    obtain ⟨hp, outq, r⟩ := s
    cases outq with
    | nil => simp [RBNeeded, rbNeeds]
    | cons p rest =>
      obtain ⟨b, a⟩ := p
      simp only [RBNeeded, rbNeeds, Bool.or_eq_true, decide_eq_true_eq]
      constructor
      · rintro ⟨_, _, _, e, h⟩
        cases e
        exact h
      · exact fun h => ⟨b, a, rest, rfl, h⟩
  induction es with
  | nil => intro s; trivial
  | cons e es ih =>
    intro s
    cases e with
    | transmit k =>
      refine ⟨fun k' hk' => ?_, fun s' hs => ?_⟩
      · cases hk'; exact hn s
      · rw [hs]; exact ih s'
    | send a t => exact ⟨(fun k hk => by cases hk), (fun s' hs => by rw [hs]; exact ih s')⟩
    | ack a h t => exact ⟨(fun k hk => by cases hk), (fun s' hs => by rw [hs]; exact ih s')⟩
    | service now => exact ⟨(fun k hk => by cases hk), (fun s' hs => by rw [hs]; exact ih s')⟩

/-! Concrete cases: a message resent three times between two that are not; an acknowledgement after the first transmission. -/

def rbOf (e : Except Stop (RBuf.St Nat)) : Except Stop (List Nat × List Nat × List Nat) := e.map fun s => (s.heap.live, rbQueued s, rbTracked s)

instance : DecidableEq (Except Stop (List Nat × List Nat × List Nat))
  | .ok a, .ok b => decidable_of_iff (a = b) (by simp)
  | .error a, .error b => decidable_of_iff (a = b) (by simp)
  | .ok _, .error _ => isFalse (by simp)
  | .error _, .ok _ => isFalse (by simp)

def rbThrice (n : Nat) : List (RBuf.Ev Nat) :=
  ([.send 4 none, .send 5 (some (0, 2000, 7, [1])), .send 6 none, .transmit true, .transmit true, .transmit true, .service 2000, .transmit true,
    .service 6000, .transmit true, .service 14000, .transmit true] : List (RBuf.Ev Nat)).take n

example : rbOf (RBuf.St.init.run sortedPQ (· == ·) (rbFill sortedPQ (· == ·) RBuf.St.init (rbThrice 11))) = .ok ([1], [1], []) := by decide +kernel
example : rbOf (RBuf.St.init.run sortedPQ (· == ·) (rbFill sortedPQ (· == ·) RBuf.St.init (rbThrice 12))) = .ok ([], [], []) := by decide +kernel
example : rbOf (RBuf.St.init.run sortedPQ (· == ·) (rbFill sortedPQ (· == ·) RBuf.St.init (rbThrice 7))) = .ok ([1], [1], [1]) := by decide +kernel

/-- As in `acknowledged_buffer_lost`: sent, not deleted, acknowledged, never freed. -/
example : rbOf (RBuf.St.init.run sortedPQ (· == ·) [.send 5 (some (0, 2000, 7, [1])), .transmit true, .ack 5 ackHdr [1], .service 90000, .transmit false])
    = .ok ([0], [], []) := by decide +kernel

/-- As in `deleted_resend_undefined`: an acknowledgement for somebody else after the buffer was deleted; sending it once more. -/
example : rbOf (RBuf.St.init.run sortedPQ (· == ·) [.send 5 (some (0, 2000, 7, [1])), .transmit false, .ack 9 ackHdr [2]]) = .error .freed := by decide +kernel
example : rbOf (RBuf.St.init.run sortedPQ (· == ·) [.send 5 (some (0, 2000, 7, [1])), .transmit false, .service 2000, .transmit false]) = .error .freed := by
  decide +kernel

/-- As in `kept_buffers_lost`. -/
example : rbOf (RBuf.St.init.run sortedPQ (· == ·) (rbThrice 12)) = .ok ([2, 1, 0], [], []) := by decide +kernel

end Verif.Props
