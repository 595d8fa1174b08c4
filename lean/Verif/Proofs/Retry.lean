import Verif.Spec.Retry

/-! # Invariant of the retry queue over whole histories -/
namespace Verif.Proofs.Retry
open Verif.Model Verif.Model.Retry Verif.Spec.Retry

variable {A : Type}

@[simp] theorem sendsOf_append (id : Nat) (a b : List (Out A)) : sendsOf id (a ++ b) = sendsOf id a ++ sendsOf id b := by
  induction a with
  | nil => rfl
  | cons o a ih =>
    cases o <;> simp only [List.cons_append, sendsOf, ih]
    split <;> simp

theorem Spaced.snoc {T k last t : Nat} {ts : List Nat} (h : Spaced T k last ts)
    (ht : ts.getLastD last + T * 2 ^ (k + ts.length) ≤ t) : Spaced T k last (ts ++ [t]) := by
  induction ts generalizing k last with
  | nil => exact ⟨by simpa using ht, trivial⟩
  | cons u us ih =>
    refine ⟨h.1, ih h.2 ?_⟩
    simp only [List.getLastD_cons, List.length_cons] at ht
    rwa [show k + 1 + us.length = k + (us.length + 1) by omega]

theorem sendsOf_nil_of {id : Nat} {tr : List (Out A)} (h : ∀ t a, Out.sent t id a ∉ tr) : sendsOf id tr = [] := by
  induction tr with
  | nil => rfl
  | cons o tr ih =>
    have := ih fun t a hm => h t a (List.mem_cons_of_mem _ hm)
    cases o with
    | sent t i a =>
      simp only [sendsOf]
      rw [if_neg, this]
      rintro rfl; exact h t a List.mem_cons_self
    | _ => simpa only [sendsOf]

/-- What holds between the queue and everything observed so far. -/
structure Inv (P : PQ A) (s : St A) (tr : List (Out A)) : Prop where
  heap : P.heap s.q
  room : s.q.length ≤ 10
  nodup : (s.q.map (·.id)).Nodup
  item : ∀ x ∈ s.q, x.id < s.next ∧ x.counter ≤ 2 ∧ (sendsOf x.id tr).length = x.counter ∧ Out.acked x.id ∉ tr ∧
    ∃ t0, Out.queued t0 x.id x.timeout x.addr ∈ tr ∧ x.due = (sendsOf x.id tr).getLastD t0 + x.timeout * 2 ^ x.counter
  known : ∀ t0 id T a, Out.queued t0 id T a ∈ tr → id < s.next ∧ Spaced T 0 t0 (sendsOf id tr) ∧
    (sendsOf id tr).length ≤ 3 ∧ ((∃ x ∈ s.q, x.id = id) ∨ Out.acked id ∈ tr ∨ (sendsOf id tr).length = 3)
  uniq : ∀ t0 id T a t0' T' a', Out.queued t0 id T a ∈ tr → Out.queued t0' id T' a' ∈ tr → t0 = t0' ∧ T = T' ∧ a = a'
  sent : ∀ t id a, Out.sent t id a ∈ tr → ∃ t0 T, Out.queued t0 id T a ∈ tr
  acked : ∀ id, Out.acked id ∈ tr → ∃ t0 T a, Out.queued t0 id T a ∈ tr

theorem Inv.init (P : PQ A) : Inv P (Retry.init : St A) [] :=
  ⟨P.heap_nil, by simp [Retry.init], by simp [Retry.init], by simp [Retry.init], by simp, by simp, by simp, by simp⟩

theorem Inv.fresh {P : PQ A} {s tr} (h : Inv P s tr) (t : Nat) (a : A) : Out.sent t s.next a ∉ tr := by
  intro hm
  obtain ⟨t0, T, hq⟩ := h.sent _ _ _ hm
  exact absurd (h.known _ _ _ _ hq).1 (Nat.lt_irrefl _)

theorem Inv.enqueue {P : PQ A} {s tr} (h : Inv P s tr) {now rnd addr mid token s' o}
    (hs : Retry.enqueue P s now rnd addr mid token = some (s', o)) : Inv P s' (tr ++ o) := by
  unfold Retry.enqueue at hs
  split at hs
  · rename_i hr
    simp only [Option.some.injEq, Prod.mk.injEq] at hs
    obtain ⟨rfl, rfl⟩ := hs
    have hp := P.push_perm s.q ⟨s.next, addr, mid, token, rnd % 4096, 0, now + Item.delta ⟨s.next, addr, mid, token, rnd % 4096, 0, 0⟩⟩ h.heap
    have hm := fun x => hp.mem_iff (a := x)
    have hf := sendsOf_nil_of (h.fresh)
    refine ⟨P.push_heap _ _ h.heap, ?_, ?_, ?_, ?_, ?_, ?_, ?_⟩
    · rw [hp.length_eq]; simp; omega
    · rw [(hp.map _).nodup_iff]
      simp only [List.map_cons, List.nodup_cons]
      refine ⟨fun hx => ?_, h.nodup⟩
      obtain ⟨x, hx, e⟩ := List.mem_map.1 hx
      have := (h.item x hx).1
      omega
    · intro x hx
      rw [hm, List.mem_cons] at hx
      simp only [sendsOf_append, sendsOf, List.append_nil]
      rcases hx with rfl | hx
      · refine ⟨Nat.lt_succ_self _, Nat.zero_le _, by simp [hf], ?_, now, by simp, by simp [hf, Item.delta]⟩
        simp only [List.mem_append, List.mem_singleton, reduceCtorEq, or_false]
        intro hx
        obtain ⟨t0, T, a, hq⟩ := h.acked _ hx
        exact absurd (h.known _ _ _ _ hq).1 (Nat.lt_irrefl _)
      · obtain ⟨h1, h2, h3, h4, t0, h5, h6⟩ := h.item x hx
        exact ⟨Nat.lt_succ_of_lt h1, h2, h3, by simpa using h4, t0, by simp [h5], h6⟩
    · intro t0 id T a hq
      simp only [List.mem_append, List.mem_singleton, Out.queued.injEq] at hq
      simp only [sendsOf_append, sendsOf, List.append_nil]
      rcases hq with hq | ⟨rfl, rfl, rfl, rfl⟩
      · obtain ⟨h1, h2, h3, h4⟩ := h.known _ _ _ _ hq
        refine ⟨by omega, h2, h3, ?_⟩
        rcases h4 with ⟨x, hx, e⟩ | h4 | h4
        · exact Or.inl ⟨x, (hm x).2 (List.mem_cons_of_mem _ hx), e⟩
        · exact Or.inr (Or.inl (by simp [h4]))
        · exact Or.inr (Or.inr h4)
      · refine ⟨Nat.lt_succ_self _, by simp [hf, Spaced], by simp [hf], Or.inl ⟨_, (hm _).2 List.mem_cons_self, rfl⟩⟩
    · intro t0 id T a t0' T' a' hq hq'
      simp only [List.mem_append, List.mem_singleton, Out.queued.injEq] at hq hq'
      rcases hq with hq | ⟨rfl, rfl, rfl, rfl⟩ <;> rcases hq' with hq' | ⟨rfl, e, rfl, rfl⟩
      · exact h.uniq _ _ _ _ _ _ _ hq hq'
      · have := (h.known _ _ _ _ hq).1; omega
      · have := (h.known _ _ _ _ hq').1; omega
      · exact ⟨rfl, rfl, rfl⟩
    · intro t id a hx
      simp only [List.mem_append, List.mem_singleton, reduceCtorEq, or_false] at hx
      obtain ⟨t0, T, hq⟩ := h.sent _ _ _ hx
      exact ⟨t0, T, by simp [hq]⟩
    · intro id hx
      simp only [List.mem_append, List.mem_singleton, reduceCtorEq, or_false] at hx
      obtain ⟨t0, T, a, hq⟩ := h.acked _ hx
      exact ⟨t0, T, a, by simp [hq]⟩
  · exact absurd hs (by simp)

/-- The queue loses one item because of an acknowledgement. -/
theorem Inv.drop {P : PQ A} {s tr} (h : Inv P s tr) {x : Item A} {l q' : List (Item A)} (hq : s.q.Perm (x :: l)) (hp : q'.Perm l)
    (hh : P.heap q') : Inv P ⟨q', s.next⟩ (tr ++ [.acked x.id]) := by
  have hm := fun y => hp.mem_iff (a := y)
  have hx : x ∈ s.q := hq.mem_iff.2 List.mem_cons_self
  have hl : ∀ y ∈ l, y ∈ s.q := fun y hy => hq.mem_iff.2 (List.mem_cons_of_mem _ hy)
  have hn := h.nodup
  rw [(hq.map _).nodup_iff, List.map_cons, List.nodup_cons] at hn
  refine ⟨hh, ?_, by rw [(hp.map _).nodup_iff]; exact hn.2, ?_, ?_, ?_, ?_, ?_⟩
  · have := hq.length_eq; have := hp.length_eq; have := h.room; simp at *; omega
  · intro y hy
    rw [hm] at hy
    obtain ⟨h1, h2, h3, h4, t0, h5, h6⟩ := h.item y (hl y hy)
    simp only [sendsOf_append, sendsOf, List.append_nil]
    refine ⟨h1, h2, h3, ?_, t0, by simp [h5], h6⟩
    simp only [List.mem_append, List.mem_singleton, Out.acked.injEq]
    rintro (hc | hc)
    · exact h4 hc
    · exact hn.1 (hc ▸ List.mem_map.2 ⟨y, hy, rfl⟩)
  · intro t0 id T a hk
    simp only [List.mem_append, List.mem_singleton, reduceCtorEq, or_false] at hk
    obtain ⟨h1, h2, h3, h4⟩ := h.known _ _ _ _ hk
    simp only [sendsOf_append, sendsOf, List.append_nil]
    refine ⟨h1, h2, h3, ?_⟩
    rcases h4 with ⟨y, hy, rfl⟩ | h4 | h4
    · rcases List.mem_cons.1 (hq.mem_iff.1 hy) with rfl | hy
      · exact Or.inr (Or.inl (by simp))
      · exact Or.inl ⟨y, (hm y).2 hy, rfl⟩
    · exact Or.inr (Or.inl (by simp [h4]))
    · exact Or.inr (Or.inr h4)
  · intro t0 id T a t0' T' a' h1 h2
    simp only [List.mem_append, List.mem_singleton, reduceCtorEq, or_false] at h1 h2
    exact h.uniq _ _ _ _ _ _ _ h1 h2
  · intro t id a hk
    simp only [List.mem_append, List.mem_singleton, reduceCtorEq, or_false] at hk
    obtain ⟨t0, T, hq⟩ := h.sent _ _ _ hk
    exact ⟨t0, T, by simp [hq]⟩
  · intro id hk
    simp only [List.mem_append, List.mem_singleton, Out.acked.injEq] at hk
    rcases hk with hk | rfl
    · obtain ⟨t0, T, a, hq⟩ := h.acked _ hk
      exact ⟨t0, T, a, by simp [hq]⟩
    · obtain ⟨-, -, -, -, t0, h5, -⟩ := h.item x hx
      exact ⟨t0, x.timeout, x.addr, by simp [h5]⟩

/-- The top of the queue is retransmitted and either put back (`again`) or dropped. -/
theorem Inv.send {P : PQ A} {s tr} (h : Inv P s tr) {x : Item A} {l q' : List (Item A)} {now : Nat} (hq : s.q.Perm (x :: l))
    (hdue : x.due ≤ now) (hh : P.heap q')
    (hp : (x.counter < 2 ∧ q'.Perm ({ x with counter := x.counter + 1, due := now + x.timeout * 2 ^ (x.counter + 1) } :: l)) ∨
      (x.counter = 2 ∧ q'.Perm l)) : Inv P ⟨q', s.next⟩ (tr ++ [.sent now x.id x.addr]) := by
  have hx : x ∈ s.q := hq.mem_iff.2 List.mem_cons_self
  have hl : ∀ y ∈ l, y ∈ s.q := fun y hy => hq.mem_iff.2 (List.mem_cons_of_mem _ hy)
  have hn := h.nodup
  rw [(hq.map _).nodup_iff, List.map_cons, List.nodup_cons] at hn
  have hne : ∀ y ∈ l, x.id ≠ y.id := fun y hy e => hn.1 (e ▸ List.mem_map.2 ⟨y, hy, rfl⟩)
  obtain ⟨x1, x2, x3, x4, t0, x5, x6⟩ := h.item x hx
  have hlm : ∀ y ∈ l, y ∈ q' := by
    intro y hy; rcases hp with hp | hp
    · exact hp.2.mem_iff.2 (List.mem_cons_of_mem _ hy)
    · exact hp.2.mem_iff.2 hy
  have hitem : ∀ y ∈ l, y.id < s.next ∧ y.counter ≤ 2 ∧ (sendsOf y.id (tr ++ [.sent now x.id x.addr])).length = y.counter ∧
      Out.acked y.id ∉ tr ++ [.sent now x.id x.addr] ∧
      ∃ t0, Out.queued t0 y.id y.timeout y.addr ∈ tr ++ [.sent now x.id x.addr] ∧
        y.due = (sendsOf y.id (tr ++ [.sent now x.id x.addr])).getLastD t0 + y.timeout * 2 ^ y.counter := by
    intro y hy
    obtain ⟨h1, h2, h3, h4, t0, h5, h6⟩ := h.item y (hl y hy)
    simp only [sendsOf_append, sendsOf, if_neg (hne y hy), List.append_nil]
    exact ⟨h1, h2, h3, by simpa using h4, t0, by simp [h5], h6⟩
  refine ⟨hh, ?_, ?_, ?_, ?_, ?_, ?_, ?_⟩
  · have := hq.length_eq; have := h.room
    rcases hp with hp | hp <;> have := hp.2.length_eq <;> simp at * <;> omega
  · rcases hp with hp | hp
    · rw [(hp.2.map _).nodup_iff]; exact List.nodup_cons.2 hn
    · rw [(hp.2.map _).nodup_iff]; exact hn.2
  · intro y hy
    rcases hp with ⟨hc, hp⟩ | ⟨hc, hp⟩
    · rcases List.mem_cons.1 (hp.mem_iff.1 hy) with rfl | hy
      · simp only [sendsOf_append, sendsOf, if_true]
        refine ⟨x1, by omega, by simp [x3], by simpa using x4, t0, by simp [x5], by simp⟩
      · exact hitem y hy
    · exact hitem y (hp.mem_iff.1 hy)
  · intro t1 id T a hk
    simp only [List.mem_append, List.mem_singleton, reduceCtorEq, or_false] at hk
    obtain ⟨h1, h2, h3, h4⟩ := h.known _ _ _ _ hk
    by_cases e : x.id = id
    · subst e
      obtain ⟨rfl, rfl, rfl⟩ := h.uniq _ _ _ _ _ _ _ hk x5
      simp only [sendsOf_append, sendsOf, if_true]
      refine ⟨h1, Spaced.snoc h2 ?_, by simp [x3]; omega, ?_⟩
      · rw [Nat.zero_add, x3]; omega
      · rcases hp with ⟨hc, hp⟩ | ⟨hc, hp⟩
        · exact Or.inl ⟨_, hp.mem_iff.2 List.mem_cons_self, rfl⟩
        · exact Or.inr (Or.inr (by simp [x3, hc]))
    · simp only [sendsOf_append, sendsOf, if_neg e, List.append_nil]
      refine ⟨h1, h2, h3, ?_⟩
      rcases h4 with ⟨y, hy, rfl⟩ | h4 | h4
      · rcases List.mem_cons.1 (hq.mem_iff.1 hy) with rfl | hy
        · exact absurd rfl e
        · exact Or.inl ⟨y, hlm y hy, rfl⟩
      · exact Or.inr (Or.inl (by simp [h4]))
      · exact Or.inr (Or.inr h4)
  · intro t0 id T a t0' T' a' h1 h2
    simp only [List.mem_append, List.mem_singleton, reduceCtorEq, or_false] at h1 h2
    exact h.uniq _ _ _ _ _ _ _ h1 h2
  · intro t id a hk
    simp only [List.mem_append, List.mem_singleton, Out.sent.injEq] at hk
    rcases hk with hk | ⟨rfl, rfl, rfl⟩
    · obtain ⟨t0, T, hq⟩ := h.sent _ _ _ hk
      exact ⟨t0, T, by simp [hq]⟩
    · exact ⟨t0, x.timeout, by simp [x5]⟩
  · intro id hk
    simp only [List.mem_append, List.mem_singleton, reduceCtorEq, or_false] at hk
    obtain ⟨t0, T, a, hq⟩ := h.acked _ hk
    exact ⟨t0, T, a, by simp [hq]⟩

/-- One call of `service_retry` on a heap. -/
theorem service_cases (P : PQ A) (s : St A) (now : Nat) (hh : P.heap s.q) (hc : ∀ x ∈ s.q, x.counter ≤ 2) :
    (serviceRetry P s now = (s, []) ∧ ∀ x ∈ s.q, now < x.due) ∨
    ∃ x l q', s.q = x :: l ∧ x.due ≤ now ∧ (∀ y ∈ l, x.due ≤ y.due) ∧ P.heap q' ∧
      serviceRetry P s now = (⟨q', s.next⟩, [.sent now x.id x.addr]) ∧
      ((x.counter < 2 ∧ q'.Perm ({ x with counter := x.counter + 1, due := now + x.timeout * 2 ^ (x.counter + 1) } :: l)) ∨
      (x.counter = 2 ∧ q'.Perm l)) := by
  obtain ⟨q, n⟩ := s
  cases q with
  | nil => exact Or.inl ⟨rfl, by simp⟩
  | cons x l =>
    simp only at hh hc
    have htop := P.heap_top x l hh
    by_cases hd : now ≥ x.due
    · right
      have h1 := P.pop_heap x l hh
      have h2 := P.pop_perm x l hh
      have := hc x List.mem_cons_self
      by_cases c1 : x.counter < 2
      · have e : (x.counter + 1) % 8 = x.counter + 1 := by omega
        refine ⟨x, l, _, rfl, hd, htop, P.push_heap _ _ h1, ?_, Or.inl ⟨c1, (P.push_perm _ _ h1).trans (h2.cons _)⟩⟩
        simp only [serviceRetry, if_pos hd, Nat.reduceSub, if_pos c1, e, Item.delta]
      · have c2 : x.counter = 2 := by omega
        refine ⟨x, l, _, rfl, hd, htop, h1, ?_, Or.inr ⟨c2, h2⟩⟩
        simp only [serviceRetry, if_pos hd, Nat.reduceSub, if_neg c1, if_pos c2]
    · left
      refine ⟨by simp only [serviceRetry, if_neg hd], fun y hy => ?_⟩
      rcases List.mem_cons.1 hy with rfl | hy
      · omega
      · have := htop y hy; omega

/-- One arrival. -/
theorem ack_cases (P : PQ A) (same : A → A → Bool) (s : St A) (addr : A) (mid : UInt16) (token : List UInt8) :
    (ackReceived P same s addr mid token = (s, [], false) ∧ ∀ x ∈ s.q, hits same addr mid token x = false) ∨
    ∃ x l1 l2 q', s.q = l1 ++ x :: l2 ∧ hits same addr mid token x = true ∧ (∀ y ∈ l1, hits same addr mid token y = false) ∧
      q'.Perm (l1 ++ l2) ∧ P.heap q' ∧ ackReceived P same s addr mid token = (⟨q', s.next⟩, [.acked x.id], true) := by
  unfold ackReceived
  cases hf : s.q.find? (hits same addr mid token) with
  | none =>
    left
    refine ⟨rfl, fun x hx => ?_⟩
    have := List.find?_eq_none.1 hf x hx
    simpa using this
  | some x =>
    right
    obtain ⟨h1, l1, l2, h2, h3⟩ := List.find?_eq_some_iff_append.1 hf
    have h3 : ∀ y ∈ l1, hits same addr mid token y = false := fun y hy => by simpa using h3 y hy
    refine ⟨x, l1, l2, _, h2, h1, h3, ?_, P.make_heap _, rfl⟩
    have : s.q.eraseP (hits same addr mid token) = l1 ++ l2 := by
      rw [h2, List.eraseP_append_right _ (fun y hy => by simp [h3 y hy]), List.eraseP_cons_of_pos h1]
    rw [this]
    exact P.make_perm _

theorem Inv.step {P : PQ A} {same s tr} (h : Inv P s tr) {e : Ev A} {s' o} (hs : Retry.step P same s e = some (s', o)) :
    Inv P s' (tr ++ o) := by
  cases e with
  | sent now rnd addr hd token =>
    simp only [Retry.step, onSent] at hs
    split at hs
    · exact h.enqueue hs
    · simp only [Option.some.injEq, Prod.mk.injEq] at hs
      obtain ⟨rfl, rfl⟩ := hs; simpa using h
  | recv addr hd token =>
    simp only [Retry.step, serviceAck, Option.some.injEq, Prod.mk.injEq] at hs
    split at hs
    · rcases ack_cases P same s addr hd.messageId token with ⟨e, -⟩ | ⟨x, l1, l2, q', hq, -, -, hp, hh, e⟩
      · rw [e] at hs; obtain ⟨rfl, rfl⟩ := hs; simpa using h
      · rw [e] at hs; obtain ⟨rfl, rfl⟩ := hs
        exact h.drop (by rw [hq]; exact List.perm_middle) hp hh
    · obtain ⟨rfl, rfl⟩ := hs; simpa using h
  | service now =>
    simp only [Retry.step, Option.some.injEq] at hs
    rcases service_cases P s now h.heap (fun x hx => (h.item x hx).2.1) with ⟨e, -⟩ | ⟨x, l, q', hq, hd, -, hh, e, hp⟩
    · rw [e] at hs; cases hs; simpa using h
    · rw [e] at hs; cases hs
      exact h.send (by rw [hq]) hd hh hp

theorem Inv.run {P : PQ A} {same} {es : List (Ev A)} {s tr s' o} (h : Inv P s tr) (hs : Retry.run P same s es = some (s', o)) :
    Inv P s' (tr ++ o) := by
  induction es generalizing s tr s' o with
  | nil => simp only [Retry.run, Option.some.injEq, Prod.mk.injEq] at hs; obtain ⟨rfl, rfl⟩ := hs; simpa using h
  | cons e es ih =>
    simp only [Retry.run] at hs
    split at hs
    · exact absurd hs (by simp)
    · rename_i s1 o1 h1
      cases hr : Retry.run P same s1 es with
      | none => rw [hr] at hs; exact absurd hs (by simp)
      | some r =>
        rw [hr] at hs
        simp only [Option.map_some, Option.some.injEq, Prod.mk.injEq] at hs
        obtain ⟨rfl, rfl⟩ := hs
        simpa using ih (h.step h1) hr

theorem run_append {P : PQ A} {same} {e1 e2 : List (Ev A)} {s : St A} {r : St A × List (Out A)}
    (h : Retry.run P same s (e1 ++ e2) = some r) :
    ∃ s1 o1 s2 o2, Retry.run P same s e1 = some (s1, o1) ∧ Retry.run P same s1 e2 = some (s2, o2) ∧ r = (s2, o1 ++ o2) := by
  induction e1 generalizing s r with
  | nil => exact ⟨s, [], r.1, r.2, rfl, by simpa using h, by simp⟩
  | cons e e1 ih =>
    simp only [List.cons_append, Retry.run] at h ⊢
    split at h
    · exact absurd h (by simp)
    · rename_i s1 o1 h1
      cases hr : Retry.run P same s1 (e1 ++ e2) with
      | none => rw [hr] at h; exact absurd h (by simp)
      | some r' =>
        rw [hr] at h
        simp only [Option.map_some, Option.some.injEq] at h
        obtain ⟨sa, oa, sb, ob, g1, g2, rfl⟩ := ih hr
        refine ⟨sa, o1 ++ oa, sb, ob, by simp [g1], g2, by rw [← h]; simp⟩

end Verif.Proofs.Retry
